import Verif.Proofs.ApgStep
/-
The whole amortized Gibbs sampler.
-/
namespace Verif
open Spec Apg
variable {L : Lang} {E : Err → Prop} {N : ApgNet L} {same : L.V → L.V → Bool} {T : Nat}

/-! ### Resampling -/

theorem resampleHook_get? {tr retr : Trace L} (l : List String) (hl : l.Nodup) (d : Dict (PyVal L)) (k : String) :
    (l.foldl (resampleHookStep same tr retr) d).get? k =
      if k ∈ l then (resampleHookStep same tr retr d k).get? k else d.get? k := by
  have step : ∀ (d : Dict (PyVal L)) j, j ≠ k → (resampleHookStep same tr retr d j).get? k = d.get? k := by
    intro d j hj
    unfold resampleHookStep
    split
    · split
      · rw [Dict.get?_insert, if_neg (Ne.symm hj)]
      · rfl
    · rfl
  have cong : ∀ d d' : Dict (PyVal L), d.get? k = d'.get? k →
      (resampleHookStep same tr retr d k).get? k = (resampleHookStep same tr retr d' k).get? k := by
    intro d d' h
    unfold resampleHookStep
    rw [h]
    split
    · split
      · rw [Dict.get?_insert_self, Dict.get?_insert_self]
      · exact h
    · exact h
  induction l generalizing d with
  | nil => simp
  | cons j l ih =>
    rw [List.foldl_cons, ih (List.nodup_cons.1 hl).2]
    by_cases hj : j = k
    · subst hj
      rw [if_neg (List.nodup_cons.1 hl).1, if_pos (by simp)]
    · rw [step d j hj]
      by_cases hk : k ∈ l
      · rw [if_pos hk, if_pos (by simp [hk]), cong _ _ (step d j hj)]
      · rw [if_neg hk, if_neg (by simp [hk, Ne.symm hj])]

/-- The results of the sampler that get resampled: with a log weight and with variables that have distributions. -/
def Fit (t : Trace L) (lw : LW L.W) : Prop :=
  (∃ x, lw = .tensor x) ∧ ∀ k rv, t.get? k = some rv → ∃ d v p rp, rv = RV.mk' d v p rp

/-- Whenever the resampler returns, the trace has the same addresses; otherwise it raises one of the errors `E`. At least for dimensions
`K` and results of the sampler. -/
def Resamples (E : Err → Prop) (K : PyVal L → PyVal L → Prop) (r : ResamplerFn L) : Prop :=
  ∀ sd bd t lw x, K sd bd → Fit t lw → (r sd bd t lw).Ret x →
    (∃ e, x = .error e ∧ E e) ∨ ∃ t2 lw2, x = .ok (t2, lw2) ∧ ∀ k, t2.contains k = t.contains k

/-- Keyword arguments with dimensions `K`. -/
def KwOn (K : PyVal L → PyVal L → Prop) (kw : Kw L) : Prop := KwOk kw ∧ K kw.sampleDims kw.batchDim

theorem KwOn.sub {K : PyVal L → PyVal L → Prop} {kw : Kw L} (h : KwOn K kw) (a : Attrs L) : KwOn K (subKw a kw) := h

theorem stage_fit {n : Nat} {s zw : Int} {f : L.V} {o : Out L} {w : World L} (h : Stage N same T n s zw f o w) : Fit o.trace o.logWeight := by
  refine ⟨h.weight, fun k rv hk => ?_⟩
  obtain ⟨val, what, hl⟩ := h.latent
  rcases (h.addr k).1 (Dict.contains_iff.2 (Dict.mem_keys_iff.2 ⟨rv, hk⟩)) with rfl | rfl | ⟨i, hi, rfl⟩
  · rw [hl.recon] at hk; cases hk; exact ⟨_, _, _, _, rfl⟩
  · rw [hl.appearance] at hk; cases hk; exact ⟨_, _, _, _, rfl⟩
  · rw [hl.wheres i hi] at hk; cases hk; exact ⟨_, _, _, _, rfl⟩

/-- Resample, after its resampler has returned. -/
def resampleTail (a : Attrs L) (kw : Kw L) (qo : Out L) (x : Trace L × LW L.W) : Exec L (Out L) :=
  Exec.bind (Exec.lift (resampleOutput qo.output x.1)) fun c2 =>
  Exec.bind (Exec.onStore (·.resampleUpdate qo.trace x.1)) fun _ =>
  Exec.bind (Exec.lift (foldLoss a (Out.mk x.1 x.2 c2 .resample (some (pickIx a.ix kw.ix)) none none none []) qo)) fun out =>
  Exec.pure (if kw.debug || a.debug then out.setSubs [("q_out", qo)] else out)

theorem eval_resampleTail (a : Attrs L) (r : ResamplerFn L) (q : Node L) (c : PyVal L) (kw : Kw L) :
    eval (.resample a r q) c kw = Exec.bind (eval q c (childKw a kw)) fun qo =>
      Exec.bind (Exec.liftComp (r kw.sampleDims kw.batchDim qo.trace qo.logWeight)) (resampleTail a kw qo) := by
  simp only [eval, dispatchKw_node]
  rfl

theorem done_resampleTail (hsame : ∀ v, same v v = true) {n : Nat} {s zw : Int} {f : L.V} {a : Attrs L} {kw : Kw L} {qo : Out L}
    {w1 : World L} (hl : a.lossFn = idLoss) (hS : Stage N same T n s zw f qo w1) {t2 : Trace L} (lw2 : LW L.W)
    (hk : ∀ k, t2.contains k = qo.trace.contains k) :
    (resampleTail a kw qo (t2, lw2)).Done w1 fun o w' => Ready N same T n s zw f o w' ∧ o.trace = t2 ∧ o.logWeight = lw2 ∧
      o.loss = some (qo.loss.getD a.loss0) := by
  obtain ⟨kvs, ho, hkeys, hall, f', hf', hT⟩ := hS.output
  unfold resampleTail
  refine Exec.Done.bind (Exec.Done.lift (a := .dict (kvs.map fun e => (e.1, resampleEntry t2 e))) ?_
    (Q := fun c2 w' => c2 = .dict (kvs.map fun e => (e.1, resampleEntry t2 e)) ∧ w' = w1) ⟨rfl, rfl⟩) ?_
  · rw [ho]
    unfold resampleOutput
    dsimp only
    rw [if_neg]
    intro h
    rw [List.any_eq_true] at h
    obtain ⟨⟨k, v⟩, hm, hb⟩ := h
    obtain ⟨x, rfl⟩ := hall _ _ hm
    simp [isTensor] at hb
  rintro c2 w2 ⟨rfl, rfl⟩
  refine Exec.Done.onStore_bind (a := ()) (s := { w2.store with data := (qo.trace.keys.foldl (resampleHookStep same qo.trace t2) w2.store.data) }) ?_ ?_
  · unfold Store.resampleUpdate
    have := hS.calm.hooks
    generalize w2.store = st at this
    obtain ⟨d, hk⟩ := st
    subst this
    rfl
  have hmap : ∀ k x, getL kvs k = some x → getL (kvs.map fun e => (e.1, resampleEntry t2 e)) k = some (resampleEntry t2 (k, x)) := by
    intro k x h
    clear hkeys hall ho hf'
    induction kvs with
    | nil => simp [getL] at h
    | cons e l ih =>
      obtain ⟨k', v'⟩ := e
      simp only [List.map_cons, getL] at h ⊢
      by_cases h' : k' = k
      · subst h'
        rw [if_pos rfl] at h ⊢
        cases h
        rfl
      · rw [if_neg h'] at h ⊢
        exact ih h
  have hin : ∀ k, (k = zWhatName zw ∨ ∃ i, i < n ∧ k = zWhereName i s) → t2.contains k = true →
      ∃ rv, t2.get? k = some rv ∧ item (.dict (kvs.map fun e => (e.1, resampleEntry t2 e))) k = .ok rv.value := by
    intro k hk1 hk2
    rw [Dict.contains_iff, Dict.mem_keys_iff] at hk2
    obtain ⟨rv, hrv⟩ := hk2
    refine ⟨rv, hrv, ?_⟩
    have := (hkeys k).2 (Or.inr hk1)
    rw [← getL_isSome, Option.isSome_iff_exists] at this
    obtain ⟨x, hx⟩ := this
    simp only [item]
    rw [hmap k x hx]
    simp [resampleEntry, hrv]
  have hR : ∀ o : Out L, o.trace = t2 → o.output = .dict (kvs.map fun e => (e.1, resampleEntry t2 e)) →
      Ready N same T n s zw f o { w2 with store := { w2.store with data := (qo.trace.keys.foldl (resampleHookStep same qo.trace t2) w2.store.data) } } := by
    intro o h1 h2
    refine ⟨⟨hS.calm.cond, hS.calm.hooks⟩, ?_, ⟨_, h2⟩, ?_, ?_, ?_, ?_⟩
    · intro k
      rw [h1, hk, hS.addr]
    · have hnf : t2.get? "frames" = none := by
        rw [Dict.get?_eq_none, ← Dict.contains_iff, hk, hS.addr]
        rintro (h | h | ⟨i, -, h⟩)
        · revert h; decide
        · exact (C42_kinds_disjoint 0 0 _).2.2.2.2 h.symm
        · exact (C42_kinds_disjoint _ _ 0).2.2.2.1 h.symm
      have hg := hS.given
      rw [ho] at hg
      simp only [item, hf'] at hg
      rw [h2]
      simp only [item]
      rw [hmap _ _ hf']
      simp only [resampleEntry, hnf]
      exact hg
    · rw [h1, h2]
      exact hin _ (Or.inl rfl) (by rw [hk, hS.addr]; exact Or.inr (Or.inl rfl))
    · intro i hi
      rw [h1, h2]
      obtain ⟨rv, h3, -⟩ := hS.stored i hi
      exact hin _ (Or.inr ⟨i, hi, rfl⟩) (by rw [hk, Dict.contains_iff, Dict.mem_keys_iff]; exact ⟨_, h3⟩)
    · intro i hi
      obtain ⟨rv, h3, h2⟩ := hS.stored i hi
      have h3' : zWhereName i s ∈ qo.trace.keys := Dict.mem_keys_iff.2 ⟨_, h3⟩
      have h4 : t2.contains (zWhereName i s) = true := by rw [hk]; exact Dict.contains_iff.2 h3'
      rw [Dict.contains_iff, Dict.mem_keys_iff] at h4
      obtain ⟨rv2, h4⟩ := h4
      refine ⟨rv2, by rw [h1]; exact h4, ?_⟩
      simp only
      rw [resampleHook_get? qo.trace.keys qo.trace.nodup, if_pos h3']
      unfold resampleHookStep
      rw [h2, h4, h3]
      simp only [hsame, if_true, Dict.get?_insert_self]
  unfold foldLoss
  rw [hl]
  simp only [idLoss]
  refine Exec.Done.bind (Exec.Done.lift rfl (Q := fun o w' => o.trace = t2 ∧ o.logWeight = lw2 ∧ o.loss = some (qo.loss.getD a.loss0) ∧
    o.output = .dict (kvs.map fun e => (e.1, resampleEntry t2 e)) ∧ w' = { w2 with store := { w2.store with data := (qo.trace.keys.foldl (resampleHookStep same qo.trace t2) w2.store.data) } }) ⟨rfl, rfl, rfl, rfl, rfl⟩) ?_
  rintro o w' ⟨h1, h2, h4, h3, rfl⟩
  refine Exec.Done.pure ?_
  cases o
  split
  · exact ⟨hR _ h1 h3, h1, h2, h4⟩
  · exact ⟨hR _ h1 h3, h1, h2, h4⟩

theorem safe_gibbsResample (hsame : ∀ v, same v v = true) {r : ResamplerFn L} {K : PyVal L → PyVal L → Prop} (hr : Resamples E K r)
    {n : Nat} {s zw : Int} {f : L.V} {a : Attrs L} {q : Node L} {c : PyVal L} {kw : Kw L} (hK : K kw.sampleDims kw.batchDim) {w : World L} (hl : a.lossFn = idLoss)
    (hq : (eval q c (childKw a kw)).Safe E w (Stage N same T n s zw f)) :
    (eval (.resample a r q) c kw).Safe E w (Ready N same T n s zw f) := by
  rw [eval_resampleTail]
  refine Exec.Safe.bind' hq fun qo w1 hS => Exec.Safe.bind' (Q1 := fun x w' => w' = w1 ∧ ∀ k, x.1.contains k = qo.trace.contains k) ?_ ?_
  · intro x w' hx
    rw [Exec.Runs_liftComp] at hx
    rcases hr _ _ _ _ _ hK (stage_fit hS) hx.1 with ⟨e, rfl, he⟩ | ⟨t2, lw2, rfl, hk⟩
    · exact Or.inr ⟨e, rfl, he⟩
    · exact Or.inl ⟨_, rfl, hx.2, hk⟩
  · rintro ⟨t2, lw2⟩ w' ⟨rfl, hk⟩
    exact ((done_resampleTail hsame hl hS lw2 hk).mono fun o w' h => h.1).safe

/-! ### The initial proposal -/

/-- After `m` turns of the first loop. -/
structure Started (N : ApgNet L) (same : L.V → L.V → Bool) (T m : Nat) (f : L.V) (out : Out L) (w : World L) : Prop where
  calm : Calm same w
  addr : ∀ k, out.trace.contains k = true ↔ ∃ i, i < m ∧ k = zWhereName i 0
  dict : ∃ kvs, out.output = .dict kvs
  given : item out.output "frames" = .ok f
  wheres : ∀ i, i < m → ∃ rv, out.trace.get? (zWhereName i 0) = some rv ∧ item out.output (zWhereName i 0) = .ok rv.value
  stored : Stored m 0 out.trace w
  sampled : ∀ k rv, out.trace.get? k = some rv → rv.prov = .sampled
  weight : out.logWeight = .float0
  loss : out.loss.getD 0 = 0

/-- The values a trace holds at the addresses of positions. -/
noncomputable def posOf (dflt : L.V) (t : Trace L) (s : Int) (i : Nat) : L.V := ((t.get? (zWhereName i s)).map (·.value)).getD dflt

theorem posOf_eq {dflt : L.V} {t : Trace L} {s : Int} {i : Nat} {rv : RV L} (h : t.get? (zWhereName i s) = some rv) :
    posOf dflt t s i = rv.value := by simp [posOf, h]

theorem prior_congr {n : Nat} {val val' : Nat → L.V} (i : Nat) (hi : i < T) (h : ∀ j, j < T → val j = val' j) :
    prior N n val i = prior N n val' i := by
  unfold prior
  split
  · rfl
  · rw [h _ (by omega)]

theorem Apg.Latents.congr {n : Nat} {s zw : Int} {f what : L.V} {t : Trace L} {val val' : Nat → L.V} (hl : Latents N T n s zw f val what t)
    (h : ∀ i, i < T → val i = val' i) : Latents N T n s zw f val' what t := by
  have hr : (List.range T).map val = (List.range T).map val' := List.map_congr_left fun i hi => h i (by simpa using hi)
  refine ⟨fun i hi => ?_, hl.appearance, ?_, ?_⟩
  · rw [hl.wheres i hi, h i hi, prior_congr i hi h]
  · rw [hl.recon, hr]
  · rw [hl.total]
    unfold joint
    rw [hr]
    congr 2
    refine Finset.sum_congr rfl fun i hi => ?_
    have hi := Finset.mem_range.1 hi
    rw [h i hi, prior_congr i hi h]

section whole
variable {i0 i1 i2 i3 fresh : ObjId} {fl : LW L.W → LW L.W → LW L.W → L.Lo} {gl : LW L.W → LW L.W → L.W → L.Lo} {r : ResamplerFn L}
  {kvs : List (String × PyVal L)} {f : L.V}

theorem done_noop (hf : item (.dict kvs) "frames" = .ok f) (kw : Kw L) (hkw : KwOk kw) (w : World L) (hw : Calm same w) :
    (eval (.prog i0 noopProg) (.dict kvs) kw).Done w fun o w' => Started N same T 0 f o w' ∧ total o.trace = 0 := by
  apply done_prog (bindModel_ok hkw (by rfl))
  refine Exec.Done.pure ⟨⟨hw, by simp [Dict.contains, Dict.get?, getL, Dict.empty, Out.trace], ⟨kvs, rfl⟩, hf, fun i hi => by omega,
    fun i hi => by omega, ?_, ?_, rfl⟩, rfl⟩
  · intro k rv h
    simp [Dict.get?, getL, Dict.empty, Out.trace] at h
  · simp only [Out.logWeight_mk]
    rw [logJoint_eq_float0]
    intro k hk
    simp [Dict.keys, Dict.empty] at hk

/-- One turn of the first loop, after the earlier ones. -/
theorem draws_initStep (hT : N.timesteps f = T) {m : Nat} (hm : m < T) {a : Attrs L} (ha : a.ix = fwdIx m 0) (hal : a.lossFn = idLoss) (ha0 : a.loss0 = 0)
    {kw : Kw L} (hkw : KwOk kw) {o1 : Out L} {w1 : World L} (h1 : Started N same T m f o1 w1) :
    (Exec.bind (eval (.prog i1 (encCoorProg N)) o1.output (subKw a kw)) fun o2 => Exec.lift (composeRest a kw o1 o2)).Draws w1
      (coorDraws N f m none N.objects []) fun zs out w' => Started N same T (m + 1) f out w' ∧
        total out.trace = total o1.trace + L.logProb (N.coorDist f m none zs) (N.stack zs) ∧
        ∀ k, valueAt out.trace k = if k = zWhereName m 0 then some (N.stack zs) else valueAt o1.trace k := by
  obtain ⟨kvs1, ho1⟩ := h1.dict
  have hf1 := h1.given
  have hz1 := h1.wheres
  rw [ho1] at hf1 hz1 ⊢
  refine Exec.Draws.bind (draws_coor_fwd (same := same) i1 m 0 hm hf1 hT (what := none) (by rfl) (hkw.sub _) (by rw [subKw, ha]; rfl)
    (h1.calm.cond _) h1.calm.hooks) ?_
  rintro zs o2 w2 ⟨rfl, h2, h3, h4⟩
  have hnin : zWhereName m 0 ∉ o1.trace.keys := by
    rw [← Dict.contains_iff, h1.addr]
    rintro ⟨i, hi, he⟩
    have := ((C42_z_where_injective _ _ _ _).1 he).1
    omega
  have hno : ¬ Overlap o1.trace o2.trace := by
    rintro ⟨k, hk1, hk2⟩
    rw [h2, mem_keys_one] at hk2
    subst hk2
    exact hnin hk1
  rcases composeRest_spec a kw o1 o2 with ⟨h, -⟩ | ⟨-, t', lw, h5, -, h7, h6⟩
  · exact absurd h hno
  unfold finish at h6
  rw [hal] at h6
  simp only [idLoss] at h6
  have hlw : lw = .float0 := h7.2 ⟨h1.weight, h3⟩
  have hgetm : t'.get? (zWhereName m 0) = some (RV.mk' (N.coorDist f m none zs) (N.stack zs) .sampled N.reparam) :=
    get?_union_left h5 (by rw [h2, one_get?]; exact if_pos rfl)
  have hgeto : ∀ k, k ≠ zWhereName m 0 → t'.get? k = o1.trace.get? k := fun k hk =>
    get?_union h5 _ (by rw [h2, mem_keys_one]; exact hk)
  have hne : ∀ i, i < m → zWhereName i 0 ≠ zWhereName m 0 := by
    intro i hi he
    have := ((C42_z_where_injective _ _ _ _).1 he).1
    omega
  simp only [if_true] at h4
  have main : ∀ out : Out L, out.trace = t' → out.output = o2.output → out.logWeight = lw → out.loss = some (o1.loss.getD 0) →
      Started N same T (m + 1) f out (w1.put (zWhereName m 0) (N.stack zs)) ∧
        total out.trace = total o1.trace + L.logProb (N.coorDist f m none zs) (N.stack zs) ∧
        ∀ k, valueAt out.trace k = if k = zWhereName m 0 then some (N.stack zs) else valueAt o1.trace k := by
    intro out e1 e2 e3 e4
    refine ⟨⟨⟨h1.calm.cond, h1.calm.hooks⟩, ?_, ⟨_, by rw [e2, h4]⟩, ?_, ?_, ?_, ?_, ?_, by rw [e4]; exact h1.loss⟩, ?_, ?_⟩
    · intro k
      rw [e1, Dict.contains_iff, mem_keys_union h5, h2, mem_keys_one, ← Dict.contains_iff, h1.addr]
      constructor
      · rintro (rfl | ⟨i, hi, rfl⟩)
        · exact ⟨m, by omega, rfl⟩
        · exact ⟨i, by omega, rfl⟩
      · rintro ⟨i, hi, rfl⟩
        rcases Nat.lt_or_ge i m with h' | h'
        · exact Or.inr ⟨i, h', rfl⟩
        · have : i = m := by omega
          subst this; exact Or.inl rfl
    · rw [e2, h4]
      simp only [item]
      rw [getL_insertL, if_neg (fun h => (C42_kinds_disjoint _ _ 0).2.2.2.1 h.symm)]
      exact hf1
    · intro i hi
      rw [e1, e2, h4]
      simp only [item]
      rw [getL_insertL]
      rcases Nat.lt_or_ge i m with h' | h'
      · obtain ⟨rv, h8, h9⟩ := hz1 i h'
        refine ⟨rv, by rw [hgeto _ (hne i h'), h8], ?_⟩
        rw [if_neg (by exact hne i h')]
        exact h9
      · have : i = m := by omega
        subst this
        exact ⟨_, hgetm, by rw [if_pos (by rfl)]; rfl⟩
    · intro i hi
      rw [World.put_data, e1]
      rcases Nat.lt_or_ge i m with h' | h'
      · obtain ⟨rv, h7, h8⟩ := h1.stored i h'
        refine ⟨rv, by rw [hgeto _ (hne i h'), h7], ?_⟩
        rw [Dict.get?_insert, if_neg (hne i h')]
        exact h8
      · have : i = m := by omega
        subst this
        exact ⟨_, hgetm, by rw [Dict.get?_insert, if_pos rfl]; rfl⟩
    · intro k rv hk
      rw [e1] at hk
      by_cases h' : k = zWhereName m 0
      · subst h'
        rw [hgetm] at hk
        cases hk; rfl
      · rw [hgeto k h'] at hk
        exact h1.sampled k rv hk
    · rw [e3, hlw]
    · rw [e1, total_union h5, h2, total_one, add_comm]; rfl
    · intro k
      by_cases h' : k = zWhereName m 0
      · subst h'
        rw [if_pos rfl, e1, valueAt, hgetm]; rfl
      · rw [if_neg h', e1, valueAt, hgeto k h']; rfl
  have h8 : (match o1.loss with | some l => l | none => a.loss0) = o1.loss.getD 0 := by rw [ha0]; cases o1.loss <;> rfl
  refine Exec.Done.lift h6 ?_
  split
  · exact main _ rfl rfl rfl (congrArg some h8)
  · exact main _ rfl rfl rfl (congrArg some h8)

theorem safe_gibbsInit (hf : item (.dict kvs) "frames" = .ok f) (hT : N.timesteps f = T) (m : Nat) (hm : m ≤ T) (kw : Kw L)
    (hkw : KwOk kw) (w : World L) (hw : Calm same w) :
    (eval (gibbsInit fresh (apgObjs N i0 i1 i2 i3 fl gl r) m) (.dict kvs) kw).Safe E w (Started N same T m f) := by
  induction m generalizing kw w with
  | zero => exact ((done_noop hf kw hkw w hw).mono fun _ _ h => h.1).safe
  | succ m ih =>
    unfold gibbsInit mkCompose
    rw [eval_compose_eq, childKw_eq]
    refine Exec.Safe.bind' (ih (by omega) _ (hkw.sub _) w hw) fun o1 w1 h1 => ?_
    exact (draws_initStep hT (by omega) rfl rfl rfl hkw h1).safe.mono fun _ _ ⟨_, h, _⟩ => h

/-- The rest of the initial importance sampling, after the first loop. -/
theorem draws_isStep (hd : ∀ v, N.timesteps (L.detachV v) = N.timesteps v) (hpos : 0 < T) {c : PyVal L} (hf : item c "frames" = .ok f)
    (hT : N.timesteps f = T) {ap ac : Attrs L} {q : Node L} (hpx : ap.ix = fwdIx T 0) (hcx : ac.ix = fwdIx T 0) (hcl : ac.lossFn = idLoss) (hcd : ac.debug = false)
    {fl : LW L.W → LW L.W → LW L.W → L.Lo} (hpl : ∀ out px tot, out.px = some px → ap.lossFn out tot =
      .ok (fl out.logWeight (logJoint px.proposalTrace fun _ => true) (logJoint px.targetTrace fun _ => true) + tot)) {kw : Kw L} (hkw : KwOk kw) {o1 : Out L} {w1 : World L}
    (h1 : Started N same T T f o1 w1) :
    (afterFirst ap ac (fun t _ => .ok t) true (.prog i3 (decProg N)) (.prog i2 (encDigitProg N)) q c kw o1).Draws w1
      (.draw (N.digitDist f ((List.range T).map (posOf f o1.trace 0))) N.reparam .ret) fun z out w' => Stage N same T T 0 0 f out w' ∧
        Latents N T T 0 0 f (posOf f o1.trace 0) z out.trace ∧
        out.logWeight = .tensor (L.detachW (total out.trace -
          (total o1.trace + L.logProb (N.digitDist f ((List.range T).map (posOf f o1.trace 0))) z))) ∧
        out.loss = some (fl out.logWeight (.tensor (total o1.trace + L.logProb (N.digitDist f ((List.range T).map (posOf f o1.trace 0))) z))
          (.tensor (total out.trace)) + o1.loss.getD ac.loss0) := by
  have hz1 : ∀ i : Nat, i < T → item o1.output (zWhereName i (0 : Nat)) = .ok (posOf f o1.trace 0 i) := by
    intro i hi
    obtain ⟨rv, h2, h3⟩ := h1.wheres i hi
    rw [posOf_eq h2]
    exact h3
  unfold afterFirst
  refine Exec.Draws.bind (draws_digit_fwd (same := same) i2 0 hpos h1.given hT hz1 ((hkw.sub _).sub _) (by rw [subKw, hcx]; rfl)
    (h1.calm.cond _) h1.calm.hooks) ?_
  rintro z o2 w2 ⟨rfl, h2, h3⟩
  generalize N.digitDist f ((List.range T).map (posOf f o1.trace 0)) = d at h2 ⊢
  have hQ : (Exec.lift (composeRest ac (subKw ap kw) o1 o2)).Done (w1.put (zWhatName (0 : Nat)) z) fun o w' =>
      w' = w1.put (zWhatName (0 : Nat)) z ∧ IsUnion o.trace o2.trace o1.trace ∧ o.logWeight.val = 0 ∧
      o.loss = some (o1.loss.getD ac.loss0) := by
    have hno : ¬ Overlap o1.trace o2.trace := by
      rintro ⟨k, hk1, hk2⟩
      rw [h2, mem_keys_one] at hk2
      subst hk2
      obtain ⟨i, -, he⟩ := (h1.addr _).1 (Dict.contains_iff.2 hk1)
      exact (C42_kinds_disjoint _ _ _).1 he.symm
    rcases composeRest_spec ac (subKw ap kw) o1 o2 with ⟨h, -⟩ | ⟨-, t', lw, h5, h7, -, h6⟩
    · exact absurd h hno
    unfold finish at h6
    rw [hcl] at h6
    simp only [idLoss] at h6
    refine Exec.Done.lift h6 ?_
    rw [h3, h1.weight] at h7
    have h8 : lw.val = 0 := by rw [h7]; exact add_zero _
    have h9 : (match o1.loss with | some l => l | none => ac.loss0) = o1.loss.getD ac.loss0 := by cases o1.loss <;> rfl
    split
    · exact ⟨rfl, h5, h8, congrArg some h9⟩
    · exact ⟨rfl, h5, h8, congrArg some h9⟩
  refine Exec.Done.bind hQ ?_
  rintro qo w2 ⟨rfl, h5, hqlw, hql⟩
  have hwh : ∀ j, j < T → whereAt T 0 j = zWhereName j 0 := fun j hj => whereAt_lt hj
  have hne : ∀ i : Nat, zWhereName i 0 ≠ zWhatName ((0 : Nat) : Int) := fun i => (C42_kinds_disjoint _ _ _).1
  have hgeto : ∀ i : Nat, qo.trace.get? (zWhereName i 0) = o1.trace.get? (zWhereName i 0) := fun i =>
    get?_union h5 _ (by rw [h2, mem_keys_one]; exact hne i)
  have hgetw : qo.trace.get? (zWhatName 0) = some (RV.mk' d z .sampled N.reparam) :=
    get?_union_left h5 (by rw [h2, one_get?]; exact if_pos rfl)
  have hsamp : ∀ k rv, qo.trace.get? k = some rv → rv.prov = .sampled := by
    intro k rv hk
    by_cases h' : k = zWhatName 0
    · subst h'
      rw [hgetw] at hk
      cases hk; rfl
    · rw [get?_union h5 _ (by rw [h2, mem_keys_one]; exact h')] at hk
      exact h1.sampled k rv hk
  have hval : ∀ j, j < T → ∃ rv, qo.trace.get? (whereAt T 0 j) = some rv ∧ rv.value = posOf f o1.trace 0 j := by
    intro j hj
    obtain ⟨rv, h7, -⟩ := h1.wheres j hj
    exact ⟨rv, by rw [hwh j hj, hgeto, h7], (posOf_eq h7).symm⟩
  have hstore : ∀ j : Nat, j < T → (w1.put (zWhatName (0 : Nat)) z).store.data.get? (zWhereName j 0) = some (.weakref (posOf f o1.trace 0 j)) := by
    intro j hj
    obtain ⟨rv, h7, h8⟩ := h1.stored j hj
    rw [posOf_eq h7, World.put_data, Dict.get?_insert, if_neg (hne j)]
    exact h8
  have hcond : ∀ j, (w1.put (zWhatName (0 : Nat)) z).cond j = none := h1.calm.cond
  have hhooks : (w1.put (zWhatName (0 : Nat)) z).store.hooks = apgHooks same := h1.calm.hooks
  generalize w1.put (zWhatName (0 : Nat)) z = w2 at hstore hcond hhooks
  have hdec := done_dec (N := N) (same := same) (T := T) (n := T) (s := 0) (c := qo.trace) (val := posOf f o1.trace 0)
    (w := w2.setCond i3 (some qo.trace)) i3 ⟨T, 0, "forward"⟩ rfl (by show (T : Int) = min ((T : Int) + 1) T; omega) hpos 0 (by simp [whatIndex]) f hT c hf
    (subKw ap kw) (hkw.sub _) (by rw [subKw, hpx]; rfl) z hhooks (by simp) hval ⟨_, hgetw, rfl⟩ hstore
  refine Exec.Done.bind (Exec.Done.withSub' hdec) ?_
  rintro po w3 ⟨w4, rfl, rfl, ⟨x, hx, hxt⟩, -, ha1, ha2, ha3, -, -, hlat⟩
  have hx' := hxt fun k rv h7 h8 => by rw [hsamp k rv h7] at h8; cases h8
  have hone : L.logProb d z = total o2.trace := by
    rw [h2, total_one]; rfl
  obtain ⟨o, h7, h8, h9, h10, h11, _⟩ := proposeRest_done (a := ap) (kw := kw) (qo := qo)
    (g := fun lw => fl lw (.tensor (total o1.trace + L.logProb d z)) (.tensor (total po.trace)))
    (p := .prog i3 (decProg N)) (q := .compose ac (.prog i2 (encDigitProg N)) q) (fwd := none) (m := (po.output, po.trace)) hx rfl
    (by unfold forwardTrace; simp only [Node.debugAttr, hcd]) (by
    intro out px tot e1 e2 e3 _
    rw [hpl out px tot e1, e2, e3, logJoint_tensor hgetw, logJoint_tensor hlat.recon, add_comm (total o1.trace), hone, ← total_union h5])
  have hlat' : Latents N T T 0 0 f (posOf f o1.trace 0) z o.trace := by rw [h8]; exact hlat
  refine Exec.Done.lift h7 ⟨⟨?_, ?_, ?_, ?_, ?_, ⟨_, h10⟩, ⟨_, _, hlat'⟩⟩, hlat', ?_, by rw [h11, hql, h8]; rfl⟩
  · refine ⟨fun j => ?_, hhooks⟩
    simp only [Node.id, World.setCond_cond]
    by_cases e1 : j = i3 <;> simp [e1, hcond]
  · rw [h8]; exact ha1
  · rw [h9]; exact detach_output hd ha2
  · rw [h9]; exact detach_item (by obtain ⟨kvs, h, -⟩ := ha2; exact ⟨kvs, h⟩) ha3
  · intro j hj
    have := hlat'.wheres j hj
    rw [hwh j hj] at this
    exact ⟨_, this, hstore j hj⟩
  · rw [h10, hqlw, zero_add, hx', h8]
    congr 3
    rw [add_comm, hone, ← total_union h5]
    refine sumLogProb_congr _ fun k rv hk => ?_
    have hin : k ∈ qo.trace.keys := Dict.mem_keys_iff.2 ⟨_, hk⟩
    rw [mem_keys_union h5, h2, mem_keys_one, ← Dict.contains_iff, h1.addr] at hin
    have : ∃ rv', po.trace.get? k = some rv' ∧ rv'.prov = .reused := by
      rcases hin with rfl | ⟨i, hi, rfl⟩
      · exact ⟨_, hlat.appearance, rfl⟩
      · exact ⟨_, by rw [← hwh i hi]; exact hlat.wheres i hi, rfl⟩
    obtain ⟨rv', e1, e2⟩ := this
    unfold InDenominator
    rw [e1]
    cases hp : rv.prov <;> simp [e2]

theorem safe_gibbsIs (hd : ∀ v, N.timesteps (L.detachV v) = N.timesteps v) (hpos : 0 < T) (hf : item (.dict kvs) "frames" = .ok f)
    (hT : N.timesteps f = T) :
    ∃ q, gibbsIs fresh (apgObjs N i0 i1 i2 i3 fl gl r) T = .ok q ∧ ∀ kw, KwOk kw → ∀ w, Calm same w →
      (eval q (.dict kvs) kw).Safe E w (Stage N same T T 0 0 f) := by
  refine ⟨_, rfl, fun kw hkw w hw => ?_⟩
  unfold mkCompose
  rw [eval_afterFirst]
  refine Exec.Safe.bind' (safe_gibbsInit hf hT T (le_refl _) _ ((hkw.sub _).sub _) w hw) fun o1 w1 h1 => ?_
  exact (draws_isStep (fl := fl) hd hpos hf hT rfl rfl rfl rfl (by
    intro out px tot h1
    simp only [mkAttrs, Option.getD_some, apgObjs, lossIs, h1]) hkw h1).safe.mono fun _ _ ⟨_, h, _⟩ => h

/-! ### Sweeps -/

/-- A finished sweep is the start of the next. -/
theorem Ready_next {s zw : Int} {out : Out L} {w : World L} (h : Ready N same T T s zw f out w) :
    Ready N same T 0 (s + 1) zw f out w := by
  refine ⟨h.calm, fun k => ?_, h.dict, h.given, h.appearance, fun i hi => by omega, fun i hi => by omega⟩
  rw [h.addr]
  unfold Addr
  have : ∀ i, i < T → whereAt T s i = whereAt 0 (s + 1) i := by
    intro i hi
    rw [whereAt_lt hi, whereAt_ge (Nat.zero_le _)]
    congr 1; omega
  refine or_congr Iff.rfl (or_congr Iff.rfl ⟨?_, ?_⟩)
  · rintro ⟨i, hi, rfl⟩; exact ⟨i, hi, this i hi⟩
  · rintro ⟨i, hi, rfl⟩; exact ⟨i, hi, (this i hi).symm⟩

theorem lossApg_ok {out : Out L} {px : ProposeX L} {tot : L.Lo} {rv : RV L} {fw : Trace L} (h1 : out.px = some px)
    (h2 : px.targetTrace.get? "recon" = some rv) (h3 : px.forwardTrace = some fw) :
    lossApg gl out tot = .ok (gl out.logWeight (logJoint fw fun _ => true) rv.logProb + tot) := by
  have h4 : px.targetTrace.contains "recon" = true := Dict.contains_iff.2 (Dict.mem_keys_iff.2 ⟨_, h2⟩)
  unfold lossApg reconKey
  rw [h1]
  simp only [h3, h4, if_true, h2]

variable {K : PyVal L → PyVal L → Prop} (hd : ∀ v, N.timesteps (L.detachV v) = N.timesteps v) (hsame : ∀ v, same v v = true)
  (hr : Resamples E K r)
  (hf : item (.dict kvs) "frames" = .ok f) (hT : N.timesteps f = T) (h1 : i1 ≤ fresh) (h2 : i2 ≤ fresh) (h3 : i3 ≤ fresh)

theorem where_ne {t t' : Nat} {s s' : Int} (h : t ≠ t' ∨ s ≠ s') : zWhereName t s ≠ zWhereName t' s' := by
  intro he
  obtain ⟨e1, e2⟩ := (C42_z_where_injective _ _ _ _).1 he
  rcases h with h | h
  · exact h (by omega)
  · exact h e2

/-- Where the coordinates of the position step differ. -/
theorem coor_addr {t : Nat} {s : Int} (ht : t < T) :
    ¬ Addr T t s (s - 1) (zWhereName t s) ∧ Addr T t s (s - 1) (zWhereName t (s - 1)) ∧ ¬ Addr T (t + 1) s (s - 1) (zWhereName t (s - 1)) ∧
    (∀ k, Addr T (t + 1) s (s - 1) k → k = zWhereName t s ∨ Addr T t s (s - 1) k) ∧
    ∀ k, k = zWhereName t s ∨ Addr T t s (s - 1) k → Addr T (t + 1) s (s - 1) k ∨ k = zWhereName t (s - 1) := by
  have hsame : ∀ i, i ≠ t → whereAt (t + 1) s i = whereAt t s i := by
    intro i e
    unfold whereAt
    congr 1
    by_cases e2 : i < t
    · rw [if_pos e2, if_pos (by omega)]
    · rw [if_neg e2, if_neg (by omega)]
  refine ⟨?_, ?_, ?_, ?_, ?_⟩
  · rintro (h | h | ⟨i, hi, h⟩)
    · exact (C42_kinds_disjoint _ _ 0).2.1 h
    · exact (C42_kinds_disjoint _ _ _).1 h
    · unfold whereAt at h
      split at h
      · exact where_ne (Or.inl (by omega)) h
      · exact where_ne (Or.inr (by omega)) h
  · exact Or.inr (Or.inr ⟨t, ht, (whereAt_ge (le_refl _)).symm⟩)
  · rintro (h | h | ⟨i, hi, h⟩)
    · exact (C42_kinds_disjoint _ _ 0).2.1 h
    · exact (C42_kinds_disjoint _ _ _).1 h
    · unfold whereAt at h
      split at h
      · exact where_ne (Or.inr (by omega)) h
      · exact where_ne (Or.inl (by omega)) h
  · rintro k (h | h | ⟨i, hi, rfl⟩)
    · exact Or.inr (Or.inl h)
    · exact Or.inr (Or.inr (Or.inl h))
    · by_cases e : i = t
      · subst e
        exact Or.inl (whereAt_lt (Nat.lt_succ_self _))
      · exact Or.inr (Or.inr (Or.inr ⟨i, hi, hsame i e⟩))
  · rintro k (rfl | h | h | ⟨i, hi, rfl⟩)
    · exact Or.inl (Or.inr (Or.inr ⟨t, ht, (whereAt_lt (Nat.lt_succ_self _)).symm⟩))
    · exact Or.inl (Or.inl h)
    · exact Or.inl (Or.inr (Or.inl h))
    · by_cases e : i = t
      · subst e
        exact Or.inr (whereAt_ge (le_refl _))
      · exact Or.inl (Or.inr (Or.inr ⟨i, hi, (hsame i e).symm⟩))

theorem digit_addr {s : Int} :
    ¬ Addr T T s (s - 1) (zWhatName s) ∧ Addr T T s (s - 1) (zWhatName (s - 1)) ∧ ¬ Addr T T s s (zWhatName (s - 1)) ∧
    (∀ k, Addr T T s s k → k = zWhatName s ∨ Addr T T s (s - 1) k) ∧
    ∀ k, k = zWhatName s ∨ Addr T T s (s - 1) k → Addr T T s s k ∨ k = zWhatName (s - 1) := by
  have hno : ∀ a b, a ≠ b → ¬ Addr T T s a (zWhatName b) := by
    rintro a b hab (h | h | ⟨i, hi, h⟩)
    · exact (C42_kinds_disjoint 0 0 _).2.2.1 h
    · exact hab ((C42_z_what_injective _ _).1 h).symm
    · exact (C42_kinds_disjoint _ _ _).1 h.symm
  refine ⟨hno _ _ (by omega), Or.inr (Or.inl rfl), hno _ _ (by omega), ?_, ?_⟩
  · rintro k (h | h | h)
    · exact Or.inr (Or.inl h)
    · exact Or.inl h
    · exact Or.inr (Or.inr (Or.inr h))
  · rintro k (h | h | h | h)
    · exact Or.inl (Or.inr (Or.inl h))
    · exact Or.inl (Or.inl h)
    · exact Or.inr h
    · exact Or.inl (Or.inr (Or.inr h))

/-- The parts of a Propose of a sweep. -/
def sweepParts (fresh : ObjId) (gl : LW L.W → LW L.W → L.W → L.Lo) (T t s : Nat) : Attrs L × Attrs L × Attrs L :=
  (mkAttrs fresh (some (lossApg gl)) none (prpIx t s) false, mkAttrs fresh none none (fwdIx t s) true,
    mkAttrs (fresh + 1 + (s * (T + 1) + t)) none none (revIx t s) false)

theorem gibbsPropose_eq (k q : Node L) (t s : Nat) :
    gibbsPropose fresh (apgObjs N i0 i1 i2 i3 fl gl r) T k t s q = .ok (.propose (sweepParts fresh gl T t s).1 (fun t _ => .ok t) true
      (.extend (sweepParts fresh gl T t s).2.2 (.prog i3 (decProg N)) k) (.compose (sweepParts fresh gl T t s).2.1 k q)) := rfl

include hd hf hT h1 h3 in
/-- The Propose of a position step, after the proposal so far. -/
theorem draws_coorStep {q : Node L} {t s : Nat} (ht : t < T) (hs : 0 < s) {kw : Kw L} (hkw : KwOk kw) {o1 : Out L} {w1 : World L}
    (hR : Ready N same T t s ((s : Int) - 1) f o1 w1) :
    ∃ what, valueAt o1.trace (zWhatName ((s : Int) - 1)) = some what ∧
    (afterFirst (sweepParts fresh gl T t s).1 (sweepParts fresh gl T t s).2.1 (fun t _ => .ok t) true
      (.extend (sweepParts fresh gl T t s).2.2 (.prog i3 (decProg N)) (.prog i1 (encCoorProg N))) (.prog i1 (encCoorProg N)) q
      (.dict kvs) kw o1).Draws w1 (coorDraws N (L.detachV f) t (some what) N.objects []) fun zs out w' =>
        Stage N same T (t + 1) s ((s : Int) - 1) f out w' ∧ ∃ val z, Latents N T (t + 1) s ((s : Int) - 1) f val what out.trace ∧
        valueAt o1.trace (zWhereName t ((s : Int) - 1)) = some z ∧
        Moved T (t + 1) s ((s : Int) - 1) (zWhereName t s) (N.stack zs) (L.logProb (N.coorDist (L.detachV f) t (some what) zs) (N.stack zs))
          (L.logProb (N.coorDist f t (some what) (slices N z)) z) o1 out ∧
            out.loss = some (gl out.logWeight (.tensor (L.logProb (N.coorDist (L.detachV f) t (some what) zs) (N.stack zs)))
              (L.logProb (N.recon ((List.range T).map val) what) f) + o1.loss.getD 0) := by
  obtain ⟨rv, hw1, hw2⟩ := hR.appearance
  refine ⟨rv.value, by simp [valueAt, hw1], ?_⟩
  have hid : ∀ i, i ≤ fresh → (fresh + 1 + (s * (T + 1) + t) : Nat) ≠ i := fun i hi =>
    Nat.ne_of_gt (Nat.lt_of_lt_of_le (Nat.lt_succ_of_le hi) (Nat.le_add_right _ _))
  obtain ⟨a1, a2, a3, a4, a5⟩ := coor_addr (T := T) (t := t) (s := s) ht
  obtain ⟨kvs1, ho⟩ := hR.dict
  refine (draws_gibbsPropose (same := same) hd i3 i1 (encCoorProg N) (n := t) (n' := t + 1) (t := t) (s := s) (zw := (s : Int) - 1)
    (new := zWhereName t s) (old := zWhereName t ((s : Int) - 1)) (Z := N.stack)
    (Df := N.coorDist (L.detachV f) t (some rv.value)) (Dr := fun _ what z => N.coorDist f t (some what) (slices N z))
    hkw (hid _ h3) (hid _ h1) hf hT rfl rfl rfl rfl
    (fun out px tot rv fw e1 e2 e3 => lossApg_ok e1 e2 e3) (by omega) (by omega) ?_ a1 a2 a3 a4 a5 ?_ hR ?_ ?_).mono ?_
  · unfold whatIndex
    simp only
    rw [if_neg (by omega), if_pos (by omega)]
  · intro j hj
    by_cases e : j = t
    · subst e; exact Or.inl rfl
    · exact Or.inr (by omega)
  · have hg := hR.given
    rw [ho] at hg hw2 ⊢
    refine (draws_coor_fwd (same := same) i1 t s ht hg (by rw [hd, hT]) (convKernel_ok hw2 (by show (s : Int) ≠ 0; omega)) ((hkw.sub _).sub _) rfl (hR.calm.cond _) hR.calm.hooks).mono ?_
    rintro zs o w' ⟨e1, e2, e3, -⟩
    exact ⟨e1, e2, e3⟩
  · intro o val what w c rv e1 e2 e3 e4 e5
    exact done_coor_rev i1 t s ht hs e1 hT e2 ((hkw.sub _).sub _) rfl e4 e5
  · rintro zs out w' ⟨hS, val, what, z, hlat, hz, hM, hl⟩
    have : what = rv.value := by
      have := hM.values (zWhatName ((s : Int) - 1)) (Or.inr (Or.inl rfl)) (fun he => (C42_kinds_disjoint 0 0 _).2.2.1 he)
      rw [if_neg (fun he => (C42_kinds_disjoint _ _ _).1 he.symm), valueAt, valueAt, hlat.appearance, hw1] at this
      exact Option.some.inj this
    subst this
    exact ⟨hS, val, z, hlat, hz, hM, hl⟩

include hd hf hT h2 h3 in
/-- The Propose of an appearance step, after the proposal so far. -/
theorem draws_digitStep {q : Node L} {s : Nat} (hpos : 0 < T) (hs : 0 < s) {kw : Kw L} (hkw : KwOk kw) {o1 : Out L} {w1 : World L}
    (hR : Ready N same T T s ((s : Int) - 1) f o1 w1) :
    (afterFirst (sweepParts fresh gl T T s).1 (sweepParts fresh gl T T s).2.1 (fun t _ => .ok t) true
      (.extend (sweepParts fresh gl T T s).2.2 (.prog i3 (decProg N)) (.prog i2 (encDigitProg N))) (.prog i2 (encDigitProg N)) q
      (.dict kvs) kw o1).Draws w1 (.draw (N.digitDist (L.detachV f) ((List.range T).map (posOf f o1.trace s))) N.reparam .ret) fun z out w' =>
        Stage N same T T s s f out w' ∧ ∃ what, Latents N T T s s f (posOf f o1.trace s) z out.trace ∧
        valueAt o1.trace (zWhatName ((s : Int) - 1)) = some what ∧
        Moved T T s s (zWhatName s) z (L.logProb (N.digitDist (L.detachV f) ((List.range T).map (posOf f o1.trace s))) z)
          (L.logProb (N.digitDist f ((List.range T).map (posOf f o1.trace s))) what) o1 out ∧
            out.loss = some (gl out.logWeight (.tensor (L.logProb (N.digitDist (L.detachV f) ((List.range T).map (posOf f o1.trace s))) z))
              (L.logProb (N.recon ((List.range T).map (posOf f o1.trace s)) z) f) + o1.loss.getD 0) := by
  have hid : ∀ i, i ≤ fresh → (fresh + 1 + (s * (T + 1) + T) : Nat) ≠ i := fun i hi =>
    Nat.ne_of_gt (Nat.lt_of_lt_of_le (Nat.lt_succ_of_le hi) (Nat.le_add_right _ _))
  obtain ⟨a1, a2, a3, a4, a5⟩ := digit_addr (T := T) (s := s)
  refine (draws_gibbsPropose (same := same) hd i3 i2 (encDigitProg N) (n := T) (n' := T) (t := T) (s := s) (zw := (s : Int) - 1) (zw' := s)
    (new := zWhatName s) (old := zWhatName ((s : Int) - 1)) (Z := id)
    (Df := fun _ => N.digitDist (L.detachV f) ((List.range T).map (posOf f o1.trace s))) (Dr := fun val _ _ => N.digitDist f ((List.range T).map val))
    hkw (hid _ h3) (hid _ h2) hf hT rfl rfl rfl rfl
    (fun out px tot rv fw e1 e2 e3 => lossApg_ok e1 e2 e3) (by omega) (by omega) ?_ a1 a2 a3 a4 a5 (fun j hj => Or.inr hj) hR ?_ ?_).mono ?_
  · unfold whatIndex
    rw [if_pos rfl]
  · refine draws_digit_fwd (same := same) i2 s hpos hR.given (by rw [hd, hT]) (fun i hi => ?_) ((hkw.sub _).sub _) rfl
      (hR.calm.cond _) hR.calm.hooks
    obtain ⟨rv, e1, e2⟩ := hR.wheres i hi
    rw [posOf_eq e1]
    exact e2
  · intro o val what w c rv e1 e2 e3 e4 e5
    exact done_digit_rev i2 s hpos e1 hT e3 ((hkw.sub _).sub _) rfl e4 e5
  · rintro z out w' ⟨hS, val, what, zo, hlat, hz, hM, hl⟩
    have hv : ∀ i, i < T → val i = posOf f o1.trace s i := by
      intro i hi
      have := hM.values (zWhereName i s) (Or.inr (Or.inr ⟨i, hi, (whereAt_lt hi).symm⟩)) (fun he => (C42_kinds_disjoint _ _ 0).2.1 he)
      obtain ⟨rv, e1, -⟩ := hR.wheres i hi
      have h' := hlat.wheres i hi
      rw [whereAt_lt hi] at h'
      rw [if_neg (fun he => (C42_kinds_disjoint _ _ _).1 he), valueAt, valueAt, h', e1] at this
      rw [posOf_eq e1]
      exact Option.some.inj this
    have hw : what = z := by
      have := hM.values (zWhatName s) (Or.inr (Or.inl rfl)) (fun he => (C42_kinds_disjoint 0 0 _).2.2.1 he)
      rw [if_pos rfl, valueAt, hlat.appearance] at this
      exact Option.some.inj this
    subst hw
    have hr : (List.range T).map val = (List.range T).map (posOf f o1.trace s) :=
      List.map_congr_left fun i hi => hv i (by simpa using hi)
    simp only [id, hr] at hM hl
    exact ⟨hS, zo, hlat.congr hv, hz, hM, hl⟩

include hd hf hT h1 h3 in
/-- The Propose of a position step. -/
theorem safe_coorStep {q : Node L} {t s : Nat} (ht : t < T) (hs : 0 < s)
    (hq : ∀ kw, KwOn K kw → ∀ w, Calm same w → (eval q (.dict kvs) kw).Safe E w (Ready N same T t s ((s : Int) - 1) f)) :
    ∃ p, gibbsPropose fresh (apgObjs N i0 i1 i2 i3 fl gl r) T (apgObjs N i0 i1 i2 i3 fl gl r).coor t s q = .ok p ∧
      ∀ kw, KwOn K kw → ∀ w, Calm same w → (eval p (.dict kvs) kw).Safe E w (Stage N same T (t + 1) s ((s : Int) - 1) f) := by
  refine ⟨_, gibbsPropose_eq _ _ _ _, fun kw hkw w hw => ?_⟩
  rw [eval_afterFirst]
  refine Exec.Safe.bind' (hq _ ((hkw.sub _).sub _) w hw) fun o1 w1 hR => ?_
  obtain ⟨what, -, h⟩ := draws_coorStep (fresh := fresh) (gl := gl) (q := q) hd hf hT h1 h3 ht hs hkw.1 hR
  exact h.safe.mono fun _ _ ⟨_, h, _⟩ => h

include hd hf hT h2 h3 in
/-- The Propose of an appearance step. -/
theorem safe_digitStep {q : Node L} {s : Nat} (hpos : 0 < T) (hs : 0 < s)
    (hq : ∀ kw, KwOn K kw → ∀ w, Calm same w → (eval q (.dict kvs) kw).Safe E w (Ready N same T T s ((s : Int) - 1) f)) :
    ∃ p, gibbsPropose fresh (apgObjs N i0 i1 i2 i3 fl gl r) T (apgObjs N i0 i1 i2 i3 fl gl r).digit T s q = .ok p ∧
      ∀ kw, KwOn K kw → ∀ w, Calm same w → (eval p (.dict kvs) kw).Safe E w (Stage N same T T s s f) := by
  refine ⟨_, gibbsPropose_eq _ _ _ _, fun kw hkw w hw => ?_⟩
  rw [eval_afterFirst]
  refine Exec.Safe.bind' (hq _ ((hkw.sub _).sub _) w hw) fun o1 w1 hR => ?_
  exact (draws_digitStep (fresh := fresh) (gl := gl) (q := q) hd hf hT h2 h3 hpos hs hkw.1 hR).safe.mono fun _ _ ⟨_, h, _⟩ => h

include hd hsame hr hf hT h1 h3 in
theorem safe_steps {q : Node L} {s : Nat} (hs : 0 < s)
    (hq : ∀ kw, KwOn K kw → ∀ w, Calm same w → (eval q (.dict kvs) kw).Safe E w (Ready N same T 0 s ((s : Int) - 1) f)) (m : Nat) (hm : m ≤ T) :
    ∃ q', (List.range m).foldlM (gibbsStep fresh (apgObjs N i0 i1 i2 i3 fl gl r) T s) q = .ok q' ∧
      ∀ kw, KwOn K kw → ∀ w, Calm same w → (eval q' (.dict kvs) kw).Safe E w (Ready N same T m s ((s : Int) - 1) f) := by
  induction m with
  | zero => exact ⟨q, rfl, hq⟩
  | succ m ih =>
    obtain ⟨q', e, hq'⟩ := ih (by omega)
    obtain ⟨p, e2, hp⟩ := safe_coorStep (i0 := i0) (i2 := i2) (fl := fl) (gl := gl) (r := r) hd hf hT h1 h3 (by omega) hs hq'
    refine ⟨mkResample fresh (apgObjs N i0 i1 i2 i3 fl gl r).resampler p none .none false, ?_, fun kw hkw w hw => ?_⟩
    · rw [List.range_succ, List.foldlM_append, e]
      simp only [bind, Except.bind, List.foldlM_cons, List.foldlM_nil, gibbsStep, e2]
      rfl
    · exact safe_gibbsResample hsame hr hkw.2 rfl (hp _ hkw w hw)

include hd hsame hr hf hT h1 h2 h3 in
theorem safe_sweep {q : Node L} {S s : Nat} (hpos : 0 < T) (hs : 0 < s)
    (hq : ∀ kw, KwOn K kw → ∀ w, Calm same w → (eval q (.dict kvs) kw).Safe E w (Ready N same T 0 s ((s : Int) - 1) f)) :
    ∃ q', gibbsSweep fresh (apgObjs N i0 i1 i2 i3 fl gl r) T S q s = .ok q' ∧
      (s ≠ S → ∀ kw, KwOn K kw → ∀ w, Calm same w → (eval q' (.dict kvs) kw).Safe E w (Ready N same T T s s f)) ∧
      (s = S → ∀ kw, KwOn K kw → ∀ w, Calm same w → (eval q' (.dict kvs) kw).Safe E w (Stage N same T T s s f)) := by
  obtain ⟨q', e, hq'⟩ := safe_steps (i0 := i0) (i2 := i2) (fl := fl) (gl := gl) hd hsame hr hf hT h1 h3 hs hq T (le_refl _)
  obtain ⟨p, e2, hp⟩ := safe_digitStep (i0 := i0) (i1 := i1) (fl := fl) (gl := gl) (r := r) hd hf hT h2 h3 hpos hs hq'
  unfold gibbsSweep
  simp only [e, e2, bind, Except.bind]
  refine ⟨_, rfl, fun h kw hkw w hw => ?_, fun h => ?_⟩
  · rw [if_pos h]
    exact safe_gibbsResample hsame hr hkw.2 rfl (hp _ hkw w hw)
  · rw [if_neg (by simpa using h)]
    exact hp

include hd hsame hr hf hT h1 h2 h3 in
/-- The sampler after the first `m` sweeps. -/
theorem safe_sweeps (hpos : 0 < T) (S : Nat) :
    ∃ q0, gibbsIs fresh (apgObjs N i0 i1 i2 i3 fl gl r) T = .ok q0 ∧
      ∀ m, m ≤ S → ∃ q, (List.range' 1 m).foldlM (gibbsSweep fresh (apgObjs N i0 i1 i2 i3 fl gl r) T S)
      (if 0 < S then mkResample fresh r q0 none .none false else q0) = .ok q ∧
      (m ≠ S → ∀ kw, KwOn K kw → ∀ w, Calm same w → (eval q (.dict kvs) kw).Safe E w (Ready N same T T m m f)) ∧
      (m = S → ∀ kw, KwOn K kw → ∀ w, Calm same w → (eval q (.dict kvs) kw).Safe E w (Stage N same T T m m f)) := by
  obtain ⟨q0, e0, h0⟩ := safe_gibbsIs (E := E) (N := N) (same := same) (i0 := i0) (i1 := i1) (i2 := i2) (i3 := i3) (fresh := fresh)
    (fl := fl) (gl := gl) (r := r) hd hpos hf hT
  refine ⟨q0, e0, fun m hm => ?_⟩
  induction m with
  | zero =>
    refine ⟨_, rfl, fun h kw hkw w hw => ?_, fun h => ?_⟩
    · rw [if_pos (by omega)]
      exact safe_gibbsResample hsame hr hkw.2 rfl (h0 _ hkw.1 w hw)
    · rw [if_neg (by omega)]
      exact fun kw hkw => h0 kw hkw.1
  | succ m ih =>
    obtain ⟨q, e, hq, -⟩ := ih (by omega)
    have hq1 : ∀ kw, KwOn K kw → ∀ w, Calm same w →
        (eval q (.dict kvs) kw).Safe E w (Ready N same T 0 ((m + 1 : Nat) : Int) (((m + 1 : Nat) : Int) - 1) f) := by
      intro kw hkw w hw
      refine (hq (by omega) kw hkw w hw).mono fun o w' h => ?_
      have e1 : ((m + 1 : Nat) : Int) = (m : Int) + 1 := by omega
      rw [e1, Int.add_sub_cancel]
      exact Ready_next h
    obtain ⟨q', e', h'⟩ := safe_sweep (i0 := i0) (fl := fl) (gl := gl) (S := S) hd hsame hr hf hT h1 h2 h3 hpos
      (Nat.succ_pos m) hq1
    refine ⟨q', ?_, h'⟩
    rw [List.range'_concat, List.foldlM_append, e]
    simp only [bind, Except.bind, List.foldlM_cons, List.foldlM_nil, Nat.one_mul]
    rw [Nat.add_comm 1 m, e']
    rfl

include hd hsame hr hf hT h1 h2 h3 in
theorem safe_gibbs (hpos : 0 < T) (S : Nat) :
    ∃ q, gibbsSweeps fresh (apgObjs N i0 i1 i2 i3 fl gl r) S T = .ok q ∧
      ∀ kw, KwOn K kw → ∀ w, Calm same w → (eval q (.dict kvs) kw).Safe E w (Stage N same T T S S f) := by
  obtain ⟨q0, e0, h0⟩ := safe_sweeps (i0 := i0) (fl := fl) (gl := gl) hd hsame hr hf hT h1 h2 h3 hpos S
  obtain ⟨q, e, -, h⟩ := h0 S (le_refl _)
  refine ⟨q, ?_, h rfl⟩
  unfold gibbsSweeps
  rw [e0]
  exact e

include hd hsame hr hf hT h1 h2 h3 in
/-- The sampler in sweep `s` with `t` positions updated, and its next Propose. -/
theorem safe_stage (hpos : 0 < T) (S s t : Nat) (hs : 0 < s) (hsS : s ≤ S) (ht : t < T) :
    ∃ q0 q q' p, gibbsIs fresh (apgObjs N i0 i1 i2 i3 fl gl r) T = .ok q0 ∧
      (List.range' 1 (s - 1)).foldlM (gibbsSweep fresh (apgObjs N i0 i1 i2 i3 fl gl r) T S)
        (mkResample fresh r q0 none .none false) = .ok q ∧
      (List.range t).foldlM (gibbsStep fresh (apgObjs N i0 i1 i2 i3 fl gl r) T s) q = .ok q' ∧
      gibbsPropose fresh (apgObjs N i0 i1 i2 i3 fl gl r) T (apgObjs N i0 i1 i2 i3 fl gl r).coor t s q' = .ok p ∧
      ∀ kw, KwOn K kw → ∀ w, Calm same w → (eval p (.dict kvs) kw).Safe E w (Stage N same T (t + 1) s ((s : Int) - 1) f) := by
  obtain ⟨q0, e0, h0⟩ := safe_sweeps (i0 := i0) (fl := fl) (gl := gl) hd hsame hr hf hT h1 h2 h3 hpos S
  obtain ⟨q, e, hq, -⟩ := h0 (s - 1) (by omega)
  rw [if_pos (by omega)] at e
  have hq1 : ∀ kw, KwOn K kw → ∀ w, Calm same w → (eval q (.dict kvs) kw).Safe E w (Ready N same T 0 s ((s : Int) - 1) f) := by
    intro kw hkw w hw
    refine (hq (by omega) kw hkw w hw).mono fun o w' h => ?_
    have e1 : ((s - 1 : Nat) : Int) = (s : Int) - 1 := by omega
    rw [e1] at h
    have := Ready_next h
    rwa [Int.sub_add_cancel] at this
  obtain ⟨q', e', hq'⟩ := safe_steps (i0 := i0) (i2 := i2) (fl := fl) (gl := gl) hd hsame hr hf hT h1 h3 hs hq1 t (by omega)
  obtain ⟨p, e2, hp⟩ := safe_coorStep (i0 := i0) (i2 := i2) (fl := fl) (gl := gl) (r := r) hd hf hT h1 h3 ht hs hq'
  exact ⟨q0, q, q', p, e0, e, e', e2, hp⟩

end whole
end Verif
