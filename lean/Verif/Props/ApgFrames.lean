import Verif.Props.Apg
/-
C41, the other cases: frames with fewer or with more time steps than the sampler was built for.
-/
namespace Verif
open Spec Apg
variable {L : Lang} {same : L.V → L.V → Bool} {e : Err}

/-- From a world as the library leaves it between calls, every run raises `e`. -/
def Fails (same : L.V → L.V → Bool) (e : Err) {α : Type} (m : Exec L α) : Prop :=
  ∀ w, Calm same w → ∀ r w', m.Runs w r w' → r = .error e

theorem fails_propose {a : Attrs L} {tr : Trace L → Kw L → Except Err (Trace L)} {nr : Bool} {p q : Node L} {c : PyVal L}
    (h : ∀ kw, KwOk kw → Fails same e (eval q c kw)) (kw : Kw L) (hkw : KwOk kw) : Fails same e (eval (.propose a tr nr p q) c kw) := by
  intro w hw r w' hr
  rw [eval_propose_Runs] at hr
  rcases hr with ⟨e, rfl, hr⟩ | ⟨qo, w1, w2, hr1, -⟩
  · exact h _ (hkw.sub a) _ hw _ _ hr
  · cases h _ (hkw.sub a) _ hw _ _ hr1

theorem fails_compose {a : Attrs L} {q2 q1 : Node L} {c : PyVal L} (h : ∀ kw, KwOk kw → Fails same e (eval q1 c kw)) (kw : Kw L)
    (hkw : KwOk kw) : Fails same e (eval (.compose a q2 q1) c kw) := by
  intro w hw r w' hr
  rw [eval_compose_Runs] at hr
  rcases hr with ⟨e, rfl, hr⟩ | ⟨o1, w1, hr1, -⟩
  · exact h _ (hkw.sub a) _ hw _ _ hr
  · cases h _ (hkw.sub a) _ hw _ _ hr1

theorem fails_resample {a : Attrs L} {rs : ResamplerFn L} {q : Node L} {c : PyVal L} (h : ∀ kw, KwOk kw → Fails same e (eval q c kw))
    (kw : Kw L) (hkw : KwOk kw) : Fails same e (eval (.resample a rs q) c kw) := by
  intro w hw x w' hr
  conv at hr => unfold eval
  rw [Exec.Runs_bind] at hr
  rcases hr with ⟨e, rfl, hr⟩ | ⟨o1, w1, hr1, hr⟩
  · exact h (childKw a kw) hkw _ hw _ _ hr
  · cases h (childKw a kw) hkw _ hw _ _ hr1

variable {N : ApgNet L} {fresh i0 i1 i2 i3 : ObjId} {fl : LW L.W → LW L.W → LW L.W → L.Lo} {gl : LW L.W → LW L.W → L.W → L.Lo}
  {r : ResamplerFn L} {c : PyVal L} {T : Nat}

theorem fails_steps {q : Node L} {s : Nat} (hq : ∀ kw, KwOk kw → Fails same e (eval q c kw)) (l : List Nat) :
    ∃ q', l.foldlM (gibbsStep fresh (apgObjs N i0 i1 i2 i3 fl gl r) T s) q = .ok q' ∧ ∀ kw, KwOk kw → Fails same e (eval q' c kw) := by
  induction l generalizing q with
  | nil => exact ⟨q, rfl, hq⟩
  | cons t l ih =>
    have h1 : ∀ kw, KwOk kw → Fails same e (eval (mkResample fresh r (.propose (sweepParts fresh gl T t s).1 (fun t _ => .ok t) true
        (.extend (sweepParts fresh gl T t s).2.2 (.prog i3 (decProg N)) (.prog i1 (encCoorProg N)))
        (.compose (sweepParts fresh gl T t s).2.1 (.prog i1 (encCoorProg N)) q)) none .none false) c kw) :=
      fails_resample (fails_propose (fails_compose hq))
    exact ih h1

theorem fails_sweeps {q0 : Node L} {S : Nat} (e0 : gibbsIs fresh (apgObjs N i0 i1 i2 i3 fl gl r) T = .ok q0)
    (hq0 : ∀ kw, KwOk kw → Fails same e (eval q0 c kw)) :
    ∃ q, gibbsSweeps fresh (apgObjs N i0 i1 i2 i3 fl gl r) S T = .ok q ∧ ∀ kw, KwOk kw → Fails same e (eval q c kw) := by
  have key : ∀ l : List Nat, ∀ q, (∀ kw, KwOk kw → Fails same e (eval q c kw)) →
      ∃ q', l.foldlM (gibbsSweep fresh (apgObjs N i0 i1 i2 i3 fl gl r) T S) q = .ok q' ∧ ∀ kw, KwOk kw → Fails same e (eval q' c kw) := by
    intro l
    induction l with
    | nil => exact fun q hq => ⟨q, rfl, hq⟩
    | cons s l ih =>
      intro q hq
      obtain ⟨q1, e1, hq1⟩ := fails_steps (N := N) (fresh := fresh) (i0 := i0) (i1 := i1) (i2 := i2) (i3 := i3) (fl := fl) (gl := gl) (r := r)
        (T := T) (s := s) hq (List.range T)
      have h2 : ∃ q2, gibbsSweep fresh (apgObjs N i0 i1 i2 i3 fl gl r) T S q s = .ok q2 ∧ ∀ kw, KwOk kw → Fails same e (eval q2 c kw) := by
        unfold gibbsSweep
        rw [e1]
        refine ⟨_, rfl, fun kw hkw => ?_⟩
        split
        · exact fails_resample (fails_propose (fails_compose hq1)) kw hkw
        · exact fails_propose (fails_compose hq1) kw hkw
      obtain ⟨q2, e2, hq2⟩ := h2
      rw [List.foldlM_cons, e2]
      exact ih q2 hq2
  unfold gibbsSweeps
  rw [e0]
  refine key _ _ ?_
  split
  · exact fails_resample hq0
  · exact hq0

/-- A model that raises at once. -/
theorem prog_raises {i : ObjId} {s : ProgSpec L} {c : PyVal L} {kw : Kw L} (hb : bindModel s.sig (receivedKwargs s.sig kw) = .ok ())
    (hm : s.model c (receivedKwargs s.sig kw) = .raise e) {w w' : World L} {x : Except Err (Out L)}
    (hr : (eval (.prog i s) c kw).Runs w x w') : x = .error e := by
  unfold Exec.Runs at hr
  rw [eval_prog_apply, hb] at hr
  simp only [hm, runModel, Comp.bind_Ret, Comp.ret_Ret] at hr
  obtain ⟨⟨y, w1⟩, h1, h2⟩ := hr
  simp only [Exec.throw, Comp.ret_Ret, Prod.mk.injEq] at h1
  obtain ⟨rfl, rfl⟩ := h1
  simp only [Prod.mk.injEq] at h2
  exact h2.1.symm

/-- The position encoder, out of range. -/
theorem coor_short {kw : Kw L} (hkw : KwOk kw) {t : Nat} (hix : kw.ix = fwdIx t 0) {frames : L.V} (hf : item c "frames" = .ok frames)
    (ht : N.timesteps frames ≤ t) {w w' : World L} {x : Except Err (Out L)} (hr : (eval (.prog i1 (encCoorProg N)) c kw).Runs w x w') :
    x = .error .index := by
  refine prog_raises (bindModel_ok hkw (by rfl)) ?_ hr
  simp only [encCoorProg, encCoorModel]
  rw [andThen_ok (ixOf_received _ (by simp) kw ⟨(t : Nat), (0 : Nat), "forward"⟩ hix), andThen_ok hf,
    andThen_ok (a := none) (by rfl), if_pos (Or.inr (Int.ofNat_le.2 ht))]

theorem fails_init {kvs : List (String × PyVal L)} {frames : L.V} (hf : getL kvs "frames" = some (.tensor frames))
    (m : Nat) (hm : N.timesteps frames < m) (kw : Kw L) (hkw : KwOk kw) :
    Fails same .index (eval (gibbsInit fresh (apgObjs N i0 i1 i2 i3 fl gl r) m) (.dict kvs) kw) := by
  have hfr : item (.dict kvs) "frames" = .ok frames := by simp only [item, hf]
  induction m generalizing kw with
  | zero => omega
  | succ m ih =>
    unfold gibbsInit mkCompose
    by_cases h : N.timesteps frames < m
    · exact fails_compose (ih h) kw hkw
    · intro w hw x w' hr
      have he : N.timesteps frames = m := by omega
      rw [eval_compose_Runs] at hr
      have hs := safe_gibbsInit (E := fun _ => False) (i0 := i0) (i1 := i1) (i2 := i2) (i3 := i3) (fresh := fresh) (fl := fl) (gl := gl) (r := r)
        (T := N.timesteps frames) hfr rfl m he.ge (subKw (mkAttrs fresh none none (fwdIx m 0) false) kw) (hkw.sub _) w hw
      rcases hr with ⟨e, rfl, hr⟩ | ⟨o1, w1, hr1, ⟨e, rfl, hr⟩ | ⟨o2, hr2, -⟩⟩
      · exact absurd (hs.error hr) id
      · exact coor_short (hkw.sub _) rfl (hs.result hr1).given he.le hr
      · cases coor_short (hkw.sub _) rfl (hs.result hr1).given he.le hr2

/-- C41, too few frames: the object is built, but every run of it raises IndexError, from the position encoder of the first time step that
the frames do not have. -/
theorem C41_short (N : ApgNet L) (same : L.V → L.V → Bool) (fresh i0 i1 i2 i3 : ObjId) (fl : LW L.W → LW L.W → LW L.W → L.Lo)
    (gl : LW L.W → LW L.W → L.W → L.Lo) (r : ResamplerFn L) (S T : Nat) (kvs : List (String × PyVal L)) (frames : L.V)
    (hf : getL kvs "frames" = some (.tensor frames)) (hT : N.timesteps frames < T) :
    ∃ q, gibbsSweeps fresh (apgObjs N i0 i1 i2 i3 fl gl r) S T = .ok q ∧
      ∀ kw, KwOk kw → ∀ w, (∀ j, w.cond j = none) → w.store.hooks = apgHooks same → ∀ x w', (eval q (.dict kvs) kw).Runs w x w' →
        x = .error .index := by
  obtain ⟨q, e, h⟩ := fails_sweeps (S := S) (N := N) (i0 := i0) (i1 := i1) (i2 := i2) (i3 := i3) (fl := fl) (gl := gl) (r := r)
    (fresh := fresh) (T := T) rfl (fails_propose (fails_compose (fails_init (same := same) hf T hT)))
  exact ⟨q, e, fun kw hkw w h1 h2 x w' => h kw hkw w ⟨h1, h2⟩ x w'⟩

/-- The input passes through the first loop, with the positions added. -/
theorem init_output {kvs : List (String × PyVal L)} {frames : L.V} (hf : getL kvs "frames" = some (.tensor frames))
    (m : Nat) (hm : m ≤ N.timesteps frames) (kw : Kw L) (hkw : KwOk kw) (w : World L) (hw : Calm same w) (out : Out L) (w' : World L)
    (hr : (eval (gibbsInit fresh (apgObjs N i0 i1 i2 i3 fl gl r) m) (.dict kvs) kw).Runs w (.ok out) w') (k : String)
    (hk : ∀ i, i < m → k ≠ zWhereName i 0) : item out.output k = item (.dict kvs) k := by
  have hfr : item (.dict kvs) "frames" = .ok frames := by simp only [item, hf]
  induction m generalizing kw out w' with
  | zero =>
    have h := (safe_prog (E := fun _ => False) (i := i0) (s := noopProg) (c := .dict kvs) (kw := kw) (w := w)
      (Q := fun o _ => o.output = .dict kvs) (bindModel_ok hkw (by rfl)) (Exec.Safe.pure rfl)).result hr
    rw [h]
  | succ m ih =>
    unfold gibbsInit mkCompose at hr
    rw [eval_compose_Runs] at hr
    have hs := safe_gibbsInit (E := fun _ => False) (i0 := i0) (i1 := i1) (i2 := i2) (i3 := i3) (fresh := fresh) (fl := fl) (gl := gl) (r := r)
      (T := N.timesteps frames) hfr rfl m (by omega) (subKw (mkAttrs fresh none none (fwdIx m 0) false) kw) (hkw.sub _) w hw
    rcases hr with ⟨e, h, -⟩ | ⟨o1, w1, hr1, ⟨e, h, -⟩ | ⟨o2, hr2, hr3⟩⟩
    · cases h
    · cases h
    have h1 := hs.result hr1
    obtain ⟨kvs1, ho1⟩ := h1.dict
    have hf1 := h1.given
    rw [ho1] at hr2 hf1
    have h2 := (draws_coor_fwd (same := same) i1 m 0 (by omega) hf1 rfl (what := none) (by rfl) (hkw.sub _) (by rfl)
      (h1.calm.cond _) h1.calm.hooks).safe (E := fun _ => False) |>.result hr2
    obtain ⟨zs, -, -, -, h4⟩ := h2
    have ho : out.output = o2.output := by
      rcases composeRest_spec (mkAttrs fresh none none (fwdIx m 0) false) kw o1 o2 with ⟨-, h⟩ | ⟨-, t', lw, -, -, -, h⟩
      · rw [h] at hr3; cases hr3
      · rw [h] at hr3
        unfold finish at hr3
        simp only [mkAttrs, idLoss] at hr3
        split at hr3 <;> cases hr3 <;> rfl
    rw [ho, h4]
    simp only [if_true, item]
    rw [getL_insertL, if_neg (by exact (hk m (by omega)))]
    have := ih (by omega) _ (hkw.sub _) _ _ hr1 fun i hi => hk i (by omega)
    rw [ho1] at this
    exact this

/-- Reading positions of which one is missing. -/
theorem readWheres_long {o : PyVal L} {s : Int} {F m : Nat} (hm : m < F) (h : ∀ i : Nat, i < m → ∃ v, item o (zWhereName i s) = .ok v)
    (hk : item o (zWhereName m s) = .error .key) : readWheres o s F = .error .key := by
  have hmap : ∀ l : List Nat, ∀ k, l.mapM (fun t : Nat => item o (zWhereName t s)) = (.error .key : Except Err (List L.V)) →
      (∀ j ∈ k, ∃ v, item o (zWhereName (j : Nat) s) = .ok v) → (k ++ l).mapM (fun t : Nat => item o (zWhereName t s)) = .error .key := by
    intro l k hl
    induction k with
    | nil => exact fun _ => hl
    | cons j k ih =>
      intro hj
      obtain ⟨v, hv⟩ := hj j (by simp)
      rw [List.cons_append, List.mapM_cons, hv, ih fun i hi => hj i (by simp [hi])]
      rfl
  have hr : List.range F = List.range m ++ m :: (List.range' (m + 1) (F - (m + 1))) := by
    rw [List.range_eq_range', List.range_eq_range', ← List.range'_succ, show F - (m + 1) + 1 = F - m by omega]
    have := List.range'_append (s := 0) (m := m) (n := F - m) (step := 1)
    rw [show 0 + 1 * m = m by omega, show m + (F - m) = F by omega] at this
    exact this.symm
  have hl : (m :: List.range' (m + 1) (F - (m + 1))).mapM (fun t : Nat => item o (zWhereName t s)) = (.error .key : Except Err (List L.V)) := by
    rw [List.mapM_cons, hk]; rfl
  have hall := hmap _ (List.range m) hl fun j hj => h j (by simpa using hj)
  unfold readWheres
  rw [hr, hall]
  cases m with
  | zero => rw [show ((0 : Nat) : Int) = 0 from rfl] at hk; rw [hk]; rfl
  | succ m =>
    obtain ⟨v, hv⟩ := h 0 (by omega)
    rw [show ((0 : Nat) : Int) = 0 from rfl] at hv
    rw [hv]; rfl

/-- C41, too many frames: the object is built, but every run of it raises KeyError, since the appearance encoder asks for a position for
every frame. -/
theorem C41_long (N : ApgNet L) (same : L.V → L.V → Bool) (fresh i0 i1 i2 i3 : ObjId) (fl : LW L.W → LW L.W → LW L.W → L.Lo)
    (gl : LW L.W → LW L.W → L.W → L.Lo) (r : ResamplerFn L) (S T : Nat) (kvs : List (String × PyVal L)) (frames : L.V)
    (hf : getL kvs "frames" = some (.tensor frames)) (hz : getL kvs (zWhereName T 0) = none) (hT : T < N.timesteps frames) :
    ∃ q, gibbsSweeps fresh (apgObjs N i0 i1 i2 i3 fl gl r) S T = .ok q ∧
      ∀ kw, KwOk kw → ∀ w, (∀ j, w.cond j = none) → w.store.hooks = apgHooks same → ∀ x w', (eval q (.dict kvs) kw).Runs w x w' →
        x = .error .key := by
  have hfr : item (.dict kvs) "frames" = .ok frames := by simp only [item, hf]
  have h0 : ∀ kw, KwOk kw → Fails same .key (eval (mkCompose fresh (.prog i2 (encDigitProg N))
      (gibbsInit fresh (apgObjs N i0 i1 i2 i3 fl gl r) T) none none (fwdIx T 0) false) (.dict kvs) kw) := by
    intro kw hkw w hw x w' hr
    unfold mkCompose at hr
    rw [eval_compose_Runs] at hr
    have hs := safe_gibbsInit (E := fun _ => False) (i0 := i0) (i1 := i1) (i2 := i2) (i3 := i3) (fresh := fresh) (fl := fl) (gl := gl) (r := r)
      (T := N.timesteps frames) hfr rfl T hT.le (subKw (mkAttrs fresh none none (fwdIx T 0) false) kw) (hkw.sub _) w hw
    have hdig : ∀ o1 w1, (eval (gibbsInit fresh (apgObjs N i0 i1 i2 i3 fl gl r) T) (.dict kvs)
          (subKw (mkAttrs fresh none none (fwdIx T 0) false) kw)).Runs w (.ok o1) w1 → ∀ y w2,
        (eval (.prog i2 (encDigitProg N)) o1.output (subKw (mkAttrs fresh none none (fwdIx T 0) false) kw)).Runs w1 y w2 → y = .error .key := by
      intro o1 w1 h1 y w2 h2
      have hst := hs.result h1
      refine prog_raises (bindModel_ok (hkw.sub _) (by rfl)) ?_ h2
      simp only [encDigitProg, encDigitModel]
      rw [andThen_ok (ixOf_received _ (by simp) (subKw (mkAttrs fresh none none (fwdIx T 0) false) kw) ⟨(T : Nat), (0 : Nat), "forward"⟩ rfl),
        andThen_ok hst.given]
      have hkey : item o1.output (zWhereName T 0) = .error .key := by
        rw [init_output (same := same) hf T hT.le _ (hkw.sub _) w hw o1 w1 h1 (zWhereName T 0) fun i hi he => by
          have := ((C42_z_where_injective _ _ _ _).1 he).1
          omega]
        simp only [item, hz]
      have hread : readWheres o1.output ((0 : Nat) : Int) (N.timesteps frames) = .error .key :=
        readWheres_long hT (fun i hi => by
          obtain ⟨rv, -, h⟩ := hst.wheres i hi
          exact ⟨_, h⟩) hkey
      rw [hread]
      rfl
    rcases hr with ⟨e, rfl, hr⟩ | ⟨o1, w1, hr1, ⟨e, rfl, hr⟩ | ⟨o2, hr2, -⟩⟩
    · exact absurd (hs.error hr) id
    · exact hdig _ _ hr1 _ _ hr
    · cases hdig _ _ hr1 _ _ hr2
  obtain ⟨q, e, h⟩ := fails_sweeps (S := S) (N := N) (i0 := i0) (i1 := i1) (i2 := i2) (i3 := i3) (fl := fl) (gl := gl) (r := r)
    (fresh := fresh) (T := T) rfl (fails_propose h0)
  exact ⟨q, e, fun kw hkw w h1 h2 x w' => h kw hkw w ⟨h1, h2⟩ x w'⟩

example : ∃ q, gibbsSweeps 4 (apgObjs Toy.net 0 1 2 3 (fun a _ _ => a.val.1) (fun a _ _ => a.val.1) Toy.keepAll) 2 3 = .ok q ∧
    ∀ kw, KwOk kw → ∀ w, (∀ j, w.cond j = none) → w.store.hooks = apgHooks Toy.same → ∀ x w',
      (eval q (.dict [("frames", .tensor ((2, 0) : Int × Int))]) kw).Runs w x w' → x = .error .index :=
  C41_short Toy.net Toy.same 4 0 1 2 3 _ _ _ 2 3 _ (2, 0) rfl (by decide)

example : ∃ q, gibbsSweeps 4 (apgObjs Toy.net 0 1 2 3 (fun a _ _ => a.val.1) (fun a _ _ => a.val.1) Toy.keepAll) 2 3 = .ok q ∧
    ∀ kw, KwOk kw → ∀ w, (∀ j, w.cond j = none) → w.store.hooks = apgHooks Toy.same → ∀ x w',
      (eval q (.dict [("frames", .tensor ((4, 0) : Int × Int))]) kw).Runs w x w' → x = .error .key :=
  C41_long Toy.net Toy.same 4 0 1 2 3 _ _ _ 2 3 _ (4, 0) rfl (by decide +kernel) (by decide)

end Verif
