import Verif.Proofs.ApgGibbs
import Verif.Props.Annealing
/-
C41, C54: the amortized Gibbs sampler.
-/
namespace Verif
open Spec Apg

/-- A network for the examples: two frames, one object, every distribution from its arguments. -/
def Toy.net : ApgNet Toy.L where
  objects := 1
  timesteps v := v.1.toNat
  coorStep f t what zs := f.1 + t + (match what with | some w => w.1 | none => 0) + zs.length
  stack zs := zs.headD (0, 0)
  slice v _ := v
  coorDist f t what zs := f.1 + t + (match what with | some w => w.1 | none => 0) + (zs.headD (0, 0)).1
  digitDist f zs := f.1 + (zs.map (·.1)).sum
  where0 := 1
  whereT v := v.1 + 1
  what := 5
  recon zs what := (zs.map (·.1)).sum + what.1
  reparam := true

/-- The number, compared by `is`. -/
def Toy.same (a b : Toy.L.V) : Bool := a == b

/-- The sampler for three frames and two sweeps. -/
def Toy.gibbs : Except Err (Node Toy.L) :=
  gibbsSweeps 4 (apgObjs Toy.net 0 1 2 3 (fun a _ _ => a.val.1) (fun a _ _ => a.val.1) Toy.keepAll) 2 3

def Toy.wApg : World Toy.L := { cond := fun _ => none, store := { data := Dict.empty, hooks := apgHooks Toy.same } }

/-- Whether the sampler is built and its run on the given draws succeeds. -/
def Toy.gibbsSucceeds (vs : List Toy.L.V) : Bool :=
  match Toy.gibbs with
  | .ok nd =>
    match Toy.feed (eval nd (.dict [("frames", .tensor (3, 0))]) {} Toy.wApg) vs with
    | some (.ok _, _) => true
    | _ => false
  | .error _ => false

/-- The Propose of sweep 1 at time 0. -/
def Toy.firstStep : Except Err (Node Toy.L) := do
  let q0 ← gibbsIs 4 (apgObjs Toy.net 0 1 2 3 (fun a _ _ => a.val.1) (fun a _ _ => a.val.1) Toy.keepAll) 3
  gibbsPropose 4 (apgObjs Toy.net 0 1 2 3 (fun a _ _ => a.val.1) (fun a _ _ => a.val.1) Toy.keepAll) 3
    (.prog 1 (encCoorProg Toy.net)) 0 1 (mkResample 4 Toy.keepAll q0 none .none false)

/-- The last position's density in its result on the given draws, and its density as a step from the position before. -/
def Toy.lastDensity (vs : List Toy.L.V) : Option (Int × Int) :=
  match Toy.firstStep with
  | .ok nd =>
    match Toy.feed (eval nd (.dict [("frames", .tensor (3, 0))]) {} Toy.wApg) vs with
    | some (.ok out, _) =>
      match out.trace.get? (zWhereName 2 0), out.trace.get? (zWhereName 1 0) with
      | some rv, some rv1 => some (rv.logProb.1, (Toy.L.logProb (Toy.net.whereT rv1.value) rv.value).1)
      | _, _ => none
    | _ => none
  | .error _ => none

variable {L : Lang}

/-- C41. With the experiment's hooks, an assignment to the global store succeeds only for weak references and otherwise raises
AssertionError and leaves the store as it was. -/
theorem C41_store_weak (same : L.V → L.V → Bool) (s : Store L) (hs : s.hooks = apgHooks same) (k : String) (v : PyVal L) :
    ((∃ x, v = .weakref x) → s.setItem k v = (.ok (), { s with data := s.data.insert k v })) ∧
    ((∀ x, v ≠ .weakref x) → s.setItem k v = (.error .assertion, s)) := by
  obtain ⟨data, hooks⟩ := s
  simp only at hs
  subst hs
  refine ⟨?_, fun h => ?_⟩
  · rintro ⟨x, rfl⟩
    rfl
  · cases v with
    | weakref x => exact absurd rfl (h x)
    | _ => rfl

/-- C41. For every number of time steps T >= 1 and every number of sweeps S, gibbs_sweeps builds an object, and running it on
frames with T time steps raises nothing (no address overlap, no missing key, no failed assertion) except what the resampler
raises; the result's trace has exactly the T positions and the appearance of the last sweep and the reconstruction. -/
theorem C41_gibbs (N : ApgNet L) (same : L.V → L.V → Bool) (hsame : ∀ v, same v v = true)
    (hd : ∀ v, N.timesteps (L.detachV v) = N.timesteps v) (fresh i0 i1 i2 i3 : ObjId) (h1 : i1 ≤ fresh) (h2 : i2 ≤ fresh)
    (h3 : i3 ≤ fresh) (fl : LW L.W → LW L.W → LW L.W → L.Lo) (gl : LW L.W → LW L.W → L.W → L.Lo) (r : ResamplerFn L)
    (hr : ∀ sd bd t lw t2 lw2, (r sd bd t lw).Ret (.ok (t2, lw2)) → ∀ k, t2.contains k = t.contains k)
    (T S : Nat) (hT : 1 ≤ T) (kvs : List (String × PyVal L)) (frames : L.V) (hf : getL kvs "frames" = some (.tensor frames))
    (hft : N.timesteps frames = T) :
    ∃ q, gibbsSweeps fresh (apgObjs N i0 i1 i2 i3 fl gl r) S T = .ok q ∧
      ∀ kw, KwOk kw → ∀ w, (∀ j, w.cond j = none) → w.store.hooks = apgHooks same → ∀ x w', (eval q (.dict kvs) kw).Runs w x w' →
        (∃ e sd bd t lw, x = .error e ∧ (r sd bd t lw).Ret (.error e)) ∨
        ∃ out, x = .ok out ∧ (∀ j, w'.cond j = none) ∧
          (∀ k, k ∈ out.trace.keys ↔ k = "recon" ∨ k = zWhatName S ∨ ∃ i, i < T ∧ k = zWhereName i S) ∧
          Stage N same T T S S frames out w' := by
  have hr' : Resamples (fun e => ∃ sd bd t lw, (r sd bd t lw).Ret (.error e)) (fun _ _ => True) r := by
    intro sd bd t lw x _ _ hx
    cases x with
    | error e => exact Or.inl ⟨e, rfl, sd, bd, t, lw, hx⟩
    | ok p => exact Or.inr ⟨p.1, p.2, rfl, hr sd bd t lw p.1 p.2 hx⟩
  obtain ⟨q, e, hq⟩ := safe_gibbs (i0 := i0) (fl := fl) (gl := gl) hd hsame hr' (kvs := kvs) (f := frames)
    (by simp only [item, hf]) hft h1 h2 h3 hT S
  refine ⟨q, e, fun kw hkw w hc hh x w' hx => ?_⟩
  rcases hq kw ⟨hkw, trivial⟩ w ⟨hc, hh⟩ x w' hx with ⟨out, h4, h5⟩ | ⟨e, h4, sd, bd, t, lw, h5⟩
  · refine Or.inr ⟨out, h4, h5.calm.cond, fun k => ?_, h5⟩
    rw [← Dict.contains_iff, h5.addr]
    refine or_congr Iff.rfl (or_congr Iff.rfl ⟨?_, ?_⟩)
    · rintro ⟨i, hi, rfl⟩; exact ⟨i, hi, whereAt_lt hi⟩
    · rintro ⟨i, hi, rfl⟩; exact ⟨i, hi, (whereAt_lt hi).symm⟩
  · exact Or.inl ⟨e, sd, bd, t, lw, h4, h5⟩

/-- A run of the sampler for three frames and two sweeps that returns. -/
example : ∃ nd out w', Toy.gibbs = .ok nd ∧
    (eval nd (.dict [("frames", .tensor ((3, 0) : Int × Int))]) {}).Runs Toy.wApg (.ok out) w' ∧
    Stage Toy.net Toy.same 3 3 2 2 (3, 0) out w' := by
  have hs : Toy.gibbsSucceeds [(1, 1), (2, 1), (3, 1), (4, 1), (5, 1), (6, 1), (7, 1), (8, 1), (9, 1), (10, 1), (11, 1), (12, 1)] = true := by
    decide +kernel
  unfold Toy.gibbsSucceeds at hs
  obtain ⟨q, e, h⟩ := C41_gibbs Toy.net Toy.same (by simp [Toy.same]) (by intro v; rfl) 4 0 1 2 3 (by decide) (by decide) (by decide)
    (fun a _ _ => a.val.1) (fun a _ _ => a.val.1) Toy.keepAll
    (by intro sd bd t lw t2 lw2 h k; simp only [Toy.keepAll, Comp.ret_Ret, Except.ok.injEq, Prod.mk.injEq] at h; rw [h.1])
    3 2 (by decide) [("frames", .tensor ((3, 0) : Int × Int))] (3, 0) rfl rfl
  have e' : Toy.gibbs = .ok q := e
  rw [e'] at hs
  simp only at hs
  split at hs
  · rename_i out w' hf
    refine ⟨q, out, w', e', Toy.feed_Ret hf, ?_⟩
    rcases h {} (by simp [KwOk]) Toy.wApg (fun _ => rfl) rfl _ _ (Toy.feed_Ret hf) with ⟨_, _, _, _, _, h, -⟩ | ⟨o, h, -, -, hS⟩
    · cases h
    · cases h; exact hS
  · cases hs

section stages
variable (N : ApgNet L) (same : L.V → L.V → Bool) (hsame : ∀ v, same v v = true)
  (hd : ∀ v, N.timesteps (L.detachV v) = N.timesteps v) (fresh i0 i1 i2 i3 : ObjId) (h1 : i1 ≤ fresh) (h2 : i2 ≤ fresh)
  (h3 : i3 ≤ fresh) (fl : LW L.W → LW L.W → LW L.W → L.Lo) (gl : LW L.W → LW L.W → L.W → L.Lo) (r : ResamplerFn L)
  (hr : ∀ sd bd t lw t2 lw2, (r sd bd t lw).Ret (.ok (t2, lw2)) → ∀ k, t2.contains k = t.contains k)
  (T S s t : Nat) (hs : 1 ≤ s) (hsS : s ≤ S) (ht : t < T)

/-- The Propose that gibbs_sweeps builds in sweep `s` at time `t` (the prefix of the construction up to it). -/
def StageNode (p : Node L) : Prop :=
  ∃ q0 q q', gibbsIs fresh (apgObjs N i0 i1 i2 i3 fl gl r) T = .ok q0 ∧
    (List.range' 1 (s - 1)).foldlM (gibbsSweep fresh (apgObjs N i0 i1 i2 i3 fl gl r) T S) (mkResample fresh r q0 none .none false) = .ok q ∧
    (List.range t).foldlM (gibbsStep fresh (apgObjs N i0 i1 i2 i3 fl gl r) T s) q = .ok q' ∧
    gibbsPropose fresh (apgObjs N i0 i1 i2 i3 fl gl r) T (apgObjs N i0 i1 i2 i3 fl gl r).coor t s q' = .ok p

include hsame hd h1 h2 h3 hr hs hsS ht in
/-- C41, in between: after the Propose of sweep `s` at time `t` the trace has exactly the positions up to `t` of sweep `s`, those
after `t` of sweep `s - 1`, the appearance of sweep `s - 1` and the reconstruction; nothing is raised but by the resampler. -/
theorem C41_stages (kvs : List (String × PyVal L)) (frames : L.V) (hf : getL kvs "frames" = some (.tensor frames))
    (hft : N.timesteps frames = T) :
    ∃ p, StageNode N fresh i0 i1 i2 i3 fl gl r T S s t p ∧
      ∀ kw, KwOk kw → ∀ w, (∀ j, w.cond j = none) → w.store.hooks = apgHooks same → ∀ x w', (eval p (.dict kvs) kw).Runs w x w' →
        (∃ e sd bd t lw, x = .error e ∧ (r sd bd t lw).Ret (.error e)) ∨
        ∃ out, x = .ok out ∧ Stage N same T (t + 1) s ((s : Int) - 1) frames out w' ∧
          (∀ k, k ∈ out.trace.keys ↔ k = "recon" ∨ k = zWhatName ((s : Int) - 1) ∨
            ∃ i, i < T ∧ k = zWhereName i (if i ≤ t then s else (s : Int) - 1)) := by
  have hr' : Resamples (fun e => ∃ sd bd t lw, (r sd bd t lw).Ret (.error e)) (fun _ _ => True) r := by
    intro sd bd t lw x _ _ hx
    cases x with
    | error e => exact Or.inl ⟨e, rfl, sd, bd, t, lw, hx⟩
    | ok p => exact Or.inr ⟨p.1, p.2, rfl, hr sd bd t lw p.1 p.2 hx⟩
  obtain ⟨q0, q, q', p, e0, e1, e2, e3, hp⟩ := safe_stage (i0 := i0) (fl := fl) (gl := gl) hd hsame hr' (kvs := kvs) (f := frames)
    (by simp only [item, hf]) hft h1 h2 h3 (by omega) S s t hs hsS ht
  refine ⟨p, ⟨q0, q, q', e0, e1, e2, e3⟩, fun kw hkw w hc hh x w' hx => ?_⟩
  rcases hp kw ⟨hkw, trivial⟩ w ⟨hc, hh⟩ x w' hx with ⟨out, h4, h5⟩ | ⟨e, h4, sd, bd, t, lw, h5⟩
  · refine Or.inr ⟨out, h4, h5, fun k => ?_⟩
    rw [← Dict.contains_iff, h5.addr]
    unfold Addr whereAt
    simp only [Nat.lt_succ_iff]
  · exact Or.inl ⟨e, sd, bd, t, lw, h4, h5⟩

include hsame hd h1 h2 h3 hr hs hsS ht in
/-- C54. The decoder's density of the positions in sweep `s` at time `t`: time 0 from its prior, each time up to `t + 1` a step from
the position before, but every later time a step from the position at `t`, not from the position before. -/
theorem C54_prior (kvs : List (String × PyVal L)) (frames : L.V) (hf : getL kvs "frames" = some (.tensor frames))
    (hft : N.timesteps frames = T) (p : Node L) (hp : StageNode N fresh i0 i1 i2 i3 fl gl r T S s t p) (kw : Kw L) (hkw : KwOk kw)
    (w w' : World L) (hc : ∀ j, w.cond j = none) (hh : w.store.hooks = apgHooks same) (out : Out L)
    (hx : (eval p (.dict kvs) kw).Runs w (.ok out) w') :
    ∃ rv : Nat → RV L, (∀ i, i < T → out.trace.get? (zWhereName i (if i ≤ t then s else (s : Int) - 1)) = some (rv i)) ∧
      ∀ i, i < T →
        (rv i).logProb = L.logProb (if i = 0 then N.where0 else if i ≤ t + 1 then N.whereT (rv (i - 1)).value
          else N.whereT (rv t).value) (rv i).value := by
  obtain ⟨p', ⟨q0, q, q', e0, e1, e2, e3⟩, h⟩ := C41_stages N same hsame hd fresh i0 i1 i2 i3 h1 h2 h3 fl gl r hr T S s t hs hsS ht kvs frames
    hf hft
  obtain ⟨q0', u, u', f0, f1, f2, f3⟩ := hp
  rw [e0] at f0; cases f0
  rw [e1] at f1; cases f1
  rw [e2] at f2; cases f2
  rw [e3] at f3; cases f3
  rcases h kw hkw w hc hh _ _ hx with ⟨_, _, _, _, _, h, -⟩ | ⟨o, h, hS, -⟩
  · cases h
  cases h
  obtain ⟨val, what, hl⟩ := hS.latent
  have hv := hl.wheres
  refine ⟨fun i => RV.mk' (prior N (t + 1) val i) (val i) .reused N.reparam, fun i hi => ?_, fun i hi => ?_⟩
  · have := hv i hi
    unfold whereAt at this
    simp only [Nat.lt_succ_iff] at this
    exact this
  · show L.logProb (prior N (t + 1) val i) (val i) = _
    congr 1
    unfold prior
    by_cases h0 : i = 0
    · rw [if_pos h0, if_pos h0]
    · rw [if_neg h0, if_neg h0]
      by_cases h1 : i ≤ t + 1
      · rw [if_pos h1]
        show N.whereT _ = N.whereT (val (i - 1))
        congr 2; omega
      · rw [if_neg h1]
        show N.whereT _ = N.whereT (val t)
        congr 2; omega

end stages

/-- In a concrete run the last position's density is not that of a step from the position before it. -/
example : Toy.lastDensity [(1, 1), (2, 1), (3, 1), (4, 1), (5, 1)] = some (18, 9) := by decide +kernel

/-- Every run raises KeyError. -/
def KeyErrors {α : Type} (m : Exec L α) : Prop := ∀ w r w', m.Runs w r w' → r = .error .key

section noFrames
variable {N : ApgNet L} {fresh i0 i1 i2 i3 : ObjId} {fl : LW L.W → LW L.W → LW L.W → L.Lo} {gl : LW L.W → LW L.W → L.W → L.Lo}
  {r : ResamplerFn L}

theorem keyErrors_propose {a : Attrs L} {tr : Trace L → Kw L → Except Err (Trace L)} {nr : Bool} {p q : Node L} {c : PyVal L}
    (h : ∀ kw, KwOk kw → KeyErrors (eval q c kw)) (kw : Kw L) (hkw : KwOk kw) : KeyErrors (eval (.propose a tr nr p q) c kw) := by
  intro w r w' hr
  rw [eval_propose_Runs] at hr
  rcases hr with ⟨e, rfl, hr⟩ | ⟨qo, w1, w2, hr1, -⟩
  · exact h _ (hkw.sub a) _ _ _ hr
  · cases h _ (hkw.sub a) _ _ _ hr1

theorem keyErrors_compose {a : Attrs L} {q2 q1 : Node L} {c : PyVal L} (h : ∀ kw, KwOk kw → KeyErrors (eval q1 c kw)) (kw : Kw L)
    (hkw : KwOk kw) : KeyErrors (eval (.compose a q2 q1) c kw) := by
  intro w r w' hr
  rw [eval_compose_Runs] at hr
  rcases hr with ⟨e, rfl, hr⟩ | ⟨o1, w1, hr1, -⟩
  · exact h _ (hkw.sub a) _ _ _ hr
  · cases h _ (hkw.sub a) _ _ _ hr1

theorem keyErrors_resample {a : Attrs L} {rs : ResamplerFn L} {q : Node L} {c : PyVal L} (h : ∀ kw, KwOk kw → KeyErrors (eval q c kw))
    (kw : Kw L) (hkw : KwOk kw) : KeyErrors (eval (.resample a rs q) c kw) := by
  intro w x w' hr
  conv at hr => unfold eval
  rw [Exec.Runs_bind] at hr
  rcases hr with ⟨e, rfl, hr⟩ | ⟨o1, w1, hr1, hr⟩
  · exact h (childKw a kw) hkw _ _ _ hr
  · cases h (childKw a kw) hkw _ _ _ hr1

/-- C41, the remaining case: with T = 0 gibbs_sweeps builds an object too, but running it always raises KeyError: the appearance
encoder looks up the position at time 0. -/
theorem C41_no_timesteps (N : ApgNet L) (fresh i0 i1 i2 i3 : ObjId) (fl : LW L.W → LW L.W → LW L.W → L.Lo)
    (gl : LW L.W → LW L.W → L.W → L.Lo) (r : ResamplerFn L) (S : Nat) (kvs : List (String × PyVal L)) (frames : L.V)
    (hf : getL kvs "frames" = some (.tensor frames)) (hz : getL kvs (zWhereName 0 0) = none) :
    ∃ q, gibbsSweeps fresh (apgObjs N i0 i1 i2 i3 fl gl r) S 0 = .ok q ∧
      ∀ kw, KwOk kw → KeyErrors (eval q (.dict kvs) kw) := by
  have hfr : item (.dict kvs) "frames" = .ok frames := by simp only [item, hf]
  have h0 : ∀ kw, KwOk kw → KeyErrors (eval (mkCompose fresh (.prog i2 (encDigitProg N)) (.prog i0 noopProg) none none
      (fwdIx 0 0) false) (.dict kvs) kw) := by
    intro kw hkw w x w' hr
    unfold mkCompose at hr
    rw [eval_compose_Runs] at hr
    have hn : (eval (.prog i0 noopProg) (.dict kvs) (subKw (mkAttrs fresh none none (fwdIx 0 0) false) kw)).Safe (fun _ => False) w
        fun o w' => o.output = .dict kvs := by
      apply safe_prog (bindModel_ok (hkw.sub _) (by rfl))
      exact Exec.Safe.pure rfl
    have hdig : KeyErrors (eval (.prog i2 (encDigitProg N)) (.dict kvs) (subKw (mkAttrs fresh none none (fwdIx 0 0) false) kw)) := by
      intro w x w' hr
      unfold Exec.Runs at hr
      rw [eval_prog_apply, bindModel_ok (hkw.sub _) (by rfl)] at hr
      simp only [encDigitProg, encDigitModel] at hr
      rw [andThen_ok (ixOf_received _ (by simp) (subKw (mkAttrs fresh none none (fwdIx 0 0) false) kw) ⟨(0 : Nat), (0 : Nat), "forward"⟩ rfl),
        andThen_ok hfr] at hr
      have : readWheres (.dict kvs) ((0 : Nat) : Int) (N.timesteps frames) = .error .key := by
        unfold readWheres
        have : item (.dict kvs) (zWhereName 0 ((0 : Nat) : Int)) = .error .key := by
          have hz' : getL kvs (zWhereName 0 ((0 : Nat) : Int)) = none := hz
          simp only [item, hz']
        rw [this]; rfl
      rw [this] at hr
      simp only [andThen, runModel, Comp.bind_Ret, Comp.ret_Ret] at hr
      obtain ⟨⟨y, w1⟩, h1, h2⟩ := hr
      simp only [Exec.throw, Comp.ret_Ret, Prod.mk.injEq] at h1
      obtain ⟨rfl, rfl⟩ := h1
      simp only [Prod.mk.injEq] at h2
      exact h2.1.symm
    rcases hr with ⟨e, rfl, hr⟩ | ⟨o1, w1, hr1, ⟨e, rfl, hr⟩ | ⟨o2, hr2, -⟩⟩
    · exact absurd (hn.error hr) id
    · rw [hn.result hr1] at hr
      exact hdig _ _ _ hr
    · rw [hn.result hr1] at hr2
      cases hdig _ _ _ hr2
  obtain ⟨q0, e0, hq0⟩ : ∃ q0, gibbsIs fresh (apgObjs N i0 i1 i2 i3 fl gl r) 0 = .ok q0 ∧ ∀ kw, KwOk kw → KeyErrors (eval q0 (.dict kvs) kw) :=
    ⟨_, rfl, fun kw hkw => keyErrors_propose h0 kw hkw⟩
  have key : ∀ m, ∃ q, (List.range' 1 m).foldlM (gibbsSweep fresh (apgObjs N i0 i1 i2 i3 fl gl r) 0 S)
      (if 0 < S then mkResample fresh r q0 none .none false else q0) = .ok q ∧
      ∀ kw, KwOk kw → KeyErrors (eval q (.dict kvs) kw) := by
    intro m
    induction m with
    | zero =>
      refine ⟨_, rfl, fun kw hkw => ?_⟩
      split
      · exact keyErrors_resample hq0 kw hkw
      · exact hq0 kw hkw
    | succ m ih =>
      obtain ⟨q, e, hq⟩ := ih
      rw [List.range'_concat, List.foldlM_append, e]
      refine ⟨_, rfl, fun kw hkw => ?_⟩
      split
      · exact keyErrors_resample (keyErrors_propose (keyErrors_compose hq)) kw hkw
      · exact keyErrors_propose (keyErrors_compose hq) kw hkw
  obtain ⟨q, e, hq⟩ := key S
  refine ⟨q, ?_, hq⟩
  unfold gibbsSweeps
  rw [e0]
  exact e

example : ∃ q, gibbsSweeps 4 (apgObjs Toy.net 0 1 2 3 (fun a _ _ => a.val.1) (fun a _ _ => a.val.1) Toy.keepAll) 1 0 = .ok q ∧
    ∀ kw, KwOk kw → KeyErrors (eval q (.dict [("frames", .tensor ((0, 0) : Int × Int))]) kw) :=
  C41_no_timesteps Toy.net 4 0 1 2 3 _ _ _ 1 _ (0, 0) rfl (by decide +kernel)

end noFrames

end Verif
