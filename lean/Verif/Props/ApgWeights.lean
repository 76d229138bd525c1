import Mathlib.MeasureTheory.Measure.Count
import Mathlib.MeasureTheory.Integral.Lebesgue.Countable
import Verif.Proofs.ApgWeights
import Verif.Proofs.ApgIncrement
import Verif.Proofs.Resample
import Verif.Props.Apg
/-
C64, C65: the log weights of the amortized Gibbs sampler.
-/
namespace Verif
open Spec Apg

section whole
variable {L : Lang} (N : ApgNet L) (same : L.V → L.V → Bool) (hsame : ∀ v, same v v = true)
  (hd : ∀ v, N.timesteps (L.detachV v) = N.timesteps v) (fresh i0 i1 i2 i3 : ObjId) (h1 : i1 ≤ fresh) (h2 : i2 ≤ fresh)
  (h3 : i3 ≤ fresh) (fl : LW L.W → LW L.W → LW L.W → L.Lo) (gl : LW L.W → LW L.W → L.W → L.Lo) (r : ResamplerFn L)
  (sd bd : PyVal L) (φ : L.W → L.W) (hr : Keeps r sd bd φ)
  (T S : Nat) (hT : 1 ≤ T) (kvs : List (String × PyVal L)) (frames : L.V) (hf : getL kvs "frames" = some (.tensor frames))
  (hft : N.timesteps frames = T)

include hsame hd h1 h2 h3 hr hT hf hft in
/-- C64. The sampler, written out: where resampling does not move particles (one particle), what gibbs_sweeps builds draws exactly as
importance sampling followed by S sweeps of positions and appearance does, raises nothing, returns those positions, that appearance
and that log weight, and the log weight changes at every step by the written increment and at every resampling by `φ`. -/
theorem C64_program :
    ∃ q, gibbsSweeps fresh (apgObjs N i0 i1 i2 i3 fl gl r) S T = .ok q ∧
      ∀ kw, KwOk kw → kw.sampleDims = sd → kw.batchDim = bd → ∀ w, (∀ j, w.cond j = none) → w.store.hooks = apgHooks same →
        Like (fun p out w' => Latents N T T S S frames p.pos p.what out.trace ∧ out.logWeight = .tensor p.lw ∧
          Stage N same T T S S frames out w') (eval q (.dict kvs) kw w) (sweepsLaw φ N frames T S) := by
  obtain ⟨q, e, h⟩ := like_gibbs (i0 := i0) (fl := fl) (gl := gl) hd hsame hr (kvs := kvs) (f := frames)
    (by simp only [item, hf]) hft h1 h2 h3 hT S
  refine ⟨q, e, fun kw hkw h4 h5 w hc hh => (h kw ⟨hkw, h4, h5⟩ w ⟨hc, hh⟩).mono ?_⟩
  rintro p out w' ⟨h6, h7, h8⟩
  exact ⟨h8, h7.weight, h6⟩

include hsame hd h1 h2 h3 hT hf hft in
/-- C64. With one particle and at least one sweep, the log weight that gibbs_sweeps returns is only that of the last step: of
replacing some appearance `old` by the returned one. What the steps before contributed is lost, because Resample is told to normalize
the weights. -/
theorem C64_last (hr : Keeps r sd bd fun _ => 0) (hS : 1 ≤ S) :
    ∃ q, gibbsSweeps fresh (apgObjs N i0 i1 i2 i3 fl gl r) S T = .ok q ∧
      ∀ kw, KwOk kw → kw.sampleDims = sd → kw.batchDim = bd → ∀ w, (∀ j, w.cond j = none) → w.store.hooks = apgHooks same →
        ∀ x w', (eval q (.dict kvs) kw).Runs w x w' → ∃ out pos z old, x = .ok out ∧
          Latents N T T S S frames pos z out.trace ∧
          out.logWeight = .tensor (L.detachW
            ((joint N T T frames pos z + L.logProb (N.digitDist frames ((List.range T).map pos)) old) -
              (joint N T T frames pos old + L.logProb (N.digitDist (L.detachV frames) ((List.range T).map pos)) z))) := by
  obtain ⟨q, e, h⟩ := C64_program N same hsame hd fresh i0 i1 i2 i3 h1 h2 h3 fl gl r sd bd _ hr T S hT kvs frames hf hft
  refine ⟨q, e, fun kw hkw h4 h5 w hc hh x w' hx => ?_⟩
  obtain ⟨p, out, hp, rfl, h6, h7, -⟩ := (h kw hkw h4 h5 w hc hh).runs hx
  obtain ⟨S, rfl⟩ : ∃ S', S = S' + 1 := ⟨S - 1, by omega⟩
  obtain ⟨T, rfl⟩ : ∃ T', T = T' + 1 := ⟨T - 1, by omega⟩
  simp only [sweepsLaw, stepsLaw, Comp.bind_Ret, Comp.ret_Ret, digitLaw] at hp
  obtain ⟨p0, -, p1, ⟨p2, -, rfl⟩, z, rfl⟩ := hp
  refine ⟨out, p2.pos, z, p2.what, rfl, h6, ?_⟩
  rw [h7]
  simp only [reweigh, zero_add]

end whole

section increments
variable {L : Lang} (N : ApgNet L) (same : L.V → L.V → Bool) (hsame : ∀ v, same v v = true)
  (hd : ∀ v, N.timesteps (L.detachV v) = N.timesteps v) (fresh i0 i1 i2 i3 : ObjId) (h1 : i1 ≤ fresh) (h2 : i2 ≤ fresh)
  (h3 : i3 ≤ fresh) (fl : LW L.W → LW L.W → LW L.W → L.Lo) (gl : LW L.W → LW L.W → L.W → L.Lo) (r : ResamplerFn L)
  (hr : ∀ sd bd t lw t2 lw2, (r sd bd t lw).Ret (.ok (t2, lw2)) → ∀ k, t2.contains k = t.contains k)
  (hp : ∀ sd bd t lw t2 lw2, (r sd bd t lw).Ret (.ok (t2, lw2)) → ∀ k rv rv2, t.get? k = some rv → t2.get? k = some rv2 → rv2.prov = rv.prov)
  (T S s t : Nat) (hT : 1 ≤ T) (hs : 1 ≤ s) (hsS : s ≤ S) (kvs : List (String × PyVal L)) (frames : L.V)
  (hf : getL kvs "frames" = some (.tensor frames)) (hft : N.timesteps frames = T)

/-- What gibbs_sweeps has built before the step of sweep `s` at time `t` (`T` for the appearance): a Resample of `p0`. -/
def BuiltBefore (p0 : Node L) : Prop :=
  ∃ q0 q, gibbsIs fresh (apgObjs N i0 i1 i2 i3 fl gl r) T = .ok q0 ∧
    (List.range' 1 (s - 1)).foldlM (gibbsSweep fresh (apgObjs N i0 i1 i2 i3 fl gl r) T S) (mkResample fresh r q0 none .none false) = .ok q ∧
    (List.range t).foldlM (gibbsStep fresh (apgObjs N i0 i1 i2 i3 fl gl r) T s) q = .ok (mkResample fresh r p0 none .none false)

include hsame hd h1 h2 h3 hr hp hT hs hsS hf hft in
/-- A position step: the log weight and the loss. -/
theorem position_run (ht : t < T) :
    ∃ p0 p, BuiltBefore N fresh i0 i1 i2 i3 fl gl r T S s t p0 ∧
      gibbsPropose fresh (apgObjs N i0 i1 i2 i3 fl gl r) T (apgObjs N i0 i1 i2 i3 fl gl r).coor t s
        (mkResample fresh r p0 none .none false) = .ok p ∧
      ∀ kw, KwOk kw → ∀ w, (∀ j, w.cond j = none) → w.store.hooks = apgHooks same → ∀ out w',
        (eval p (.dict kvs) kw).Runs w (.ok out) w' → ∃ kw0 o0 w0 t1 lw1, KwOk kw0 ∧ (eval p0 (.dict kvs) kw0).Runs w (.ok o0) w0 ∧
          Before N same T t s frames o0 w0 ∧ (r kw.sampleDims kw.batchDim o0.trace o0.logWeight).Ret (.ok (t1, lw1)) ∧
          PositionStep N T t s frames t1 lw1 out ∧
          PositionLoss N T t s frames gl (o0.loss.getD 0) out := by
  have hr' : Resamples (fun _ => True) (fun _ _ => True) r := by
    intro sd bd t lw x _ _ hx
    cases x with
    | error e => exact Or.inl ⟨e, rfl, trivial⟩
    | ok p => exact Or.inr ⟨p.1, p.2, rfl, hr sd bd t lw p.1 p.2 hx⟩
  have hf' : item (.dict kvs) "frames" = .ok frames := by simp only [item, hf]
  obtain ⟨q0, q, p0, e0, e1, e2, h⟩ := resampled_steps (i0 := i0) (fl := fl) (gl := gl) hd hsame hr' hf' hft h1 h2 h3 hT S s t hs hsS ht.le
  refine ⟨p0, _, ⟨q0, q, e0, e1, e2⟩, rfl, fun kw hkw w hc hh out w' hx => ?_⟩
  unfold Before at h ⊢
  by_cases h0 : t = 0
  · rw [if_pos h0] at h ⊢
    refine coor_increment (i0 := i0) (i2 := i2) (fl := fl) (gl := gl) hd hsame hr' hp hf' hft h1 h3 ht hs (fun o w hR => ?_) h rfl ⟨hkw, trivial⟩ ⟨hc, hh⟩ hx
    have := Ready_next hR
    rw [Int.sub_add_cancel] at this
    rw [h0]
    exact this
  · rw [if_neg h0] at h ⊢
    exact coor_increment (i0 := i0) (i2 := i2) (fl := fl) (gl := gl) hd hsame hr' hp hf' hft h1 h3 ht hs (fun o w hR => hR) h rfl ⟨hkw, trivial⟩ ⟨hc, hh⟩ hx

include hsame hd h1 h2 h3 hr hp hT hs hsS hf hft in
/-- A appearance step: the log weight and the loss. -/
theorem appearance_run :
    ∃ p0 p, BuiltBefore N fresh i0 i1 i2 i3 fl gl r T S s T p0 ∧
      gibbsPropose fresh (apgObjs N i0 i1 i2 i3 fl gl r) T (apgObjs N i0 i1 i2 i3 fl gl r).digit T s
        (mkResample fresh r p0 none .none false) = .ok p ∧
      ∀ kw, KwOk kw → ∀ w, (∀ j, w.cond j = none) → w.store.hooks = apgHooks same → ∀ out w',
        (eval p (.dict kvs) kw).Runs w (.ok out) w' → ∃ kw0 o0 w0 t1 lw1, KwOk kw0 ∧ (eval p0 (.dict kvs) kw0).Runs w (.ok o0) w0 ∧
          Before N same T T s frames o0 w0 ∧ (r kw.sampleDims kw.batchDim o0.trace o0.logWeight).Ret (.ok (t1, lw1)) ∧
          AppearanceStep N T s frames t1 lw1 out ∧
          AppearanceLoss N T s frames gl (o0.loss.getD 0) out := by
  have hr' : Resamples (fun _ => True) (fun _ _ => True) r := by
    intro sd bd t lw x _ _ hx
    cases x with
    | error e => exact Or.inl ⟨e, rfl, trivial⟩
    | ok p => exact Or.inr ⟨p.1, p.2, rfl, hr sd bd t lw p.1 p.2 hx⟩
  have hf' : item (.dict kvs) "frames" = .ok frames := by simp only [item, hf]
  obtain ⟨q0, q, p0, e0, e1, e2, h⟩ := resampled_steps (i0 := i0) (fl := fl) (gl := gl) hd hsame hr' hf' hft h1 h2 h3 hT S s T hs hsS le_rfl
  refine ⟨p0, _, ⟨q0, q, e0, e1, e2⟩, rfl, fun kw hkw w hc hh out w' hx => ?_⟩
  unfold Before at h ⊢
  rw [if_neg (by omega)] at h ⊢
  exact digit_increment (i0 := i0) (i1 := i1) (fl := fl) (gl := gl) hd hsame hr' hp hf' hft h2 h3 hT hs (fun o w hR => hR) h rfl ⟨hkw, trivial⟩ ⟨hc, hh⟩ hx

include hsame hd h1 h2 h3 hr hp hT hs hsS hf hft in
/-- C64, any number of particles, any resampler that keeps addresses and provenances: a result of the Propose of sweep `s` at time `t`
comes from a result `o0` of the Propose before, of which the resampler makes the trace `t1` and the log weight `lw1`; the position is
replaced and the log weight is `lw1` plus the written increment. -/
theorem C64_position (ht : t < T) :
    ∃ p0 p, BuiltBefore N fresh i0 i1 i2 i3 fl gl r T S s t p0 ∧
      gibbsPropose fresh (apgObjs N i0 i1 i2 i3 fl gl r) T (apgObjs N i0 i1 i2 i3 fl gl r).coor t s
        (mkResample fresh r p0 none .none false) = .ok p ∧
      ∀ kw, KwOk kw → ∀ w, (∀ j, w.cond j = none) → w.store.hooks = apgHooks same → ∀ out w',
        (eval p (.dict kvs) kw).Runs w (.ok out) w' → ∃ kw0 o0 w0 t1 lw1, KwOk kw0 ∧ (eval p0 (.dict kvs) kw0).Runs w (.ok o0) w0 ∧
          Before N same T t s frames o0 w0 ∧ (r kw.sampleDims kw.batchDim o0.trace o0.logWeight).Ret (.ok (t1, lw1)) ∧
          PositionStep N T t s frames t1 lw1 out := by
  obtain ⟨p0, p, hb, e, h⟩ := position_run N same hsame hd fresh i0 i1 i2 i3 h1 h2 h3 fl gl r hr hp T S s t hT hs hsS kvs frames hf hft ht
  refine ⟨p0, p, hb, e, fun kw hkw w hc hh out w' hx => ?_⟩
  obtain ⟨kw0, o0, w0, t1, lw1, h4, h5, h6, h7, h8, -⟩ := h kw hkw w hc hh out w' hx
  exact ⟨kw0, o0, w0, t1, lw1, h4, h5, h6, h7, h8⟩

include hsame hd h1 h2 h3 hr hp hT hs hsS hf hft in
/-- C64, the same for the appearance step at the end of sweep `s`. -/
theorem C64_appearance :
    ∃ p0 p, BuiltBefore N fresh i0 i1 i2 i3 fl gl r T S s T p0 ∧
      gibbsPropose fresh (apgObjs N i0 i1 i2 i3 fl gl r) T (apgObjs N i0 i1 i2 i3 fl gl r).digit T s
        (mkResample fresh r p0 none .none false) = .ok p ∧
      ∀ kw, KwOk kw → ∀ w, (∀ j, w.cond j = none) → w.store.hooks = apgHooks same → ∀ out w',
        (eval p (.dict kvs) kw).Runs w (.ok out) w' → ∃ kw0 o0 w0 t1 lw1, KwOk kw0 ∧ (eval p0 (.dict kvs) kw0).Runs w (.ok o0) w0 ∧
          Before N same T T s frames o0 w0 ∧ (r kw.sampleDims kw.batchDim o0.trace o0.logWeight).Ret (.ok (t1, lw1)) ∧
          AppearanceStep N T s frames t1 lw1 out := by
  obtain ⟨p0, p, hb, e, h⟩ := appearance_run N same hsame hd fresh i0 i1 i2 i3 h1 h2 h3 fl gl r hr hp T S s hT hs hsS kvs frames hf hft
  refine ⟨p0, p, hb, e, fun kw hkw w hc hh out w' hx => ?_⟩
  obtain ⟨kw0, o0, w0, t1, lw1, h4, h5, h6, h7, h8, -⟩ := h kw hkw w hc hh out w' hx
  exact ⟨kw0, o0, w0, t1, lw1, h4, h5, h6, h7, h8⟩

/-- A run of the first position step of the sampler for three frames, and where it comes from. -/
example : ∃ p0 p out w', BuiltBefore Toy.net 4 0 1 2 3 (fun a _ _ => a.val.1) (fun a _ _ => a.val.1) Toy.keepAll 3 2 1 0 p0 ∧
    Toy.firstStep = .ok p ∧ (eval p (.dict [("frames", .tensor ((3, 0) : Int × Int))]) {}).Runs Toy.wApg (.ok out) w' ∧
    ∃ (o0 : Out Toy.L) (w0 : World Toy.L), Before Toy.net Toy.same 3 0 1 (3, 0) o0 w0 ∧
      PositionStep Toy.net 3 0 1 (3, 0) o0.trace o0.logWeight out := by
  have hs : (Toy.lastDensity [(1, 1), (2, 1), (3, 1), (4, 1), (5, 1)]).isSome = true := by decide +kernel
  obtain ⟨p0, p, hb, e, h⟩ := C64_position Toy.net Toy.same (by simp [Toy.same]) (by intro v; rfl) 4 0 1 2 3 (by decide) (by decide) (by decide)
    (fun a _ _ => a.val.1) (fun a _ _ => a.val.1) Toy.keepAll
    (by intro sd bd t lw t2 lw2 h k; simp only [Toy.keepAll, Comp.ret_Ret, Except.ok.injEq, Prod.mk.injEq] at h; rw [h.1])
    (by
      intro sd bd t lw t2 lw2 h k rv rv2 h1 h2
      simp only [Toy.keepAll, Comp.ret_Ret, Except.ok.injEq, Prod.mk.injEq] at h
      rw [← h.1, h1] at h2
      cases h2; rfl)
    3 2 1 0 (by decide) (by decide) (by decide) [("frames", .tensor ((3, 0) : Int × Int))] (3, 0) rfl rfl (by decide)
  have e' : Toy.firstStep = .ok p := by
    obtain ⟨q0, q, e0, e1, e2⟩ := hb
    unfold Toy.firstStep
    rw [e0]
    have e3 : Except.ok (mkResample 4 Toy.keepAll q0 none .none false) = Except.ok (ε := Err) q := e1
    have e4 : Except.ok q = Except.ok (ε := Err) (mkResample 4 Toy.keepAll p0 none .none false) := e2
    rw [Except.ok.injEq] at e3 e4
    subst e3
    rw [← e4] at e
    exact e
  unfold Toy.lastDensity at hs
  rw [e'] at hs
  simp only at hs
  split at hs
  · rename_i out w' hf
    refine ⟨p0, p, out, w', hb, e', Toy.feed_Ret hf, ?_⟩
    obtain ⟨kw0, o0, w0, t1, lw1, -, -, h3, h4, h5⟩ := h {} (by simp [KwOk]) Toy.wApg (fun _ => rfl) rfl out w' (Toy.feed_Ret hf)
    simp only [Toy.keepAll, Comp.ret_Ret, Except.ok.injEq, Prod.mk.injEq] at h4
    obtain ⟨rfl, rfl⟩ := h4
    exact ⟨o0, w0, h3, h5⟩
  · cases hs

end increments

section stale
variable {n b : Nat} {X D : Type} {lp : D → (Fin n → Fin b → X) → Fin n → Fin b → ℝ}

/-- C64. What the increments subtract after resampling, with the resampler that Resample makes for itself: slot `s` of the resampled
trace holds the log_probs of its ancestor for the positions and the appearance, but those of slot `s` for the frames. So the log_probs
of a slot add up to the joint of its ancestor only up to the difference of the two likelihoods. -/
theorem C64_stale [NeZero n] (oneD normalize : Bool) (sd bd : PyVal (TLang n b X D lp)) {N : ApgNet (TLang n b X D lp)}
    {same : (TLang n b X D lp).V → (TLang n b X D lp).V → Bool} {T m : Nat} {s zw : Int} {frames : (TLang n b X D lp).V}
    {o : Out (TLang n b X D lp)} {w : World (TLang n b X D lp)} (ho : Stage N same T m s zw frames o w)
    {t1 : Trace (TLang n b X D lp)} {lw1 : LW (TLang n b X D lp).W}
    (h : (systematic oneD normalize sd bd o.trace o.logWeight).Ret (.ok (t1, lw1))) :
    ∃ (a : Fin n → Fin b → Fin n) (val : Nat → (TLang n b X D lp).V) (what : (TLang n b X D lp).V),
      Latents N T m s zw frames val what o.trace ∧
      (∃ u : Fin b → Set.Ico (0 : ℝ) 1, ∀ i j, (a i j).val = ancestors (softmax fun i => o.logWeight.val i j) (u j).1 i) ∧
      ∀ i j, total t1 i j = joint N T m frames val what (a i j) j +
        (lp (N.recon ((List.range T).map val) what) frames i j - lp (N.recon ((List.range T).map val) what) frames (a i j) j) := by
  obtain ⟨val, what, hl⟩ := ho.latent
  obtain ⟨_, lv, u, a, e1, -, e2, e3, -⟩ := systematic_ok oneD normalize sd bd o.trace t1 o.logWeight lw1 h
  refine ⟨a, val, what, hl, ⟨u, fun i j => by rw [e2, e1]; rfl⟩, fun i j => ?_⟩
  have hm := stage_marked ho
  have hres : ∀ e ∈ o.trace.entries, e.2.resamplable = true := by
    rintro ⟨k, rv⟩ he
    have hk := Dict.get?_eq_some.2 he
    rcases (ho.addr k).1 (contains_get?.2 ⟨rv, hk⟩) with rfl | rfl | ⟨i, hi, rfl⟩
    · rw [hl.recon] at hk; cases hk; rfl
    · rw [hl.appearance] at hk; cases hk; rfl
    · rw [hl.wheres i hi] at hk; cases hk; rfl
  have hobs : ∀ e ∈ o.trace.entries, e.2.prov = .observed ↔ e.1 = "recon" := fun e he => hm e.1 e.2 (Dict.get?_eq_some.2 he)
  have hrec := Dict.get?_eq_some.1 hl.recon
  have key : ∀ l l' : List (String × RV (TLang n b X D lp)), List.Forall₂ (fun e e' => e'.1 = e.1 ∧ Spec.Moved a e.2 e'.2) l l' →
      (∀ e ∈ l, e.2.resamplable = true) → (∀ e ∈ l, e.2.prov = .observed ↔ e.1 = "recon") →
      (l'.map fun e => e.2.logProb i j).sum = (l.map fun e => e.2.logProb (a i j) j).sum +
        (l.map fun e => if e.1 = "recon" then e.2.logProb i j - e.2.logProb (a i j) j else 0).sum := by
    intro l l' hll
    induction hll with
    | nil => intro _ _; simp
    | @cons e e' l l' h _ ih =>
      intro h1 h2
      have ih := ih (fun e he => h1 e (List.mem_cons_of_mem _ he)) (fun e he => h2 e (List.mem_cons_of_mem _ he))
      simp only [List.map_cons, List.sum_cons, ih]
      by_cases hr : e.1 = "recon"
      · rw [if_pos hr, h.2.2 fun hp => hp.2 ((h2 e (List.mem_cons_self ..)).2 hr)]
        ring
      · rw [if_neg hr, (h.2.1 ⟨h1 e (List.mem_cons_self ..), fun hp => hr ((h2 e (List.mem_cons_self ..)).1 hp)⟩).2.2.2.2.2.2.2 i j]
        ring
  have one : ∀ l : List (String × RV (TLang n b X D lp)), (l.map (·.1)).Nodup → ∀ (g : RV (TLang n b X D lp) → ℝ) rv, ("recon", rv) ∈ l →
      (l.map fun e => if e.1 = "recon" then g e.2 else 0).sum = g rv := by
    intro l
    induction l with
    | nil => intro _ g rv h; cases h
    | cons e l ih =>
      intro hn g rv hr
      simp only [List.map_cons, List.nodup_cons] at hn
      simp only [List.map_cons, List.sum_cons]
      rcases List.mem_cons.1 hr with rfl | hr
      · rw [if_pos rfl]
        have : (l.map fun e => if e.1 = "recon" then g e.2 else 0) = l.map fun _ => (0 : ℝ) := by
          exact List.map_congr_left fun e he => if_neg fun h => hn.1 (List.mem_map.2 ⟨e, he, h⟩)
        rw [this]
        simp
      · rw [if_neg, ih hn.2 g rv hr, zero_add]
        intro h
        exact hn.1 (by rw [h]; exact List.mem_map_of_mem (f := (·.1)) hr)
  have tot : ∀ (t : Trace (TLang n b X D lp)) i j, total t i j = (t.entries.map fun e => e.2.logProb i j).sum := by
    intro t i j
    unfold total sumLogProb
    simp only [List.filter_true]
    generalize t.entries = l
    induction l with
    | nil => rfl
    | cons e l ih => simp only [List.map_cons, List.sum_cons, ← ih]; rfl
  rw [tot, key _ _ e3 hres hobs, ← tot, one _ o.trace.nodup (fun rv => rv.logProb i j - rv.logProb (a i j) j) _ hrec, hl.total]
  rfl

/-- Two particles: the result of importance sampling, and a resampling of it. -/
example : ∃ (N : ApgNet (TLang 2 1 Bool Bool fun d v i j => if v i j = d then 1 else 0))
    (o : Out (TLang 2 1 Bool Bool fun d v i j => if v i j = d then 1 else 0)) (w : _) (t1 : _) (lw1 : _),
    Stage N (fun _ _ => true) 2 2 0 0 (fun _ _ => true) o w ∧
      (systematic false true (.int 0) (.int 1) o.trace o.logWeight).Ret (.ok (t1, lw1)) := by
  let N : ApgNet (TLang 2 1 Bool Bool fun d v i j => if v i j = d then 1 else 0) :=
    { objects := 1, timesteps := fun _ => 2, coorStep := fun _ _ _ _ => true, stack := fun zs => zs.headD fun _ _ => true,
      slice := fun v _ => v, coorDist := fun _ _ _ _ => true, digitDist := fun _ _ => false, where0 := true, whereT := fun v => v 0 0,
      what := false, recon := fun _ z => z 0 0, reparam := true }
  obtain ⟨q, -, h⟩ := C64_program N (fun _ _ => true) (fun _ => rfl) (fun _ => rfl) 4 0 1 2 3 (by decide) (by decide) (by decide)
    (fun _ _ _ => (0 : ℝ)) (fun _ _ _ => (0 : ℝ)) (fun _ _ t lw => .ret (.ok (t, lw))) .none .none id (fun _ _ _ => .ret) 2 0 (by decide)
    [("frames", .tensor fun _ _ => true)] (fun _ _ => true) rfl rfl
  have hw := h {} (by simp [KwOk]) rfl rfl { cond := fun _ => none, store := { data := Dict.empty, hooks := apgHooks fun _ _ => true } }
    (fun _ => rfl) rfl
  have hret : ∀ {α : Type} (m : Comp (TLang 2 1 Bool Bool fun d v i j => if v i j = d then 1 else 0) α), ∃ a, m.Ret a := by
    intro α m
    induction m with
    | ret a => exact ⟨a, rfl⟩
    | draw d rep k ih => obtain ⟨a, ha⟩ := ih fun _ _ => true; exact ⟨a, _, ha⟩
    | rand k ih => obtain ⟨a, ha⟩ := ih fun _ => ⟨0, by simp⟩; exact ⟨a, _, ha⟩
  obtain ⟨⟨x, w'⟩, hx⟩ := hret (eval q _ _ _)
  obtain ⟨p, o, -, -, hl, hlw, hS⟩ := hw.runs hx
  obtain ⟨t1, lw1, -, h2⟩ := systematic_total false true (.int 0) (.int 1) o.trace p.lw rfl (by
    intro k rv hk _ h'
    rcases (hS.addr k).1 (contains_get?.2 ⟨rv, hk⟩) with rfl | rfl | ⟨i, hi, rfl⟩
    · rw [hl.recon] at hk; cases hk; cases h'
    · rw [hl.appearance] at hk; cases hk; cases h'
    · rw [hl.wheres i hi] at hk; cases hk; cases h') fun _ => ⟨0, by simp⟩
  exact ⟨N, o, w', t1, lw1, hS, by rw [hlw]; exact h2⟩

end stale

section systematic
variable {b : Nat} {X D : Type} {lp : D → (Fin 1 → Fin b → X) → Fin 1 → Fin b → ℝ}

/-- C64. The resampler that Resample makes for itself, with one particle: the trace stays as it is. The log weight stays too without
normalize_weights; with it, as in gibbs_sweeps, the log weight becomes 0. -/
theorem C64_systematic (oneD normalize : Bool) (sd bd : PyVal (TLang 1 b X D lp)) (hdims : checkDims oneD 1 b sd bd = .ok ()) :
    Keeps (systematic (n := 1) (lp := lp) oneD normalize) sd bd (if normalize then fun _ => 0 else id) := by
  intro t lw ht
  unfold systematic
  simp only [hdims]
  refine .rand fun u => ?_
  obtain ⟨⟨t', lw'⟩, e⟩ := systematicAt_total normalize t lw u (by
    intro k rv h _ h'
    obtain ⟨-, d, hd⟩ := ht k rv h
    rw [hd] at h'; cases h')
  obtain ⟨a, -, h4, h5⟩ := systematicAt_ok normalize t t' lw u lw' e
  have ha : ∀ s j, a s j = s := fun s j => Subsingleton.elim _ _
  have h6 : t' = t := by
    have : t.entries = t'.entries := by
      have hm : ∀ e ∈ t.entries, ∀ e', e'.1 = e.1 ∧ Spec.Moved a e.2 e'.2 → e = e' := by
        rintro ⟨k, rv⟩ he ⟨k', rv'⟩ ⟨hk, hm⟩
        simp only at hk hm
        obtain ⟨h7, d, h8⟩ := ht k rv (Dict.get?_eq_some.2 he)
        subst hk
        congr 1
        by_cases hp : Permuted rv
        · obtain ⟨m1, m2, m3, -, -, m5, m6, m7⟩ := hm.1 hp
          have m8 := m5 d h8
          have m9 : rv'.value = rv.value := by funext s j; rw [m6, ha]
          have m10 : rv'.logProb = rv.logProb := by funext s j; rw [m7, ha]
          obtain ⟨k1, k2, k3, k4, k5, k6⟩ := rv
          obtain ⟨l1, l2, l3, l4, l5, l6⟩ := rv'
          simp only at m1 m2 m3 m8 m9 m10 h7
          subst m1 m2 m3 m8 m9 m10 h7
          rfl
        · exact (hm.2 hp).symm
      clear e ht
      generalize t.entries = l at h4 hm
      generalize t'.entries = l' at h4
      induction h4 with
      | nil => rfl
      | cons h _ ih =>
        rw [hm _ (List.mem_cons_self ..) _ h, ih fun e he => hm e (List.mem_cons_of_mem _ he)]
    obtain ⟨x, hx⟩ := t
    obtain ⟨x', hx'⟩ := t'
    simp only at this
    subst this
    rfl
  subst h6
  have h7 : lw' = .tensor ((if normalize then fun _ => 0 else id) lw) := by
    rw [h5]
    congr 1
    funext s j
    have hs : s = 0 := Subsingleton.elim _ _
    subst hs
    cases normalize with
    | true => simp [resampledLw, softmax]; rfl
    | false => simp [resampledLw, logsumexp]
  subst h7
  have e' : systematicAt normalize t' lw u = .ok (t', .tensor ((if normalize then fun _ => 0 else id) lw)) := e
  rw [e']
  exact .ret

example : Keeps (systematic (n := 1) (b := 2) (X := Bool) (D := Unit) (lp := fun _ _ _ _ => 0) false true) (.int 0) (.int 1) fun _ => 0 :=
  C64_systematic false true _ _ rfl

end systematic

section proper
open MeasureTheory
open scoped ENNReal
variable {V D Lo : Type} [MeasurableSpace V] [AddCommMonoid Lo] {lp : D → V → ℝ} {β : D → Measure V} {μ ν : Measure V} [SigmaFinite μ] [SFinite ν]

/-- What is read off a result: a function of the positions and the appearance, times the weight. -/
noncomputable def weighed (T S : Nat) (frames : V) (G : List V → V → ℝ≥0∞)
    (x : Except Err (Out (PLang V D Lo lp)) × World (PLang V D Lo lp)) : ℝ≥0∞ :=
  match x.1 with
  | .ok out => dens out.logWeight.val * G ((List.range T).map fun i : Nat => (valueAt out.trace (zWhereName i S)).getD frames)
      ((valueAt out.trace (zWhatName S)).getD frames)
  | .error _ => 0

omit [MeasurableSpace V] in
theorem weighed_eq {N : ApgNet (PLang V D Lo lp)} {T S : Nat} {frames : V} {G : List V → V → ℝ≥0∞} {p : Particle (PLang V D Lo lp)}
    {out : Out (PLang V D Lo lp)} {w : World (PLang V D Lo lp)} (h : Latents N T T S S frames p.pos p.what out.trace)
    (hw : out.logWeight = .tensor p.lw) : weighed T S frames G (.ok out, w) = dens p.lw * G ((List.range T).map p.pos) p.what := by
  have h1 : ((List.range T).map fun i : Nat => (valueAt out.trace (zWhereName i S)).getD frames) = (List.range T).map p.pos := by
    refine List.map_congr_left fun i hi => ?_
    have := h.wheres i (List.mem_range.1 hi)
    rw [whereAt_lt (List.mem_range.1 hi)] at this
    unfold valueAt
    rw [this]
    rfl
  have h2 : (valueAt out.trace (zWhatName S)).getD frames = p.what := by
    unfold valueAt
    rw [h.appearance]
    rfl
  simp only [weighed, h1, h2, hw]
  rfl

variable (N : ApgNet (PLang V D Lo lp)) (same : V → V → Bool) (hsame : ∀ v, same v v = true)
  (fresh i0 i1 i2 i3 : ObjId) (h1 : i1 ≤ fresh) (h2 : i2 ≤ fresh) (h3 : i3 ≤ fresh) (fl : LW ℝ → LW ℝ → LW ℝ → Lo)
  (gl : LW ℝ → LW ℝ → ℝ → Lo) (r : ResamplerFn (PLang V D Lo lp)) (sd bd : PyVal (PLang V D Lo lp))
  (T S : Nat) (hT : 1 ≤ T) (kvs : List (String × PyVal (PLang V D Lo lp))) (frames : V)
  (hf : getL kvs "frames" = some (.tensor frames)) (hft : N.timesteps frames = T)

include hsame h1 h2 h3 hT hf hft in
/-- C65. The sampler is properly weighted if resampling keeps the weight: with one particle and without normalize_weights, for every
number of sweeps, the expectation of weight times any function of the positions and the appearance is its integral against the density
of the generative model for positions, appearance and the given frames (although the steps in between use other priors, C54). -/
theorem C65_proper (hr : Keeps r sd bd id) (hN : Tractable β μ ν N T frames) (G : List V → V → ℝ≥0∞)
    (hG : Measurable fun x : (Nat → V) × V => G ((List.range T).map x.1) x.2) :
    ∃ q, gibbsSweeps fresh (apgObjs N i0 i1 i2 i3 fl gl r) S T = .ok q ∧
      ∀ kw, KwOk kw → kw.sampleDims = sd → kw.batchDim = bd → ∀ w, (∀ j, w.cond j = none) → w.store.hooks = apgHooks same →
        expectB β (eval q (.dict kvs) kw w) (weighed T S frames G) =
          overPositions μ frames T fun p => ∫⁻ z, dens (modelJoint N T frames p z) * G ((List.range T).map p) z ∂ν := by
  obtain ⟨q, e, h⟩ := C64_program N same hsame (fun _ => rfl) fresh i0 i1 i2 i3 h1 h2 h3 fl gl r sd bd id hr T S hT kvs frames hf hft
  refine ⟨q, e, fun kw hkw h4 h5 w hc hh => ?_⟩
  rw [expect_like (h kw hkw h4 h5 w hc hh) (g := weighed T S frames G) fun p out w' h => weighed_eq h.1 h.2.1]
  rw [proper_sweeps hN hT S (fun p z => G ((List.range T).map p) z) hG]
  unfold stageInt
  simp only [joint_model]

include hsame h1 h2 h3 hT hf hft in
/-- C65. In particular the expected weight is the evidence: the density of the frames. -/
theorem C65_evidence (hr : Keeps r sd bd id) (hN : Tractable β μ ν N T frames) :
    ∃ q, gibbsSweeps fresh (apgObjs N i0 i1 i2 i3 fl gl r) S T = .ok q ∧
      ∀ kw, KwOk kw → kw.sampleDims = sd → kw.batchDim = bd → ∀ w, (∀ j, w.cond j = none) → w.store.hooks = apgHooks same →
        expectB β (eval q (.dict kvs) kw w) (weighed T S frames fun _ _ => 1) =
          overPositions μ frames T fun p => ∫⁻ z, dens (modelJoint N T frames p z) ∂ν := by
  obtain ⟨q, e, h⟩ := C65_proper (β := β) (μ := μ) (ν := ν) N same hsame fresh i0 i1 i2 i3 h1 h2 h3 fl gl r sd bd T S hT kvs frames hf hft hr hN
    (fun _ _ => 1) measurable_const
  refine ⟨q, e, fun kw hkw h4 h5 w hc hh => ?_⟩
  rw [h kw hkw h4 h5 w hc hh]
  simp only [mul_one]

include hsame h1 h2 h3 hT hf hft in
/-- C65. Importance sampling alone (no sweeps) is properly weighted as it is: nothing is resampled. -/
theorem C65_no_sweeps (hN : Tractable β μ ν N T frames) (G : List V → V → ℝ≥0∞)
    (hG : Measurable fun x : (Nat → V) × V => G ((List.range T).map x.1) x.2) :
    ∃ q, gibbsSweeps fresh (apgObjs N i0 i1 i2 i3 fl gl r) 0 T = .ok q ∧
      ∀ kw, KwOk kw → ∀ w, (∀ j, w.cond j = none) → w.store.hooks = apgHooks same →
        expectB β (eval q (.dict kvs) kw w) (weighed T 0 frames G) =
          overPositions μ frames T fun p => ∫⁻ z, dens (modelJoint N T frames p z) * G ((List.range T).map p) z ∂ν := by
  obtain ⟨q, e, -⟩ := C65_proper (β := β) (μ := μ) (ν := ν) N same hsame fresh i0 i1 i2 i3 h1 h2 h3 fl gl (fun _ _ t lw => .ret (.ok (t, lw))) .none .none T 0 hT
    kvs frames hf hft (fun _ _ _ => .ret) hN G hG
  refine ⟨q, ?_, fun kw hkw w hc hh => ?_⟩
  · rw [← e]
    unfold gibbsSweeps
    simp only [Nat.lt_irrefl, if_false]
    have hi : ∀ m (r' : ResamplerFn (PLang V D Lo lp)), gibbsInit fresh (apgObjs N i0 i1 i2 i3 fl gl r) m =
        gibbsInit fresh (apgObjs N i0 i1 i2 i3 fl gl r') m := by
      intro m r'
      induction m with
      | zero => rfl
      | succ m ih => unfold gibbsInit; rw [ih]; rfl
    unfold gibbsIs
    rw [hi]
    rfl
  obtain ⟨q', e', h⟩ := C65_proper (β := β) (μ := μ) (ν := ν) N same hsame fresh i0 i1 i2 i3 h1 h2 h3 fl gl (fun _ _ t lw => .ret (.ok (t, lw))) kw.sampleDims
    kw.batchDim T 0 hT kvs frames hf hft (fun _ _ _ => .ret) hN G hG
  rw [e] at e'
  cases e'
  exact h kw hkw rfl rfl w hc hh

include hsame h1 h2 h3 hT hf hft in
/-- C65, as the code is (with normalize_weights): the expectation of weight times a function is that of the following, over the
particles before the last step: the integral of the function against the model's density with the particle's positions fixed,
divided by the model's density of the particle and multiplied by the kernel's density of its appearance. -/
theorem C65_normalized (hr : Keeps r sd bd fun _ => 0) (hN : Tractable β μ ν N T frames) (G : List V → V → ℝ≥0∞) (hS : 1 ≤ S) :
    ∃ q, gibbsSweeps fresh (apgObjs N i0 i1 i2 i3 fl gl r) S T = .ok q ∧
      ∀ kw, KwOk kw → kw.sampleDims = sd → kw.batchDim = bd → ∀ w, (∀ j, w.cond j = none) → w.store.hooks = apgHooks same →
        expectB β (eval q (.dict kvs) kw w) (weighed T S frames G) =
          expectB β ((sweepsLaw (fun _ => 0) N frames T (S - 1)).bind fun p => stepsLaw (fun _ => 0) N frames T (reweigh (fun _ => 0) p) T)
            fun p => (∫⁻ z, dens (modelJoint N T frames p.pos z) * G ((List.range T).map p.pos) z ∂ν) *
              dens (lp (N.digitDist frames ((List.range T).map p.pos)) p.what - modelJoint N T frames p.pos p.what) := by
  obtain ⟨q, e, h⟩ := C64_program N same hsame (fun _ => rfl) fresh i0 i1 i2 i3 h1 h2 h3 fl gl r sd bd _ hr T S hT kvs frames hf hft
  refine ⟨q, e, fun kw hkw h4 h5 w hc hh => ?_⟩
  rw [expect_like (h kw hkw h4 h5 w hc hh) (g := weighed T S frames G) fun p out w' h => weighed_eq h.1 h.2.1]
  obtain ⟨S, rfl⟩ : ∃ S', S = S' + 1 := ⟨S - 1, by omega⟩
  rw [Nat.add_sub_cancel]
  have : sweepsLaw (fun _ => 0) N frames T (S + 1) = ((sweepsLaw (fun _ => 0) N frames T S).bind fun p =>
      stepsLaw (fun _ => 0) N frames T (reweigh (fun _ => 0) p) T).bind (digitLaw N frames T) := by
    rw [Comp.bind_assoc]; rfl
  rw [this, expect_bind']
  refine expect_congr_ret _ fun p hp => ?_
  have h0 : p.lw = 0 := by
    obtain ⟨T, rfl⟩ : ∃ T', T = T' + 1 := ⟨T - 1, by omega⟩
    simp only [stepsLaw, Comp.bind_Ret, Comp.ret_Ret] at hp
    obtain ⟨-, -, p2, -, rfl⟩ := hp
    rfl
  simp only [digitLaw, expectB, h0, joint_model]
  have hb : β (N.digitDist ((PLang V D Lo lp).detachV frames) ((List.range T).map p.pos)) = ν := hN.digit_base _
  rw [hb]
  rw [← lintegral_mul_const' _ _ (dens_ne_top _)]
  refine lintegral_congr fun z => ?_
  rw [mul_right_comm, ← mul_assoc, ← dens_add, ← dens_add]
  congr 2
  ring

end proper

namespace Coins
open MeasureTheory
open scoped ENNReal

/-- Distributions on two values by their log densities. -/
@[reducible] noncomputable def L : Lang := PLang Bool (Bool → ℝ) ℝ fun d v => d v

noncomputable def fair : Bool → ℝ := fun _ => Real.log (1 / 2)
noncomputable def near (v : Bool) : Bool → ℝ := fun v' => if v' = v then Real.log (3 / 4) else Real.log (1 / 4)

/-- One object; positions tend to stay, frames tend to be as the appearance; the kernels know nothing. -/
noncomputable def net (T : Nat) : ApgNet L where
  objects := 1
  timesteps _ := T
  coorStep _ _ _ _ := fair
  stack zs := zs.headD false
  slice v _ := v
  coorDist _ _ _ _ := fair
  digitDist _ _ := fair
  where0 := fair
  whereT := near
  what := fair
  recon _ what := near what
  reparam := false

theorem dens_fair (v : Bool) : dens (fair v) = ENNReal.ofReal (1 / 2) := by
  unfold dens fair
  rw [Real.exp_log (by norm_num)]

theorem fair_one : ∫⁻ v, dens (fair v) ∂(Measure.count : Measure Bool) = 1 := by
  simp only [dens_fair, lintegral_count, tsum_bool]
  rw [← ENNReal.ofReal_add (by norm_num) (by norm_num)]
  norm_num

theorem tractable (T : Nat) : Tractable (fun _ => (Measure.count : Measure Bool)) Measure.count Measure.count (net T) T true where
  where0 := .of_discrete
  whereT := .of_discrete
  appearance := .of_discrete
  recon := (Measurable.of_discrete (f := fun z : Bool => near z true)).comp measurable_snd
  digit := (Measurable.of_discrete (f := fair)).comp measurable_snd
  digit_base _ := rfl
  digit_one _ := fair_one
  coor _ := .of_discrete
  coor0 _ := .of_discrete
  step_one _ _ _ := fair_one
  restack _ _ _ _ := rfl
  stacked _ _ _ _ := rfl

noncomputable def keep : ResamplerFn L := fun _ _ t lw => .ret (.ok (t, lw))

/-- Resampling with normalize_weights. -/
noncomputable def reset : ResamplerFn L := fun _ _ t lw => .ret (.ok (t, .tensor 0))

noncomputable def w : World L := { cond := fun _ => none, store := { data := Dict.empty, hooks := apgHooks fun a b => a == b } }

/-- The sampler as written out, and the last step's log weight. -/
example : (∃ q, gibbsSweeps 4 (apgObjs (net 2) 0 1 2 3 (fun a _ _ => a.val) (fun a _ _ => a.val) reset) 3 2 = .ok q ∧
    Like (fun p out w' => Latents (net 2) 2 2 3 3 true p.pos p.what out.trace ∧ out.logWeight = .tensor p.lw ∧
      Stage (net 2) (fun a b => a == b) 2 2 3 3 true out w') (eval q (.dict [("frames", .tensor true)]) {} w)
      (sweepsLaw (fun _ => 0) (net 2) true 2 3)) := by
  obtain ⟨q, e, h⟩ := C64_program (net 2) (fun a b => a == b) (by simp) (fun _ => rfl) 4 0 1 2 3 (by decide) (by decide) (by decide)
    (fun a _ _ => a.val) (fun a _ _ => a.val) reset .none .none (fun _ => 0) (fun _ _ _ => .ret) 2 3 (by decide) [("frames", .tensor true)]
    true rfl rfl
  exact ⟨q, e, h {} (by simp [KwOk]) rfl rfl w (fun _ => rfl) rfl⟩

example : ∃ q, gibbsSweeps 4 (apgObjs (net 2) 0 1 2 3 (fun a _ _ => a.val) (fun a _ _ => a.val) reset) 3 2 = .ok q ∧
    ∀ x w', (eval q (.dict [("frames", .tensor true)]) {}).Runs w x w' → ∃ out pos z old, x = .ok out ∧
      Latents (net 2) 2 2 3 3 true pos z out.trace ∧
      out.logWeight = .tensor ((joint (net 2) 2 2 true pos z + fair old) - (joint (net 2) 2 2 true pos old + fair z)) := by
  obtain ⟨q, e, h⟩ := C64_last (net 2) (fun a b => a == b) (by simp) (fun _ => rfl) 4 0 1 2 3 (by decide) (by decide) (by decide)
    (fun a _ _ => a.val) (fun a _ _ => a.val) reset .none .none 2 3 (by decide) [("frames", .tensor true)] true rfl rfl
    (fun _ _ _ => .ret) (by decide)
  exact ⟨q, e, fun x w' hx => h {} (by simp [KwOk]) rfl rfl w (fun _ => rfl) rfl x w' hx⟩

/-- Two time steps, three sweeps, weights kept: the expected weight is the evidence. -/
example : ∃ q, gibbsSweeps 4 (apgObjs (net 2) 0 1 2 3 (fun a _ _ => a.val) (fun a _ _ => a.val) keep) 3 2 = .ok q ∧
    expectB (fun _ => Measure.count) (eval q (.dict [("frames", .tensor true)]) {} w) (weighed 2 3 true fun _ _ => 1) =
      overPositions Measure.count true 2 fun p => ∫⁻ z, dens (modelJoint (net 2) 2 true p z) ∂Measure.count := by
  obtain ⟨q, e, h⟩ := C65_evidence (β := fun _ => Measure.count) (μ := Measure.count) (ν := Measure.count) (net 2) (fun a b => a == b) (by simp) 4 0 1 2 3 (by decide) (by decide) (by decide)
    (fun a _ _ => a.val) (fun a _ _ => a.val) keep .none .none 2 3 (by decide) [("frames", .tensor true)] true rfl rfl
    (fun _ _ _ => .ret) (tractable 2)
  exact ⟨q, e, h {} (by simp [KwOk]) rfl rfl w (fun _ => rfl) rfl⟩

/-- The likelihood of the frame. -/
noncomputable def lik (z : Bool) : ℝ := if z then 3 / 4 else 1 / 4

theorem lik_pos (z : Bool) : 0 < lik z := by unfold lik; split <;> norm_num

theorem dens_near (z : Bool) : dens (near z true) = ENNReal.ofReal (lik z) := by
  unfold dens near lik
  cases z
  · rw [if_neg (by simp), if_neg (by simp), Real.exp_log (by norm_num)]
  · rw [if_pos rfl, if_pos rfl, Real.exp_log (by norm_num)]

theorem near_eq (z : Bool) : near z true = Real.log (lik z) := by
  unfold near lik; cases z <;> simp

theorem joint_eq (p : Nat → Bool) (z : Bool) : modelJoint (net 1) 1 true p z = Real.log (1 / 4 * lik z) := by
  unfold modelJoint
  simp only [Finset.range_one, Finset.sum_singleton, if_true]
  show Real.log (1 / 2) + Real.log (1 / 2) + near z true = _
  rw [near_eq, ← Real.log_mul (by norm_num) (by norm_num), ← Real.log_mul (by norm_num) (lik_pos z).ne']
  norm_num

theorem dens_log {x : ℝ} (h : 0 < x) : dens (Real.log x) = ENNReal.ofReal x := by unfold dens; rw [Real.exp_log h]

theorem lik_sum (p : Nat → Bool) : ∫⁻ z, dens (modelJoint (net 1) 1 true p z) ∂Measure.count = ENNReal.ofReal (1 / 4) := by
  simp only [joint_eq, lintegral_count, tsum_bool]
  rw [dens_log (by have := lik_pos false; positivity), dens_log (by have := lik_pos true; positivity),
    ← ENNReal.ofReal_add (by have := lik_pos false; positivity) (by have := lik_pos true; positivity)]
  norm_num [lik]

/-- C65. The weights of the sampler as it is do not estimate the evidence: with one time step, one sweep, one particle and normalized
weights the expected weight is 4/3 in an example whose evidence is 1/2. -/
theorem _root_.Verif.C65_biased : (∃ q, gibbsSweeps 4 (apgObjs (net 1) 0 1 2 3 (fun a _ _ => a.val) (fun a _ _ => a.val) reset) 1 1 = .ok q ∧
    expectB (fun _ => Measure.count) (eval q (.dict [("frames", .tensor true)]) {} w) (weighed 1 1 true fun _ _ => 1) = ENNReal.ofReal (4 / 3)) ∧
    (overPositions Measure.count true 1 fun p => ∫⁻ z, dens (modelJoint (net 1) 1 true p z) ∂Measure.count) = ENNReal.ofReal (1 / 2) := by
  constructor
  · obtain ⟨q, e, h⟩ := C65_normalized (β := fun _ => Measure.count) (μ := Measure.count) (ν := Measure.count) (net 1) (fun a b => a == b) (by simp) 4 0 1 2 3 (by decide) (by decide) (by decide)
      (fun a _ _ => a.val) (fun a _ _ => a.val) reset .none .none 1 1 (by decide) [("frames", .tensor true)] true rfl rfl
      (fun _ _ _ => .ret) (tractable 1) (fun _ _ => 1) (by decide)
    refine ⟨q, e, ?_⟩
    rw [h {} (by simp [KwOk]) rfl rfl w (fun _ => rfl) rfl]
    have hd : ∀ z, fair z - Real.log (1 / 4 * lik z) = Real.log (2 / lik z) := by
      intro z
      have := lik_pos z
      rw [fair, ← Real.log_div (by norm_num) (by positivity)]
      congr 1
      field_simp
      norm_num
    have hz : ∀ p z, (∫⁻ z', dens (modelJoint (net 1) 1 true p z') * 1 ∂Measure.count) *
        dens (fair z - modelJoint (net 1) 1 true p z) = ENNReal.ofReal (1 / 2 / lik z) := by
      intro p z
      have := lik_pos z
      simp only [mul_one]
      rw [lik_sum, joint_eq, hd, dens_log (by positivity), ← ENNReal.ofReal_mul (by norm_num)]
      congr 1
      field_simp
      norm_num
    have hG : ∀ p : Particle L, (∫⁻ z, dens (modelJoint (net 1) 1 true p.pos z) * 1 ∂Measure.count) *
        dens ((net 1).digitDist true ((List.range 1).map p.pos) p.what - modelJoint (net 1) 1 true p.pos p.what) =
        ENNReal.ofReal (1 / 2 / lik p.what) := fun p => hz p.pos p.what
    simp only [hG]
    have hc : ∀ x : ℝ≥0∞, x ≠ ⊤ → ∫⁻ v, dens (fair v) * x ∂(Measure.count : Measure Bool) = x := by
      intro x hx
      rw [lintegral_mul_const' _ _ hx, fair_one, one_mul]
    show ∫⁻ v, dens (fair v) * ∫⁻ z, dens (fair z) * ∫⁻ v', dens (fair v') * ENNReal.ofReal (1 / 2 / lik z) ∂Measure.count ∂Measure.count
      ∂Measure.count = _
    simp only [hc _ ENNReal.ofReal_ne_top]
    have hs : ∫⁻ z, dens (fair z) * ENNReal.ofReal (1 / 2 / lik z) ∂(Measure.count : Measure Bool) = ENNReal.ofReal (4 / 3) := by
      simp only [lintegral_count, tsum_bool, dens_fair]
      rw [← ENNReal.ofReal_mul (by norm_num), ← ENNReal.ofReal_mul (by norm_num),
        ← ENNReal.ofReal_add (by norm_num [lik]) (by norm_num [lik])]
      norm_num [lik]
    rw [hs, hc _ ENNReal.ofReal_ne_top]
  · show ∫⁻ v, (∫⁻ z, dens (modelJoint (net 1) 1 true _ z) ∂Measure.count) ∂Measure.count = _
    simp only [lik_sum]
    rw [lintegral_count, tsum_bool, ← ENNReal.ofReal_add (by norm_num) (by norm_num)]
    norm_num

end Coins
end Verif
