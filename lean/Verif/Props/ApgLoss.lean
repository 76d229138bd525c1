import Mathlib.Analysis.Calculus.Deriv.Add
import Mathlib.Analysis.Calculus.Deriv.Mul
import Verif.Model.ApgLoss
import Verif.Props.ApgWeights
import Verif.Props.Metrics
/-
C66: the losses of the amortized Gibbs sampler.
-/
namespace Verif
open Spec Apg

section steps
variable {L : Lang} (N : ApgNet L) (same : L.V → L.V → Bool) (hsame : ∀ v, same v v = true)
  (hd : ∀ v, N.timesteps (L.detachV v) = N.timesteps v) (fresh i0 i1 i2 i3 : ObjId) (h1 : i1 ≤ fresh) (h2 : i2 ≤ fresh)
  (h3 : i3 ≤ fresh) (fl : LW L.W → LW L.W → LW L.W → L.Lo) (gl : LW L.W → LW L.W → L.W → L.Lo) (r : ResamplerFn L)
  (hr : ∀ sd bd t lw t2 lw2, (r sd bd t lw).Ret (.ok (t2, lw2)) → ∀ k, t2.contains k = t.contains k)
  (hp : ∀ sd bd t lw t2 lw2, (r sd bd t lw).Ret (.ok (t2, lw2)) → ∀ k rv rv2, t.get? k = some rv → t2.get? k = some rv2 → rv2.prov = rv.prov)
  (T S s t : Nat) (hT : 1 ≤ T) (hs : 1 ≤ s) (hsS : s ≤ S) (kvs : List (String × PyVal L)) (frames : L.V)
  (hf : getL kvs "frames" = some (.tensor frames)) (hft : N.timesteps frames = T)

include hd hT hf hft in
/-- C66. The loss of the initial importance sampling is that of `loss_is` at the log weight returned, the log density under which the
positions and the appearance were drawn, and their log joint with the frames. -/
theorem C66_start {q : Node L} (e : gibbsIs fresh (apgObjs N i0 i1 i2 i3 fl gl r) T = .ok q) {kw : Kw L} (hkw : KwOk kw) {w w' : World L}
    (hc : ∀ j, w.cond j = none) (hh : w.store.hooks = apgHooks same) {out : Out L}
    (hx : (eval q (.dict kvs) kw).Runs w (.ok out) w') : StartLoss N T frames fl out :=
  (start_loss hd (by simp only [item, hf]) hft hT e hkw ⟨hc, hh⟩ hx).1

include hsame hd h1 h2 h3 hr hp hT hs hsS hf hft in
/-- C66. The loss of the Propose of sweep `s` at time `t` is the loss of the Propose before, which the resampling passes on, plus that of
`loss_apg` at the log weight returned, the forward kernel's log density of the new position and the log density of the frames given
the new positions: for any number of particles and any resampler that keeps addresses and provenances. -/
theorem C66_position (ht : t < T) :
    ∃ p0 p, BuiltBefore N fresh i0 i1 i2 i3 fl gl r T S s t p0 ∧
      gibbsPropose fresh (apgObjs N i0 i1 i2 i3 fl gl r) T (apgObjs N i0 i1 i2 i3 fl gl r).coor t s
        (mkResample fresh r p0 none .none false) = .ok p ∧
      ∀ kw, KwOk kw → ∀ w, (∀ j, w.cond j = none) → w.store.hooks = apgHooks same → ∀ out w',
        (eval p (.dict kvs) kw).Runs w (.ok out) w' → ∃ kw0 o0 w0, (eval p0 (.dict kvs) kw0).Runs w (.ok o0) w0 ∧
          PositionLoss N T t s frames gl (o0.loss.getD 0) out := by
  obtain ⟨p0, p, hb, e, h⟩ := position_run N same hsame hd fresh i0 i1 i2 i3 h1 h2 h3 fl gl r hr hp T S s t hT hs hsS kvs frames hf hft ht
  refine ⟨p0, p, hb, e, fun kw hkw w hc hh out w' hx => ?_⟩
  obtain ⟨kw0, o0, w0, t1, lw1, h4, h5, h6, h7, -, h8⟩ := h kw hkw w hc hh out w' hx
  exact ⟨kw0, o0, w0, h5, h8⟩

include hsame hd h1 h2 h3 hr hp hT hs hsS hf hft in
/-- C66. The same for the appearance step at the end of sweep `s`. -/
theorem C66_appearance :
    ∃ p0 p, BuiltBefore N fresh i0 i1 i2 i3 fl gl r T S s T p0 ∧
      gibbsPropose fresh (apgObjs N i0 i1 i2 i3 fl gl r) T (apgObjs N i0 i1 i2 i3 fl gl r).digit T s
        (mkResample fresh r p0 none .none false) = .ok p ∧
      ∀ kw, KwOk kw → ∀ w, (∀ j, w.cond j = none) → w.store.hooks = apgHooks same → ∀ out w',
        (eval p (.dict kvs) kw).Runs w (.ok out) w' → ∃ kw0 o0 w0, (eval p0 (.dict kvs) kw0).Runs w (.ok o0) w0 ∧
          AppearanceLoss N T s frames gl (o0.loss.getD 0) out := by
  obtain ⟨p0, p, hb, e, h⟩ := appearance_run N same hsame hd fresh i0 i1 i2 i3 h1 h2 h3 fl gl r hr hp T S s hT hs hsS kvs frames hf hft
  refine ⟨p0, p, hb, e, fun kw hkw w hc hh out w' hx => ?_⟩
  obtain ⟨kw0, o0, w0, t1, lw1, h4, h5, h6, h7, -, h8⟩ := h kw hkw w hc hh out w' hx
  exact ⟨kw0, o0, w0, h5, h8⟩

/-- C66. `loss_apg` raises where the Compose of the proposal did not keep its parts: `_debug=True` in gibbs_sweeps is needed. -/
theorem C66_needs_debug (out : Out L) (px : ProposeX L) (tot : L.Lo) (h : out.px = some px) (hf : px.forwardTrace = none) :
    lossApg gl out tot = .error .assertion := by
  unfold lossApg
  rw [h]
  simp only [hf]

/-- C66. Both losses raise on the result of anything but a Propose. -/
theorem C66_needs_propose (out : Out L) (tot : L.Lo) (h : out.px = none) :
    lossIs fl out tot = .error .attribute ∧ lossApg gl out tot = .error .attribute := by
  unfold lossIs lossApg
  rw [h]
  exact ⟨rfl, rfl⟩

/-- The Propose of sweep 1 at time 0, with losses that show what they are given. -/
def Toy.lossStep : Except Err (Node Toy.L) := do
  let O := apgObjs Toy.net 0 1 2 3 (fun w q p => w.val.1 + 100 * q.val.1 + 10000 * p.val.1) (fun w q p => w.val.1 + 100 * q.val.1 + 10000 * p.1)
    Toy.keepAll
  let q0 ← gibbsIs 4 O 3
  gibbsPropose 4 O 3 O.coor 0 1 (mkResample 4 Toy.keepAll q0 none .none false)

def Toy.lossRun (vs : List Toy.L.V) : Option (Out Toy.L × World Toy.L) :=
  match Toy.lossStep with
  | .ok nd =>
    match Toy.feed (eval nd (.dict [("frames", .tensor (3, 0))]) {} Toy.wApg) vs with
    | some (.ok out, w) => some (out, w)
    | _ => none
  | .error _ => none

/-- A run of the first position step of the sampler for three frames, and its loss. -/
example : ∃ p0 p out w', BuiltBefore Toy.net 4 0 1 2 3 (fun w q p => w.val.1 + 100 * q.val.1 + 10000 * p.val.1)
      (fun w q p => w.val.1 + 100 * q.val.1 + 10000 * p.1) Toy.keepAll 3 2 1 0 p0 ∧
    Toy.lossStep = .ok p ∧ (eval p (.dict [("frames", .tensor ((3, 0) : Int × Int))]) {}).Runs Toy.wApg (.ok out) w' ∧
    ∃ (o0 : Out Toy.L), PositionLoss Toy.net 3 0 1 (3, 0) (fun w q p => w.val.1 + 100 * q.val.1 + 10000 * p.1) (o0.loss.getD 0) out := by
  have hs : (Toy.lossRun [(1, 1), (2, 1), (3, 1), (4, 1), (5, 1)]).isSome = true := by decide +kernel
  obtain ⟨p0, p, hb, e, h⟩ := C66_position Toy.net Toy.same (by simp [Toy.same]) (by intro v; rfl) 4 0 1 2 3 (by decide) (by decide) (by decide)
    (fun w q p => w.val.1 + 100 * q.val.1 + 10000 * p.val.1) (fun w q p => w.val.1 + 100 * q.val.1 + 10000 * p.1) Toy.keepAll
    (by intro sd bd t lw t2 lw2 h k; simp only [Toy.keepAll, Comp.ret_Ret, Except.ok.injEq, Prod.mk.injEq] at h; rw [h.1])
    (by
      intro sd bd t lw t2 lw2 h k rv rv2 h1 h2
      simp only [Toy.keepAll, Comp.ret_Ret, Except.ok.injEq, Prod.mk.injEq] at h
      rw [← h.1, h1] at h2
      cases h2; rfl)
    3 2 1 0 (by decide) (by decide) (by decide) [("frames", .tensor ((3, 0) : Int × Int))] (3, 0) rfl rfl (by decide)
  have e' : Toy.lossStep = .ok p := by
    obtain ⟨q0, q, e0, e1, e2⟩ := hb
    unfold Toy.lossStep
    simp only [e0]
    have e3 : Except.ok (mkResample 4 Toy.keepAll q0 none .none false) = Except.ok (ε := Err) q := e1
    have e4 : Except.ok q = Except.ok (ε := Err) (mkResample 4 Toy.keepAll p0 none .none false) := e2
    rw [Except.ok.injEq] at e3 e4
    subst e3
    rw [← e4] at e
    exact e
  unfold Toy.lossRun at hs
  rw [e'] at hs
  simp only at hs
  split at hs
  · rename_i out w' hf
    refine ⟨p0, p, out, w', hb, e', Toy.feed_Ret hf, ?_⟩
    obtain ⟨kw0, o0, w0, -, h5⟩ := h {} (by simp [KwOk]) Toy.wApg (fun _ => rfl) rfl out w' (Toy.feed_Ret hf)
    exact ⟨o0, h5⟩
  · cases hs

end steps

section arithmetic
variable {n b : Nat}

/-- C66. Adding a number to the log weights of a batch element changes nothing: only the weights relative to each other count, so the loss
does not see the normalization of a resampling. -/
theorem C66_shift (lw lq : Fin n → Fin b → ℝ) (c : Fin b → ℝ) :
    weightedLoss (fun i j => lw i j + c j) lq = weightedLoss lw lq := by
  unfold weightedLoss
  congr 1
  refine Finset.sum_congr rfl fun j _ => Finset.sum_congr rfl fun i _ => ?_
  congr 1
  unfold softmax
  simp only [Real.exp_add, ← Finset.sum_mul]
  exact mul_div_mul_right _ _ (Real.exp_ne_zero _)

/-- C66. With equal weights the loss is the plain average over particles and batch. -/
theorem C66_equal (lw lq : Fin n → Fin b → ℝ) (h : ∀ i i' j, lw i j = lw i' j) :
    weightedLoss lw lq = -(∑ j, (∑ i, lq i j) / n) / b := by
  unfold weightedLoss
  congr 1
  rw [← Finset.sum_neg_distrib]
  refine Finset.sum_congr rfl fun j _ => ?_
  have : ∀ i, softmax (fun i => lw i j) i = 1 / n := by
    intro i
    unfold softmax
    rw [Finset.sum_congr rfl (g := fun _ => Real.exp (lw i j)) fun i' _ => by rw [← h i' i j], Finset.sum_const, Finset.card_univ, Fintype.card_fin, nsmul_eq_mul]
    have := Real.exp_ne_zero (lw i j)
    have hn : (n : ℝ) ≠ 0 := by
      have := i.pos
      exact_mod_cast this.ne'
    field_simp
  simp only [this, mul_neg, Finset.sum_neg_distrib]
  rw [← Finset.mul_sum]
  ring

/-- C66. The losses lie between the least and the greatest of the negated sums of log densities they average. -/
theorem C66_range [NeZero n] [NeZero b] (lw lq lp : Fin n → Fin b → ℝ) (x y : ℝ) (h : ∀ i j, x ≤ -(lq i j + lp i j) ∧ -(lq i j + lp i j) ≤ y) :
    x ≤ apgArith (.tensor lw) (.tensor lq) lp ∧ apgArith (.tensor lw) (.tensor lq) lp ≤ y := by
  have e : apgArith (.tensor lw) (.tensor lq) lp = (∑ j, ∑ i, softmax (fun i => lw i j) i * -(lq i j + lp i j)) / b := by
    unfold apgArith weightedLoss
    rw [← add_div, ← Finset.sum_add_distrib]
    congr 1
    refine Finset.sum_congr rfl fun j _ => ?_
    rw [← Finset.sum_add_distrib]
    refine Finset.sum_congr rfl fun i _ => ?_
    simp only [LW.val]
    ring
  have hb : (0 : ℝ) < b := by exact_mod_cast Nat.pos_of_ne_zero (NeZero.ne b)
  have hs : ∀ z : ℝ, ∑ j : Fin b, ∑ i, softmax (fun i => lw i j) i * z = z * b := by
    intro z
    simp only [← Finset.sum_mul, softmax_sum]
    simp [mul_comm]
  rw [e, le_div_iff₀ hb, div_le_iff₀ hb, ← hs x, ← hs y]
  constructor
  · exact Finset.sum_le_sum fun j _ => Finset.sum_le_sum fun i _ => mul_le_mul_of_nonneg_left (h i j).1 (softmax_pos _ _).le
  · exact Finset.sum_le_sum fun j _ => Finset.sum_le_sum fun i _ => mul_le_mul_of_nonneg_left (h i j).2 (softmax_pos _ _).le

/-- C66. The gradient: with the log weights held fixed, as `detach` does, the derivative of the loss in a parameter is minus the average of
the derivatives of the two log densities, weighted as the particles are. -/
theorem C66_gradient (lw : Fin n → Fin b → ℝ) (lq lp : ℝ → Fin n → Fin b → ℝ) (dq dp : Fin n → Fin b → ℝ) (θ : ℝ)
    (hq : ∀ i j, HasDerivAt (fun θ => lq θ i j) (dq i j) θ) (hp : ∀ i j, HasDerivAt (fun θ => lp θ i j) (dp i j) θ) :
    HasDerivAt (fun θ => apgArith (.tensor lw) (.tensor (lq θ)) (lp θ))
      (-(∑ j, ∑ i, softmax (fun i => lw i j) i * (dq i j + dp i j)) / b) θ ∧
    HasDerivAt (fun θ => isArith (.tensor lw) (.tensor (lq θ)) (.tensor (lp θ)))
      (-(∑ j, ∑ i, softmax (fun i => lw i j) i * (dq i j + dp i j)) / b) θ := by
  have key : ∀ (l : ℝ → Fin n → Fin b → ℝ) (d : Fin n → Fin b → ℝ), (∀ i j, HasDerivAt (fun θ => l θ i j) (d i j) θ) →
      HasDerivAt (fun θ => weightedLoss lw (l θ)) ((∑ j, ∑ i, softmax (fun i => lw i j) i * -(d i j)) / b) θ := by
    intro l d h
    unfold weightedLoss
    refine HasDerivAt.div_const (HasDerivAt.fun_sum fun j _ => HasDerivAt.fun_sum fun i _ => ?_) _
    exact (h i j).fun_neg.const_mul _
  have e : -(∑ j, ∑ i, softmax (fun i => lw i j) i * (dq i j + dp i j)) / (b : ℝ) =
      (∑ j, ∑ i, softmax (fun i => lw i j) i * -(dq i j)) / b + (∑ j, ∑ i, softmax (fun i => lw i j) i * -(dp i j)) / b := by
    simp only [mul_add, mul_neg, Finset.sum_add_distrib, Finset.sum_neg_distrib]
    ring
  rw [e]
  exact ⟨(key lq dq hq).add (key lp dp hp), (key lq dq hq).add (key lp dp hp)⟩

/-- Two particles, the second three times as heavy. -/
example : weightedLoss (n := 2) (b := 1) (fun i _ => if i = 0 then 0 else Real.log 3) (fun i _ => if i = 0 then 4 else 8) = -7 := by
  unfold weightedLoss softmax
  simp only [Fin.sum_univ_two, Fin.sum_univ_one]
  simp [Real.exp_log]
  norm_num

end arithmetic

/-- The loss of that run: 31 less than a hundred times the kernel's log density plus ten thousand times the reconstruction's, on top of
the loss of importance sampling. -/
example : ((Toy.lossRun [(1, 1), (2, 1), (3, 1), (4, 1), (5, 1)]).bind fun x => x.1.loss) = some (1073557 : Int) := by decide +kernel

end Verif
