import Mathlib.Analysis.SpecialFunctions.Log.Deriv
import Mathlib.Tactic.Ring
import Mathlib.Tactic.FieldSimp
import Mathlib.Tactic.NormNum
import Verif.Spec.KlStep
import Verif.Props.Objectives
/-
C58: the gradient of nvo_rkl against the gradient of the divergence it stands for.
-/
namespace Verif
open Spec
variable {n b : Nat} {E : Type} [NormedAddCommGroup E] [NormedSpace ℝ E] {θ₀ : E} {V D : Type} {lp : D → V → Ten n b E}
  {dv : V → V} {Z1 Z2 : Type} [Fintype Z1] [Fintype Z2]

/-- The result `out` of a Propose enumerates the step `S` in batch element `j`: its particles are the points of the space,
its incoming weights are proportional to g1 q (so the particle system represents the proposal exactly), lv is the incremental
weight, and the variables that nvo_rkl reads have the log densities g1 and g2. Values do not depend on the parameters. -/
def Spec.Enumerates (S : KlStep Z1 Z2 E) (e : Fin n ≃ Z1 × Z2) (out : Out (CLang n b E θ₀ V D lp dv)) (j : Fin b) : Prop :=
  ∃ px ix lv prop targ, out.px = some px ∧ out.ix = some (.int ix) ∧ px.lv = .tensor lv ∧
    px.proposalTrace.get? ("g" ++ toString ix) = some prop ∧ px.targetTrace.get? ("g" ++ toString (ix + 1)) = some targ ∧
    (∃ κ, ∀ i, px.lw i j θ₀ = κ + S.g1 (e i).1 θ₀ + S.q (e i).1 (e i).2 θ₀) ∧
    (∀ i θ, lv i j θ = S.lv θ (e i)) ∧
    (∀ i θ, prop.logProb i j θ = S.g1 (e i).1 θ) ∧
    ((isProper targ ∧ ∀ θ, ∑ z2, Real.exp (S.g2 z2 θ) = 1) ∨
      ∃ f, targ.kind = .improper f ∧ ∀ i θ, f (dv targ.value) i j θ = S.g2 (e i).2 θ)

/-- A log of a sum of exponentials: its derivative is the mean of the derivatives under the softmax. -/
theorem hasFDerivAt_logSumExp {ι : Type} [Fintype ι] [Nonempty ι] (g : ι → E → ℝ) (g' : ι → E →L[ℝ] ℝ)
    (h : ∀ i, HasFDerivAt (g i) (g' i) θ₀) :
    HasFDerivAt (fun θ => Real.log (∑ i, Real.exp (g i θ)))
      (∑ i, (Real.exp (g i θ₀) / ∑ k, Real.exp (g k θ₀)) • g' i) θ₀ := by
  have hpos : 0 < ∑ k, Real.exp (g k θ₀) := Finset.sum_pos (fun i _ => Real.exp_pos _) Finset.univ_nonempty
  have h1 : HasFDerivAt (fun θ => ∑ i, Real.exp (g i θ)) (∑ i, Real.exp (g i θ₀) • g' i) θ₀ :=
    HasFDerivAt.fun_sum fun i _ => (h i).exp
  refine (h1.log hpos.ne').congr_fderiv ?_
  rw [Finset.smul_sum]
  refine Finset.sum_congr rfl fun i _ => ?_
  rw [smul_smul]
  congr 1
  field_simp

/-- A normalised kernel has a score with mean zero. -/
theorem score_zero {ι : Type} [Fintype ι] (q : ι → E → ℝ) (q' : ι → E →L[ℝ] ℝ) (h : ∀ i, HasFDerivAt (q i) (q' i) θ₀)
    (hq : ∀ θ, ∑ i, Real.exp (q i θ) = 1) : ∑ i, Real.exp (q i θ₀) • q' i = 0 := by
  have h1 : HasFDerivAt (fun θ => ∑ i, Real.exp (q i θ)) (∑ i, Real.exp (q i θ₀) • q' i) θ₀ :=
    HasFDerivAt.fun_sum fun i _ => (h i).exp
  simp only [hq] at h1
  exact h1.unique (hasFDerivAt_const 1 θ₀)

section
variable (S : KlStep Z1 Z2 E)

theorem Spec.KlStep.proposal_eq [Nonempty Z1] (θ : E) (z : Z1 × Z2) :
    S.proposal θ z = Real.exp (S.g1 z.1 θ + S.q z.1 z.2 θ - S.logZ1 θ) := by
  have hpos : 0 < ∑ k, Real.exp (S.g1 k θ) := Finset.sum_pos (fun i _ => Real.exp_pos _) Finset.univ_nonempty
  rw [Real.exp_sub, Real.exp_add, KlStep.logZ1, Real.exp_log hpos]
  rfl

theorem Spec.KlStep.target_eq [Nonempty Z2] (θ : E) (z : Z1 × Z2) :
    S.target θ z = Real.exp (S.g2 z.2 θ + S.r z.2 z.1 θ - S.logZ2 θ) := by
  have hpos : 0 < ∑ k, Real.exp (S.g2 k θ) := Finset.sum_pos (fun i _ => Real.exp_pos _) Finset.univ_nonempty
  rw [Real.exp_sub, Real.exp_add, KlStep.logZ2, Real.exp_log hpos]
  rfl

theorem Spec.KlStep.ratio_eq [Nonempty Z1] [Nonempty Z2] (θ : E) (z : Z1 × Z2) :
    Real.log (S.proposal θ z / S.target θ z) = -S.lv θ z + S.logZ2 θ - S.logZ1 θ := by
  rw [S.proposal_eq, S.target_eq, ← Real.exp_sub, Real.log_exp, KlStep.lv]
  ring

theorem Spec.KlStep.sum_proposal [Nonempty Z1] (hk : S.Kernels) (θ : E) (h : Z1 → ℝ) :
    ∑ z, S.proposal θ z * h z.1 = ∑ z1, Real.exp (S.g1 z1 θ) / (∑ k, Real.exp (S.g1 k θ)) * h z1 := by
  rw [Fintype.sum_prod_type]
  refine Finset.sum_congr rfl fun z1 _ => ?_
  have := hk.1 θ z1
  calc ∑ z2, S.proposal θ (z1, z2) * h z1
      = ∑ z2, Real.exp (S.q z1 z2 θ) * (Real.exp (S.g1 z1 θ) / (∑ k, Real.exp (S.g1 k θ)) * h z1) := by
        refine Finset.sum_congr rfl fun z2 _ => ?_
        simp only [KlStep.proposal]; ring
    _ = _ := by rw [← Finset.sum_mul, this, one_mul]

theorem Spec.KlStep.sum_target [Nonempty Z2] (hk : S.Kernels) (θ : E) (h : Z2 → ℝ) :
    ∑ z, S.target θ z * h z.2 = ∑ z2, Real.exp (S.g2 z2 θ) / (∑ k, Real.exp (S.g2 k θ)) * h z2 := by
  rw [Fintype.sum_prod_type_right]
  refine Finset.sum_congr rfl fun z2 _ => ?_
  have := hk.2 θ z2
  calc ∑ z1, S.target θ (z1, z2) * h z2
      = ∑ z1, Real.exp (S.r z2 z1 θ) * (Real.exp (S.g2 z2 θ) / (∑ k, Real.exp (S.g2 k θ)) * h z2) := by
        refine Finset.sum_congr rfl fun z1 _ => ?_
        simp only [KlStep.target]; ring
    _ = _ := by rw [← Finset.sum_mul, this, one_mul]

theorem kl_softmax_sum {ι : Type} [Fintype ι] [Nonempty ι] (g : ι → ℝ) : ∑ i, Real.exp (g i) / (∑ k, Real.exp (g k)) = 1 := by
  have hpos : 0 < ∑ k, Real.exp (g k) := Finset.sum_pos (fun i _ => Real.exp_pos _) Finset.univ_nonempty
  rw [← Finset.sum_div]
  exact div_self hpos.ne'

theorem Spec.KlStep.proposal_sum [Nonempty Z1] (hk : S.Kernels) (θ : E) : ∑ z, S.proposal θ z = 1 := by
  have := S.sum_proposal hk θ (fun _ => 1)
  simp only [mul_one] at this
  rw [this, kl_softmax_sum]

theorem Spec.KlStep.target_sum [Nonempty Z2] (hk : S.Kernels) (θ : E) : ∑ z, S.target θ z = 1 := by
  have := S.sum_target hk θ (fun _ => 1)
  simp only [mul_one] at this
  rw [this, kl_softmax_sum]

/-- The derivatives of log Z1, log Z2 and of the divergence, along a direction `v`. -/
theorem Spec.KlStep.hasFDerivAt_kl [Nonempty Z1] [Nonempty Z2] (hk : S.Kernels) (hs : S.Smooth θ₀) :
    DifferentiableAt ℝ S.logZ1 θ₀ ∧ DifferentiableAt ℝ S.logZ2 θ₀ ∧ DifferentiableAt ℝ S.kl θ₀ ∧
    ∀ v, (∑ z, S.proposal θ₀ z * fderiv ℝ (S.g1 z.1) θ₀ v = fderiv ℝ S.logZ1 θ₀ v) ∧
      (∑ z, S.target θ₀ z * fderiv ℝ (S.g2 z.2) θ₀ v = fderiv ℝ S.logZ2 θ₀ v) ∧
      (∑ z, S.proposal θ₀ z * fderiv ℝ (S.q z.1 z.2) θ₀ v = 0) ∧
      fderiv ℝ S.kl θ₀ v = ∑ z, S.proposal θ₀ z *
        (Real.log (S.proposal θ₀ z / S.target θ₀ z) *
            (fderiv ℝ (S.g1 z.1) θ₀ v + fderiv ℝ (S.q z.1 z.2) θ₀ v - fderiv ℝ S.logZ1 θ₀ v) +
          (fderiv ℝ (S.g1 z.1) θ₀ v + fderiv ℝ (S.q z.1 z.2) θ₀ v - fderiv ℝ S.logZ1 θ₀ v -
            (fderiv ℝ (S.g2 z.2) θ₀ v + fderiv ℝ (S.r z.2 z.1) θ₀ v - fderiv ℝ S.logZ2 θ₀ v))) := by
  obtain ⟨s1, s2, s3, s4⟩ := hs
  have hz1 : HasFDerivAt S.logZ1 _ θ₀ := hasFDerivAt_logSumExp S.g1 _ fun i => (s1 i).hasFDerivAt
  have hz2 : HasFDerivAt S.logZ2 _ θ₀ := hasFDerivAt_logSumExp S.g2 _ fun i => (s3 i).hasFDerivAt
  have hp : ∀ z : Z1 × Z2, HasFDerivAt (fun θ => S.g1 z.1 θ + S.q z.1 z.2 θ - S.logZ1 θ)
      (fderiv ℝ (S.g1 z.1) θ₀ + fderiv ℝ (S.q z.1 z.2) θ₀ - fderiv ℝ S.logZ1 θ₀) θ₀ := fun z =>
    (((s1 z.1).hasFDerivAt).add ((s2 z.1 z.2).hasFDerivAt)).sub hz1.differentiableAt.hasFDerivAt
  have ht : ∀ z : Z1 × Z2, HasFDerivAt (fun θ => S.g2 z.2 θ + S.r z.2 z.1 θ - S.logZ2 θ)
      (fderiv ℝ (S.g2 z.2) θ₀ + fderiv ℝ (S.r z.2 z.1) θ₀ - fderiv ℝ S.logZ2 θ₀) θ₀ := fun z =>
    (((s3 z.2).hasFDerivAt).add ((s4 z.2 z.1).hasFDerivAt)).sub hz2.differentiableAt.hasFDerivAt
  have hkl : S.kl = fun θ => ∑ z : Z1 × Z2, Real.exp (S.g1 z.1 θ + S.q z.1 z.2 θ - S.logZ1 θ) *
      ((S.g1 z.1 θ + S.q z.1 z.2 θ - S.logZ1 θ) - (S.g2 z.2 θ + S.r z.2 z.1 θ - S.logZ2 θ)) := by
    funext θ
    refine Finset.sum_congr rfl fun z _ => ?_
    rw [S.proposal_eq, S.target_eq, ← Real.exp_sub, Real.log_exp]
  have hd := HasFDerivAt.fun_sum fun z (_ : z ∈ Finset.univ) => ((hp z).exp.mul ((hp z).sub (ht z)))
  replace hd := hd.congr_of_eventuallyEq (f₁ := S.kl) (by rw [hkl]; exact Filter.EventuallyEq.rfl)
  refine ⟨hz1.differentiableAt, hz2.differentiableAt, hd.differentiableAt, fun v => ⟨?_, ?_, ?_, ?_⟩⟩
  · rw [hz1.fderiv, S.sum_proposal hk θ₀ fun z1 => fderiv ℝ (S.g1 z1) θ₀ v]
    simp [ContinuousLinearMap.sum_apply]
  · rw [hz2.fderiv, S.sum_target hk θ₀ fun z2 => fderiv ℝ (S.g2 z2) θ₀ v]
    simp [ContinuousLinearMap.sum_apply]
  · rw [Fintype.sum_prod_type]
    refine Finset.sum_eq_zero fun z1 _ => ?_
    have h0 := congrArg (fun l : E →L[ℝ] ℝ => l v)
      (score_zero (fun z2 => S.q z1 z2) _ (fun z2 => (s2 z1 z2).hasFDerivAt) fun θ => hk.1 θ z1)
    simp only [ContinuousLinearMap.sum_apply, ContinuousLinearMap.smul_apply, smul_eq_mul, ContinuousLinearMap.zero_apply] at h0
    calc ∑ z2, S.proposal θ₀ (z1, z2) * fderiv ℝ (S.q z1 z2) θ₀ v
        = Real.exp (S.g1 z1 θ₀) / (∑ k, Real.exp (S.g1 k θ₀)) * ∑ z2, Real.exp (S.q z1 z2 θ₀) * fderiv ℝ (S.q z1 z2) θ₀ v := by
          rw [Finset.mul_sum]
          refine Finset.sum_congr rfl fun z2 _ => ?_
          simp only [KlStep.proposal]; ring
      _ = 0 := by rw [h0, mul_zero]
  · rw [hd.fderiv]
    simp only [ContinuousLinearMap.sum_apply]
    refine Finset.sum_congr rfl fun z _ => ?_
    have : Real.log (S.proposal θ₀ z / S.target θ₀ z) = (S.g1 z.1 θ₀ + S.q z.1 z.2 θ₀ - S.logZ1 θ₀) -
        (S.g2 z.2 θ₀ + S.r z.2 z.1 θ₀ - S.logZ2 θ₀) := by
      rw [S.proposal_eq, S.target_eq, ← Real.exp_sub, Real.log_exp]
    rw [this, S.proposal_eq]
    simp only [ContinuousLinearMap.add_apply, ContinuousLinearMap.smul_apply, ContinuousLinearMap.sub_apply, smul_eq_mul,
      Pi.sub_apply]
    ring

end

theorem kl_algebra {ι : Type} [Fintype ι] (P R a q g r : ι → ℝ) (ζ1 ζ2 K : ℝ) (h1 : ∑ z, P z * a z = ζ1)
    (h3 : ∑ z, P z * q z = 0) (hs : ∑ z, P z = 1) :
    (∑ z, P z * ((R z + K - (∑ z, P z * R z + K)) * a z - (g z + r z - a z - q z))) + ζ2 =
      (∑ z, P z * (R z * (a z + q z - ζ1) + (a z + q z - ζ1 - (g z + r z - ζ2)))) + ζ1 - ∑ z, P z * R z * q z := by
  generalize hB : ∑ z, P z * R z = B
  have l : ∀ z, P z * ((R z + K - (B + K)) * a z - (g z + r z - a z - q z)) =
      P z * R z * a z - B * (P z * a z) - P z * (g z + r z) + P z * a z + P z * q z := fun z => by ring
  have m : ∀ z, P z * (R z * (a z + q z - ζ1) + (a z + q z - ζ1 - (g z + r z - ζ2))) =
      P z * R z * a z + P z * R z * q z - ζ1 * (P z * R z) + P z * a z + P z * q z - ζ1 * P z - P z * (g z + r z) + ζ2 * P z :=
    fun z => by ring
  simp only [l, m, Finset.sum_add_distrib, Finset.sum_sub_distrib, ← Finset.mul_sum, h1, h3, hs, hB]
  ring

/-- C58. When the particles represent the proposal g1 q / Z1 exactly, the derivative of nvo_rkl is the derivative of
KL(g1 q / Z1 || g2 r / Z2), plus the derivative of log Z1, minus the score term of the forward kernel. The last term is absent
when the forward kernel has no parameters; the derivative of log Z1 is absent when g1 has none (or is normalised). -/
theorem C58_kl_gradient (S : KlStep Z1 Z2 E) (hk : S.Kernels) (hs : S.Smooth θ₀) (e : Fin n ≃ Z1 × Z2)
    {out : Out (CLang n b E θ₀ V D lp dv)} {l : Red b E} (h : nvoRkl out = .ok l) (j : Fin b) (he : Enumerates S e out j) :
    DifferentiableAt ℝ S.kl θ₀ ∧ DifferentiableAt ℝ S.logZ1 θ₀ ∧
    HasFDerivAt (l j) (fderiv ℝ S.kl θ₀ + fderiv ℝ S.logZ1 θ₀ -
      ∑ z, (S.proposal θ₀ z * Real.log (S.proposal θ₀ z / S.target θ₀ z)) • fderiv ℝ (S.q z.1 z.2) θ₀) θ₀ := by
  obtain ⟨px, ix, lv, prop, targ, h1, h2, h3, h4, h5, hgrad⟩ := C38_rkl_grad h
  obtain ⟨px', ix', lv₁, prop', targ', h1', h2', h3', h4', h5', ⟨κ, hlw⟩, hlv, hprop, htarg⟩ := he
  rw [h1] at h1'; cases h1'
  rw [h2] at h2'; cases h2'
  rw [h3] at h3'; cases h3'
  rw [h4] at h4'; cases h4'
  rw [h5] at h5'; cases h5'
  obtain ⟨-, -, -, -, hn, -⟩ := C38_rkl_value h
  have : Nonempty (Fin n) := ⟨⟨0, Nat.pos_of_ne_zero hn⟩⟩
  obtain ⟨i0⟩ := this
  have : Nonempty Z1 := ⟨(e i0).1⟩
  have : Nonempty Z2 := ⟨(e i0).2⟩
  obtain ⟨d1, d2, d3, hder⟩ := S.hasFDerivAt_kl hk hs
  obtain ⟨s1, s2, s3, s4⟩ := hs
  refine ⟨d3, d1, ?_⟩
  have hl : ∀ i, lv i j = fun θ => S.lv θ (e i) := fun i => funext (hlv i)
  have hg := hgrad j
    (fun i => fderiv ℝ (S.g2 (e i).2) θ₀ + fderiv ℝ (S.r (e i).2 (e i).1) θ₀ - fderiv ℝ (S.g1 (e i).1) θ₀ -
      fderiv ℝ (S.q (e i).1 (e i).2) θ₀)
    (fun i => fderiv ℝ (S.g1 (e i).1) θ₀) (fun i => fderiv ℝ (S.g2 (e i).2) θ₀)
    (fun i => by
      rw [hl i]
      exact (((s3 _).hasFDerivAt.add (s4 _ _).hasFDerivAt).sub (s1 _).hasFDerivAt).sub (s2 _ _).hasFDerivAt)
    (fun i => by
      rw [show prop.logProb i j = S.g1 (e i).1 from funext (hprop i)]
      exact (s1 _).hasFDerivAt)
    (fun f hf i => by
      rcases htarg with ⟨hp, -⟩ | ⟨f', hf', hg2⟩
      · simp [isProper, hf] at hp
      · rw [hf] at hf'; cases hf'
        rw [show f (dv targ.value) i j = S.g2 (e i).2 from funext (hg2 i)]
        exact (s3 _).hasFDerivAt)
  -- the incoming weights are the proposal's probabilities
  have hc : ∀ i, normalised (fun k => px.lw k j θ₀) i = S.proposal θ₀ (e i) := by
    intro i
    have hx : ∀ k, Real.exp (px.lw k j θ₀) = Real.exp (κ + S.logZ1 θ₀) * S.proposal θ₀ (e k) := by
      intro k
      rw [S.proposal_eq, ← Real.exp_add, hlw]
      congr 1; ring
    simp only [normalised, hx]
    rw [← Finset.mul_sum, Equiv.sum_comp e (S.proposal θ₀), S.proposal_sum hk, mul_one]
    exact mul_div_cancel_left₀ _ (Real.exp_pos _).ne'
  have hc' : ∀ i, normalised (fun k => px.lw k j θ₀ + lv k j θ₀) i = S.target θ₀ (e i) := by
    intro i
    have hx : ∀ k, Real.exp (px.lw k j θ₀ + lv k j θ₀) = Real.exp (κ + S.logZ2 θ₀) * S.target θ₀ (e k) := by
      intro k
      rw [S.target_eq, ← Real.exp_add, hlw, hlv, KlStep.lv]
      congr 1; ring
    simp only [normalised, hx]
    rw [← Finset.mul_sum, Equiv.sum_comp e (S.target θ₀), S.target_sum hk, mul_one]
    exact mul_div_cancel_left₀ _ (Real.exp_pos _).ne'
  refine hg.congr_fderiv ?_
  ext v
  obtain ⟨e1, e2, e3, e4⟩ := hder v
  have hz2 : (if isProper targ then (0 : E →L[ℝ] ℝ) else ∑ i, normalised (fun k => px.lw k j θ₀ + lv k j θ₀) i •
      fderiv ℝ (S.g2 (e i).2) θ₀) v = fderiv ℝ S.logZ2 θ₀ v := by
    rcases htarg with ⟨hp, hz⟩ | ⟨f', hf', -⟩
    · rw [if_pos hp]
      have : S.logZ2 = fun _ => (0 : ℝ) := by
        funext θ; rw [KlStep.logZ2, hz, Real.log_one]
      rw [this]; simp
    · rw [if_neg (by simp [isProper, hf'])]
      simp only [hc', ContinuousLinearMap.sum_apply, ContinuousLinearMap.smul_apply, smul_eq_mul]
      rw [← e2, ← Equiv.sum_comp e]
  rw [ContinuousLinearMap.add_apply, hz2]
  simp only [hc, ContinuousLinearMap.sum_apply, ContinuousLinearMap.smul_apply, smul_eq_mul, ContinuousLinearMap.sub_apply,
    ContinuousLinearMap.add_apply]
  set P := S.proposal θ₀ with hP
  set R := fun z => Real.log (P z / S.target θ₀ z) with hR
  obtain ⟨K, hf⟩ : ∃ K, ∀ i, -(lv i j θ₀ - Real.log ((∑ k, Real.exp (lv k j θ₀)) / n)) = R (e i) + K := by
    refine ⟨Real.log ((∑ k, Real.exp (lv k j θ₀)) / n) - S.logZ2 θ₀ + S.logZ1 θ₀, fun i => ?_⟩
    rw [hR]
    simp only
    rw [hP, S.ratio_eq, hlv]
    ring
  have hone : ∑ i, P (e i) = 1 := by rw [Equiv.sum_comp e P, S.proposal_sum hk]
  have hbase : ∑ k, P (e k) * (R (e k) + K) = (∑ z, P z * R z) + K := by
    simp only [mul_add, Finset.sum_add_distrib, ← Finset.sum_mul, hone, one_mul]
    rw [Equiv.sum_comp e fun z => P z * R z]
  simp only [hf, hbase]
  rw [Equiv.sum_comp e fun z => P z * ((R z + K - (∑ z, P z * R z + K)) * fderiv ℝ (S.g1 z.1) θ₀ v -
    (fderiv ℝ (S.g2 z.2) θ₀ v + fderiv ℝ (S.r z.2 z.1) θ₀ v - fderiv ℝ (S.g1 z.1) θ₀ v - fderiv ℝ (S.q z.1 z.2) θ₀ v)), e4]
  have halg := kl_algebra P R (fun z => fderiv ℝ (S.g1 z.1) θ₀ v) (fun z => fderiv ℝ (S.q z.1 z.2) θ₀ v)
    (fun z => fderiv ℝ (S.g2 z.2) θ₀ v) (fun z => fderiv ℝ (S.r z.2 z.1) θ₀ v) (fderiv ℝ S.logZ1 θ₀ v) (fderiv ℝ S.logZ2 θ₀ v) K
    e1 e3 (S.proposal_sum hk θ₀)
  exact halg

/-- C58. The value of nvo_rkl on such particles: the divergence, with log (Z2 / Z1) replaced by the logarithm of the unweighted
mean of the incremental weights. -/
theorem C58_kl_value (S : KlStep Z1 Z2 E) (hk : S.Kernels) (e : Fin n ≃ Z1 × Z2)
    {out : Out (CLang n b E θ₀ V D lp dv)} {l : Red b E} (h : nvoRkl out = .ok l) (j : Fin b) (he : Enumerates S e out j) :
    l j θ₀ = S.kl θ₀ + (Real.log ((∑ z, Real.exp (S.lv θ₀ z)) / n) - (S.logZ2 θ₀ - S.logZ1 θ₀)) := by
  obtain ⟨px, lv, h1, h3, hn, hval⟩ := C38_rkl_value h
  obtain ⟨px', ix', lv₁, prop', targ', h1', h2', h3', h4', h5', ⟨κ, hlw⟩, hlv, hprop, htarg⟩ := he
  rw [h1] at h1'; cases h1'
  rw [h3] at h3'; cases h3'
  obtain ⟨i0⟩ : Nonempty (Fin n) := ⟨⟨0, Nat.pos_of_ne_zero hn⟩⟩
  have : Nonempty Z1 := ⟨(e i0).1⟩
  have : Nonempty Z2 := ⟨(e i0).2⟩
  have hc : ∀ i, normalised (fun k => px.lw k j θ₀) i = S.proposal θ₀ (e i) := by
    intro i
    have hx : ∀ k, Real.exp (px.lw k j θ₀) = Real.exp (κ + S.logZ1 θ₀) * S.proposal θ₀ (e k) := by
      intro k
      rw [S.proposal_eq, ← Real.exp_add, hlw]
      congr 1; ring
    simp only [normalised, hx]
    rw [← Finset.mul_sum, Equiv.sum_comp e (S.proposal θ₀), S.proposal_sum hk, mul_one]
    exact mul_div_cancel_left₀ _ (Real.exp_pos _).ne'
  rw [hval]
  simp only [hc, hlv]
  rw [Equiv.sum_comp e fun z => Real.exp (S.lv θ₀ z),
    Equiv.sum_comp e fun z => S.proposal θ₀ z * -(S.lv θ₀ z - Real.log ((∑ z, Real.exp (S.lv θ₀ z)) / n))]
  simp only [KlStep.kl, S.ratio_eq]
  have hs := S.proposal_sum hk θ₀
  generalize Real.log ((∑ z, Real.exp (S.lv θ₀ z)) / n) = K
  have l1 : ∀ z, S.proposal θ₀ z * -(S.lv θ₀ z - K) = -(S.proposal θ₀ z * S.lv θ₀ z) + K * S.proposal θ₀ z := fun z => by ring
  have l2 : ∀ z, S.proposal θ₀ z * (-S.lv θ₀ z + S.logZ2 θ₀ - S.logZ1 θ₀) =
    -(S.proposal θ₀ z * S.lv θ₀ z) + (S.logZ2 θ₀ - S.logZ1 θ₀) * S.proposal θ₀ z := fun z => by ring
  simp only [l1, l2, Finset.sum_add_distrib, ← Finset.mul_sum, hs]
  ring

/-- The reverse kernel's score has mean zero under the target. -/
theorem Spec.KlStep.score_r (S : KlStep Z1 Z2 E) (hk : S.Kernels) (hs : S.Smooth θ₀) (v : E) :
    ∑ z, S.target θ₀ z * fderiv ℝ (S.r z.2 z.1) θ₀ v = 0 := by
  rw [Fintype.sum_prod_type_right]
  refine Finset.sum_eq_zero fun z2 _ => ?_
  have h0 := congrArg (fun l : E →L[ℝ] ℝ => l v)
    (score_zero (fun z1 => S.r z2 z1) _ (fun z1 => (hs.2.2.2 z2 z1).hasFDerivAt) fun θ => hk.2 θ z2)
  simp only [ContinuousLinearMap.sum_apply, ContinuousLinearMap.smul_apply, smul_eq_mul, ContinuousLinearMap.zero_apply] at h0
  calc ∑ z1, S.target θ₀ (z1, z2) * fderiv ℝ (S.r z2 z1) θ₀ v
      = Real.exp (S.g2 z2 θ₀) / (∑ k, Real.exp (S.g2 k θ₀)) * ∑ z1, Real.exp (S.r z2 z1 θ₀) * fderiv ℝ (S.r z2 z1) θ₀ v := by
        rw [Finset.mul_sum]
        refine Finset.sum_congr rfl fun z1 _ => ?_
        simp only [KlStep.target]; ring
    _ = 0 := by rw [h0, mul_zero]

/-- C58. Where the two joint distributions agree, so that the divergence is 0, its derivative vanishes but that of nvo_rkl is
the derivative of log Z1: a step on the loss leaves the optimum whenever g1 is improper and has parameters. -/
theorem C58_at_optimum (S : KlStep Z1 Z2 E) (hk : S.Kernels) (hs : S.Smooth θ₀) (e : Fin n ≃ Z1 × Z2)
    {out : Out (CLang n b E θ₀ V D lp dv)} {l : Red b E} (h : nvoRkl out = .ok l) (j : Fin b) (he : Enumerates S e out j)
    (hopt : ∀ z, S.proposal θ₀ z = S.target θ₀ z) :
    S.kl θ₀ = 0 ∧ fderiv ℝ S.kl θ₀ = 0 ∧ HasFDerivAt (l j) (fderiv ℝ S.logZ1 θ₀) θ₀ := by
  obtain ⟨-, -, -, -, hn, -⟩ := C38_rkl_value h
  obtain ⟨i0⟩ : Nonempty (Fin n) := ⟨⟨0, Nat.pos_of_ne_zero hn⟩⟩
  have : Nonempty Z1 := ⟨(e i0).1⟩
  have : Nonempty Z2 := ⟨(e i0).2⟩
  have hr : ∀ z, Real.log (S.proposal θ₀ z / S.target θ₀ z) = 0 := by
    intro z
    have : S.target θ₀ z ≠ 0 := by rw [S.target_eq]; exact (Real.exp_pos _).ne'
    rw [hopt, div_self this, Real.log_one]
  have h0 : fderiv ℝ S.kl θ₀ = 0 := by
    ext v
    obtain ⟨-, -, -, hder⟩ := S.hasFDerivAt_kl hk hs
    obtain ⟨e1, e2, e3, e4⟩ := hder v
    rw [e4]
    simp only [hr, zero_mul, zero_add]
    have e5 := S.score_r hk hs v
    simp only [← hopt] at e2 e5
    have h1 := S.proposal_sum hk θ₀
    generalize fderiv ℝ S.logZ1 θ₀ v = ζ1 at *
    generalize fderiv ℝ S.logZ2 θ₀ v = ζ2 at *
    have m : ∀ z, S.proposal θ₀ z * (fderiv ℝ (S.g1 z.1) θ₀ v + fderiv ℝ (S.q z.1 z.2) θ₀ v - ζ1 -
        (fderiv ℝ (S.g2 z.2) θ₀ v + fderiv ℝ (S.r z.2 z.1) θ₀ v - ζ2)) =
        S.proposal θ₀ z * fderiv ℝ (S.g1 z.1) θ₀ v + S.proposal θ₀ z * fderiv ℝ (S.q z.1 z.2) θ₀ v - ζ1 * S.proposal θ₀ z -
        S.proposal θ₀ z * fderiv ℝ (S.g2 z.2) θ₀ v - S.proposal θ₀ z * fderiv ℝ (S.r z.2 z.1) θ₀ v + ζ2 * S.proposal θ₀ z :=
      fun z => by ring
    simp only [m, Finset.sum_add_distrib, Finset.sum_sub_distrib, ← Finset.mul_sum, e1, e2, e3, e5, h1]
    simp
  refine ⟨by simp [KlStep.kl, hr], h0, ?_⟩
  obtain ⟨-, -, hg⟩ := C58_kl_gradient S hk hs e h j he
  refine hg.congr_fderiv ?_
  simp [hr, h0]

/-- C58, reparameterised form. The first variable ranges over a finite space, the second is a function of the first, of noise
from a finite space and of the parameters; lv is any differentiable function of the three. If the particles represent
g1 / Z1 and the noise exactly, and the estimate of the derivative of log Z2 is exact, then the derivative of nvo_rkl is that
of the metric E[log Z2 - log Z1 - lv] plus the derivative of log Z1. -/
theorem C58_metric_gradient {N : Type} [Fintype N] (g1 : Z1 → E → ℝ) (ρ : Z1 → N → ℝ) (Λ : Z1 → N → E → ℝ) (logZ2 : E → ℝ)
    (hρ : ∀ z1, ∑ ε, Real.exp (ρ z1 ε) = 1) (hg1 : ∀ z1, DifferentiableAt ℝ (g1 z1) θ₀)
    (hΛ : ∀ z1 ε, DifferentiableAt ℝ (Λ z1 ε) θ₀) (hZ2 : DifferentiableAt ℝ logZ2 θ₀)
    (e : Fin n ≃ Z1 × N) {out : Out (CLang n b E θ₀ V D lp dv)} {l : Red b E} (h : nvoRkl out = .ok l) (j : Fin b)
    (he : ∃ px ix lv prop targ, out.px = some px ∧ out.ix = some (.int ix) ∧ px.lv = .tensor lv ∧
      px.proposalTrace.get? ("g" ++ toString ix) = some prop ∧ px.targetTrace.get? ("g" ++ toString (ix + 1)) = some targ ∧
      (∃ κ, ∀ i, px.lw i j θ₀ = κ + g1 (e i).1 θ₀ + ρ (e i).1 (e i).2) ∧
      (∀ i θ, lv i j θ = Λ (e i).1 (e i).2 θ) ∧ (∀ i θ, prop.logProb i j θ = g1 (e i).1 θ) ∧
      ((isProper targ ∧ fderiv ℝ logZ2 θ₀ = 0) ∨ ∃ f, targ.kind = .improper f ∧
        (∀ i, DifferentiableAt ℝ (f (dv targ.value) i j) θ₀) ∧
        ∑ i, normalised (fun k => px.lw k j θ₀ + lv k j θ₀) i • fderiv ℝ (f (dv targ.value) i j) θ₀ = fderiv ℝ logZ2 θ₀)) :
    let logZ1 := fun θ => Real.log (∑ z1, Real.exp (g1 z1 θ))
    let M := fun θ => ∑ z1, Real.exp (g1 z1 θ) / (∑ k, Real.exp (g1 k θ)) *
      ∑ ε, Real.exp (ρ z1 ε) * (logZ2 θ - logZ1 θ - Λ z1 ε θ)
    DifferentiableAt ℝ M θ₀ ∧ HasFDerivAt (l j) (fderiv ℝ M θ₀ + fderiv ℝ logZ1 θ₀) θ₀ := by
  intro logZ1 M
  obtain ⟨px, ix, lv, prop, targ, h1, h2, h3, h4, h5, hgrad⟩ := C38_rkl_grad h
  obtain ⟨px', ix', lv₁, prop', targ', h1', h2', h3', h4', h5', ⟨κ, hlw⟩, hlv, hprop, htarg⟩ := he
  rw [h1] at h1'; cases h1'
  rw [h2] at h2'; cases h2'
  rw [h3] at h3'; cases h3'
  rw [h4] at h4'; cases h4'
  rw [h5] at h5'; cases h5'
  obtain ⟨-, -, -, -, hn, -⟩ := C38_rkl_value h
  obtain ⟨i0⟩ : Nonempty (Fin n) := ⟨⟨0, Nat.pos_of_ne_zero hn⟩⟩
  have : Nonempty Z1 := ⟨(e i0).1⟩
  -- a step whose forward kernel is the noise
  let S : KlStep Z1 N E := ⟨g1, fun z1 ε _ => ρ z1 ε, fun _ _ => 0, fun _ _ _ => 0⟩
  have hsum : ∀ θ (k : Z1 × N → ℝ), ∑ z, S.proposal θ z * k z =
      ∑ z1, Real.exp (g1 z1 θ) / (∑ k, Real.exp (g1 k θ)) * ∑ ε, Real.exp (ρ z1 ε) * k (z1, ε) := by
    intro θ k
    rw [Fintype.sum_prod_type]
    refine Finset.sum_congr rfl fun z1 _ => ?_
    rw [Finset.mul_sum]
    refine Finset.sum_congr rfl fun ε _ => ?_
    simp only [KlStep.proposal, S]; ring
  have hone : ∀ θ, ∑ z, S.proposal θ z = 1 := by
    intro θ
    have := hsum θ fun _ => 1
    simp only [mul_one, hρ] at this
    rw [this, kl_softmax_sum]
  have hz1 : HasFDerivAt logZ1 _ θ₀ := hasFDerivAt_logSumExp g1 _ fun i => (hg1 i).hasFDerivAt
  have hz1v : ∀ v, ∑ z, S.proposal θ₀ z * fderiv ℝ (g1 z.1) θ₀ v = fderiv ℝ logZ1 θ₀ v := by
    intro v
    rw [hz1.fderiv, hsum θ₀ fun z => fderiv ℝ (g1 z.1) θ₀ v]
    simp only [← Finset.sum_mul, hρ, one_mul, ContinuousLinearMap.sum_apply, ContinuousLinearMap.smul_apply, smul_eq_mul]
  have hM : M = fun θ => ∑ z : Z1 × N, Real.exp (g1 z.1 θ + ρ z.1 z.2 - logZ1 θ) * (logZ2 θ - logZ1 θ - Λ z.1 z.2 θ) := by
    funext θ
    refine (hsum θ fun z => logZ2 θ - logZ1 θ - Λ z.1 z.2 θ).symm.trans (Finset.sum_congr rfl fun z _ => ?_)
    rw [S.proposal_eq]
    rfl
  have hp : ∀ z : Z1 × N, HasFDerivAt (fun θ => g1 z.1 θ + ρ z.1 z.2 - logZ1 θ) (fderiv ℝ (g1 z.1) θ₀ - fderiv ℝ logZ1 θ₀) θ₀ :=
    fun z => ((hg1 z.1).hasFDerivAt.add_const _).sub hz1.differentiableAt.hasFDerivAt
  have ht : ∀ z : Z1 × N, HasFDerivAt (fun θ => logZ2 θ - logZ1 θ - Λ z.1 z.2 θ)
      (fderiv ℝ logZ2 θ₀ - fderiv ℝ logZ1 θ₀ - fderiv ℝ (Λ z.1 z.2) θ₀) θ₀ :=
    fun z => (hZ2.hasFDerivAt.sub hz1.differentiableAt.hasFDerivAt).sub (hΛ _ _).hasFDerivAt
  have hd := HasFDerivAt.fun_sum fun z (_ : z ∈ Finset.univ) => ((hp z).exp.mul (ht z))
  replace hd := hd.congr_of_eventuallyEq (f₁ := M) (by rw [hM]; exact Filter.EventuallyEq.rfl)
  refine ⟨hd.differentiableAt, ?_⟩
  have hc : ∀ i, normalised (fun k => px.lw k j θ₀) i = S.proposal θ₀ (e i) := by
    intro i
    have hx : ∀ k, Real.exp (px.lw k j θ₀) = Real.exp (κ + S.logZ1 θ₀) * S.proposal θ₀ (e k) := by
      intro k
      rw [S.proposal_eq, ← Real.exp_add, hlw]
      congr 1
      simp only [S]; ring
    simp only [normalised, hx]
    rw [← Finset.mul_sum, Equiv.sum_comp e (S.proposal θ₀), hone, mul_one]
    exact mul_div_cancel_left₀ _ (Real.exp_pos _).ne'
  have hg := hgrad j (fun i => fderiv ℝ (Λ (e i).1 (e i).2) θ₀) (fun i => fderiv ℝ (g1 (e i).1) θ₀)
    (fun i => match targ.kind with | .improper f => fderiv ℝ (f (dv targ.value) i j) θ₀ | _ => 0)
    (fun i => by
      rw [show lv i j = Λ (e i).1 (e i).2 from funext (hlv i)]
      exact (hΛ _ _).hasFDerivAt)
    (fun i => by
      rw [show prop.logProb i j = g1 (e i).1 from funext (hprop i)]
      exact (hg1 _).hasFDerivAt)
    (fun f hf i => by
      rcases htarg with ⟨hp, -⟩ | ⟨f', hf', hdf, -⟩
      · simp [isProper, hf] at hp
      · rw [hf] at hf'; cases hf'
        simp only [hf]
        exact (hdf i).hasFDerivAt)
  refine hg.congr_fderiv ?_
  have hz2 : (if isProper targ then (0 : E →L[ℝ] ℝ) else ∑ i, normalised (fun k => px.lw k j θ₀ + lv k j θ₀) i •
      (match targ.kind with | .improper f => fderiv ℝ (f (dv targ.value) i j) θ₀ | _ => 0)) = fderiv ℝ logZ2 θ₀ := by
    rcases htarg with ⟨hp, hz⟩ | ⟨f', hf', -, hz⟩
    · rw [if_pos hp, hz]
    · rw [if_neg (by simp [isProper, hf']), ← hz]
      simp only [hf']
  rw [hz2, hd.fderiv]
  ext v
  obtain ⟨K, hf⟩ : ∃ K, ∀ i, -(lv i j θ₀ - Real.log ((∑ k, Real.exp (lv k j θ₀)) / n)) =
      (logZ2 θ₀ - logZ1 θ₀ - Λ (e i).1 (e i).2 θ₀) + K :=
    ⟨Real.log ((∑ k, Real.exp (lv k j θ₀)) / n) - logZ2 θ₀ + logZ1 θ₀, fun i => by rw [hlv]; ring⟩
  have hbase : ∑ k, S.proposal θ₀ (e k) * ((logZ2 θ₀ - logZ1 θ₀ - Λ (e k).1 (e k).2 θ₀) + K) =
      (∑ z, S.proposal θ₀ z * (logZ2 θ₀ - logZ1 θ₀ - Λ z.1 z.2 θ₀)) + K := by
    simp only [mul_add, Finset.sum_add_distrib, ← Finset.sum_mul, Equiv.sum_comp e (S.proposal θ₀), hone, one_mul]
    rw [Equiv.sum_comp e fun z => S.proposal θ₀ z * (logZ2 θ₀ - logZ1 θ₀ - Λ z.1 z.2 θ₀)]
  simp only [hc, hf, hbase, ContinuousLinearMap.sum_apply, ContinuousLinearMap.smul_apply, smul_eq_mul,
    ContinuousLinearMap.sub_apply, ContinuousLinearMap.add_apply]
  rw [Equiv.sum_comp e fun z => S.proposal θ₀ z * (((logZ2 θ₀ - logZ1 θ₀ - Λ z.1 z.2 θ₀) + K -
    ((∑ z, S.proposal θ₀ z * (logZ2 θ₀ - logZ1 θ₀ - Λ z.1 z.2 θ₀)) + K)) * fderiv ℝ (g1 z.1) θ₀ v - fderiv ℝ (Λ z.1 z.2) θ₀ v)]
  have hP : ∀ z : Z1 × N, Real.exp (g1 z.1 θ₀ + ρ z.1 z.2 - logZ1 θ₀) = S.proposal θ₀ z := fun z => by
    rw [S.proposal_eq]; rfl
  simp only [hP]
  have e1 := hz1v v
  have e2 := hone θ₀
  generalize fderiv ℝ logZ1 θ₀ v = ζ1 at *
  generalize fderiv ℝ logZ2 θ₀ v = ζ2 at *
  generalize hB : ∑ z, S.proposal θ₀ z * (logZ2 θ₀ - logZ1 θ₀ - Λ z.1 z.2 θ₀) = B
  generalize logZ2 θ₀ - logZ1 θ₀ = δ at *
  have m1 : ∀ z : Z1 × N, S.proposal θ₀ z * ((δ - Λ z.1 z.2 θ₀ + K - (B + K)) * fderiv ℝ (g1 z.1) θ₀ v - fderiv ℝ (Λ z.1 z.2) θ₀ v) =
      S.proposal θ₀ z * (δ - Λ z.1 z.2 θ₀) * fderiv ℝ (g1 z.1) θ₀ v - B * (S.proposal θ₀ z * fderiv ℝ (g1 z.1) θ₀ v) -
      S.proposal θ₀ z * fderiv ℝ (Λ z.1 z.2) θ₀ v := fun z => by ring
  have m2 : ∀ z : Z1 × N, S.proposal θ₀ z * (ζ2 - ζ1 - fderiv ℝ (Λ z.1 z.2) θ₀ v) +
      (δ - Λ z.1 z.2 θ₀) * (S.proposal θ₀ z * (fderiv ℝ (g1 z.1) θ₀ v - ζ1)) =
      S.proposal θ₀ z * (δ - Λ z.1 z.2 θ₀) * fderiv ℝ (g1 z.1) θ₀ v - ζ1 * (S.proposal θ₀ z * (δ - Λ z.1 z.2 θ₀)) -
      S.proposal θ₀ z * fderiv ℝ (Λ z.1 z.2) θ₀ v + (ζ2 - ζ1) * S.proposal θ₀ z := fun z => by ring
  simp only [m1, m2, Finset.sum_add_distrib, Finset.sum_sub_distrib, ← Finset.mul_sum, e1, e2, hB]
  ring

/-- The example language: four particles, one parameter, currently 0. -/
noncomputable abbrev KlToy : Lang := CLang 4 1 ℝ (0 : ℝ) Unit Unit (fun _ _ _ _ _ => Real.log (1 / 2)) id

/-- Two points on each side, g1(z) = exp(z θ), uniform kernels and a uniform target. -/
noncomputable def klToy : KlStep (Fin 2) (Fin 2) ℝ :=
  ⟨fun z θ => z * θ, fun _ _ _ => Real.log (1 / 2), fun _ _ => 0, fun _ _ _ => Real.log (1 / 2)⟩

def klToyEquiv : Fin 4 ≃ Fin 2 × Fin 2 := (finProdFinEquiv (m := 2) (n := 2)).symm

/-- A result whose particles are the four points. -/
noncomputable def klToyOut : Out KlToy :=
  Out.mk Dict.empty (.tensor 0) .none .propose (some (.int 0)) none none (some
    { nodes := [], lv := .tensor fun i _ θ => klToy.lv θ (klToyEquiv i),
      lw := fun i _ θ => klToy.g1 (klToyEquiv i).1 θ + klToy.q (klToyEquiv i).1 (klToyEquiv i).2 θ,
      proposalTrace := (Dict.empty.insert "g0" (RV.mkImproper (L := KlToy) (fun _ i _ θ => klToy.g1 (klToyEquiv i).1 θ) () .sampled)).insert
        "g1" (RV.mk' (L := KlToy) () () .sampled true),
      targetTrace := (Dict.empty.insert "g1" (RV.mkImproper (L := KlToy) (fun _ i _ θ => klToy.g2 (klToyEquiv i).2 θ) () .reused)).insert
        "g0" (RV.mk' (L := KlToy) () () .reused true),
      forwardTrace := none }) []

theorem klToy_kernels : klToy.Kernels := by
  have : ∑ _z : Fin 2, Real.exp (Real.log (1 / 2)) = 1 := by
    rw [Real.exp_log (by norm_num)]; simp
  exact ⟨fun _ _ => this, fun _ _ => this⟩

theorem klToy_smooth (θ : ℝ) : klToy.Smooth θ := by
  refine ⟨fun z => ?_, fun _ _ => ?_, fun _ => ?_, fun _ _ => ?_⟩
  · exact (differentiableAt_id).const_mul _
  · exact differentiableAt_const _
  · exact differentiableAt_const _
  · exact differentiableAt_const _

theorem klToy_runs : ∃ l, nvoRkl klToyOut = .ok l := by
  have h0 : ("g" ++ toString (0 : Int) : String) = "g0" := by decide +kernel
  have h1 : ("g" ++ toString ((0 : Int) + 1) : String) = "g1" := by decide +kernel
  simp only [nvoRkl, readRkl, klToyOut, Out.px_mk, Out.ix_mk, h0, h1, lookup, Dict.get?_insert, bind, Except.bind]
  simp [gradZ2, isProper, RV.mkImproper, evalNrep, pure, Except.pure]

theorem klToy_enumerates : Enumerates klToy klToyEquiv klToyOut 0 := by
  have h0 : ("g" ++ toString (0 : Int) : String) = "g0" := by decide +kernel
  have h1 : ("g" ++ toString ((0 : Int) + 1) : String) = "g1" := by decide +kernel
  refine ⟨_, 0, _, RV.mkImproper (L := KlToy) (fun _ i _ θ => klToy.g1 (klToyEquiv i).1 θ) () .sampled,
    RV.mkImproper (L := KlToy) (fun _ i _ θ => klToy.g2 (klToyEquiv i).2 θ) () .reused, rfl, rfl, rfl, ?_, ?_, ⟨0, fun i => ?_⟩,
    fun i θ => rfl, ?_, Or.inr ⟨_, rfl, ?_⟩⟩
  · rw [h0]; simp only [Dict.get?_insert]; simp
  · rw [h1]; simp only [Dict.get?_insert]; simp
  · show klToy.g1 (klToyEquiv i).1 0 + klToy.q (klToyEquiv i).1 (klToyEquiv i).2 0 = _
    ring
  · intro i θ; rfl
  · intro i θ; rfl

/-- The hypotheses of C58_metric_gradient hold for the same result, with the second variable as noise. -/
example : ∃ l, nvoRkl klToyOut = .ok l ∧ ∃ M' : ℝ →L[ℝ] ℝ, HasFDerivAt (l 0) (M' + fderiv ℝ (fun θ => Real.log (∑ z1, Real.exp
    (klToy.g1 z1 θ))) 0) 0 := by
  have h0 : ("g" ++ toString (0 : Int) : String) = "g0" := by decide +kernel
  have h1 : ("g" ++ toString ((0 : Int) + 1) : String) = "g1" := by decide +kernel
  obtain ⟨l, hl⟩ := klToy_runs
  refine ⟨l, hl, _, (C58_metric_gradient klToy.g1 (fun _ _ => Real.log (1 / 2)) (fun z1 ε θ => klToy.lv θ (z1, ε)) (fun _ => 0)
    (fun z => klToy_kernels.1 0 z) (fun z => (klToy_smooth 0).1 z) (fun z1 ε => ?_) (differentiableAt_const _) klToyEquiv hl 0
    ⟨_, 0, _, RV.mkImproper (L := KlToy) (fun _ i _ θ => klToy.g1 (klToyEquiv i).1 θ) () .sampled,
      RV.mkImproper (L := KlToy) (fun _ i _ θ => klToy.g2 (klToyEquiv i).2 θ) () .reused, rfl, rfl, rfl, ?_, ?_, ⟨0, fun i => ?_⟩,
      fun i θ => rfl, fun i θ => rfl, Or.inr ⟨_, rfl, fun i => ?_, ?_⟩⟩).2⟩
  · obtain ⟨a, b, c, d⟩ := klToy_smooth 0
    exact (((c ε).add (d ε z1)).sub (a z1)).sub (b z1 ε)
  · rw [h0]; simp only [Dict.get?_insert]; simp
  · rw [h1]; simp only [Dict.get?_insert]; simp
  · show klToy.g1 (klToyEquiv i).1 0 + klToy.q (klToyEquiv i).1 (klToyEquiv i).2 0 = _
    simp [klToy]
  · exact differentiableAt_const _
  · have : ∀ i, fderiv ℝ (fun θ => klToy.g2 (klToyEquiv i).2 θ) 0 = 0 := fun i => by simp [klToy]
    simp [this]

/-- C58, an instance: the two joint distributions agree at the current parameter, the divergence has derivative 0 there, and
nvo_rkl has derivative 1/2. -/
theorem C58_leaves_optimum : ∃ l, nvoRkl klToyOut = .ok l ∧ klToy.kl 0 = 0 ∧ HasFDerivAt klToy.kl (0 : ℝ →L[ℝ] ℝ) 0 ∧
    HasFDerivAt (l 0) ((1 / 2 : ℝ) • ContinuousLinearMap.id ℝ ℝ) 0 := by
  obtain ⟨l, hl⟩ := klToy_runs
  have hopt : ∀ z, klToy.proposal 0 z = klToy.target 0 z := by
    intro z; simp [KlStep.proposal, KlStep.target, klToy]
  obtain ⟨a, b, c⟩ := C58_at_optimum klToy klToy_kernels (klToy_smooth 0) klToyEquiv hl 0 klToy_enumerates hopt
  obtain ⟨d, -, -⟩ := C58_kl_gradient klToy klToy_kernels (klToy_smooth 0) klToyEquiv hl 0 klToy_enumerates
  refine ⟨l, hl, a, b ▸ d.hasFDerivAt, c.congr_fderiv ?_⟩
  have hz : HasFDerivAt klToy.logZ1 _ (0 : ℝ) := hasFDerivAt_logSumExp klToy.g1 _ fun i =>
    ((hasFDerivAt_id (𝕜 := ℝ) (0 : ℝ)).const_mul (i : ℝ) : HasFDerivAt (klToy.g1 i) _ 0)
  rw [hz.fderiv]
  ext
  simp [klToy]

end Verif
