import Mathlib.Probability.Distributions.Gaussian.Multivariate
import Mathlib.MeasureTheory.Integral.Prod
import Mathlib.LinearAlgebra.Matrix.PosDef
import Mathlib.Data.Matrix.ColumnRowPartitioned
import Verif.Model.Propagate
/-
C35: exact propagation of a normal distribution through a linear map with normal noise.
-/
namespace Verif
open Matrix MeasureTheory ProbabilityTheory WithLp Complex
open scoped RealInnerProductSpace

namespace Spec

/-- The law of a multivariate normal distribution (Mathlib's multivariate Gaussian measure). -/
noncomputable def law {ι : Type} [Fintype ι] [DecidableEq ι] (d : MVN ι) : Measure (EuclideanSpace ℝ ι) :=
  multivariateGaussian (toLp 2 d.loc) d.cov

/-- The law of `(x, e)`, with `x` distributed as `N` and independent normal noise `e` of mean zero. -/
noncomputable def source {n m : Nat} (N : MVN (Fin n)) (B : Matrix (Fin m) (Fin m) ℝ) :
    Measure (EuclideanSpace ℝ (Fin n) × EuclideanSpace ℝ (Fin m)) :=
  (law N).prod (law ⟨0, B⟩)

/-- `F x + t + e` -/
noncomputable def pushed {n m : Nat} (F : Matrix (Fin m) (Fin n) ℝ) (t : Fin m → ℝ)
    (p : EuclideanSpace ℝ (Fin n) × EuclideanSpace ℝ (Fin m)) : Fin m → ℝ :=
  F *ᵥ ofLp p.1 + t + ofLp p.2

end Spec

section
variable {ι κ μ : Type} [Fintype ι] [DecidableEq ι] [Fintype κ] [DecidableEq κ] [Fintype μ] [DecidableEq μ]

theorem inner_eq_dot (x y : EuclideanSpace ℝ ι) : ⟪x, y⟫ = ofLp x ⬝ᵥ ofLp y := by
  simp [PiLp.inner_apply, dotProduct, mul_comm]

theorem dot_conj (G : Matrix μ ι ℝ) (A : Matrix ι ι ℝ) (z : μ → ℝ) :
    z ⬝ᵥ (G * A * Gᵀ) *ᵥ z = (Gᵀ *ᵥ z) ⬝ᵥ A *ᵥ (Gᵀ *ᵥ z) := by
  rw [← mulVec_mulVec, ← mulVec_mulVec, dotProduct_mulVec z G, ← mulVec_transpose]

/-- The law of an affine image of two independent normal vectors. -/
theorem map_affine (G : Matrix μ ι ℝ) (H : Matrix μ κ ℝ) (c : μ → ℝ) (a : ι → ℝ) (b : κ → ℝ)
    (A : Matrix ι ι ℝ) (B : Matrix κ κ ℝ) (hA : A.PosSemidef) (hB : B.PosSemidef)
    (hC : (G * A * Gᵀ + H * B * Hᵀ).PosSemidef) :
    ((multivariateGaussian (toLp 2 a) A).prod (multivariateGaussian (toLp 2 b) B)).map
        (fun p => toLp 2 (G *ᵥ ofLp p.1 + H *ᵥ ofLp p.2 + c)) =
      multivariateGaussian (toLp 2 (G *ᵥ a + H *ᵥ b + c)) (G * A * Gᵀ + H * B * Hᵀ) := by
  have hm : Measurable (fun p : EuclideanSpace ℝ ι × EuclideanSpace ℝ κ =>
      (toLp 2 (G *ᵥ ofLp p.1 + H *ᵥ ofLp p.2 + c) : EuclideanSpace ℝ μ)) := by
    apply Continuous.measurable
    fun_prop
  have : IsProbabilityMeasure (((multivariateGaussian (toLp 2 a) A).prod (multivariateGaussian (toLp 2 b) B)).map
        (fun p => (toLp 2 (G *ᵥ ofLp p.1 + H *ᵥ ofLp p.2 + c) : EuclideanSpace ℝ μ))) :=
    Measure.isProbabilityMeasure_map hm.aemeasurable
  apply Measure.ext_of_charFun
  ext z
  rw [charFun_multivariateGaussian hC, charFun_apply, integral_map hm.aemeasurable (by fun_prop)]
  have h1 : ∀ p : EuclideanSpace ℝ ι × EuclideanSpace ℝ κ,
      cexp ((⟪(toLp 2 (G *ᵥ ofLp p.1 + H *ᵥ ofLp p.2 + c) : EuclideanSpace ℝ μ), z⟫ : ℝ) * I) =
        cexp ((c ⬝ᵥ ofLp z : ℝ) * I) *
          (cexp ((⟪p.1, toLp 2 (Gᵀ *ᵥ ofLp z)⟫ : ℝ) * I) * cexp ((⟪p.2, toLp 2 (Hᵀ *ᵥ ofLp z)⟫ : ℝ) * I)) := by
    intro p
    rw [← Complex.exp_add, ← Complex.exp_add, inner_eq_dot, inner_eq_dot, inner_eq_dot]
    congr 1
    simp only [mulVec_transpose, ← dotProduct_mulVec, dotProduct_comm (ofLp p.1),
      dotProduct_comm (ofLp p.2), dotProduct_comm _ (ofLp z), dotProduct_add]
    push_cast
    ring
  simp_rw [h1]
  rw [integral_const_mul, integral_prod_mul (fun x : EuclideanSpace ℝ ι => cexp ((⟪x, toLp 2 (Gᵀ *ᵥ ofLp z)⟫ : ℝ) * I))
    (fun x : EuclideanSpace ℝ κ => cexp ((⟪x, toLp 2 (Hᵀ *ᵥ ofLp z)⟫ : ℝ) * I)), ← charFun_apply, ← charFun_apply,
    charFun_multivariateGaussian hA, charFun_multivariateGaussian hB, ← Complex.exp_add, ← Complex.exp_add]
  congr 1
  simp only [inner_eq_dot]
  have e1 : ofLp z ⬝ᵥ (G * A * Gᵀ + H * B * Hᵀ) *ᵥ ofLp z =
      (Gᵀ *ᵥ ofLp z) ⬝ᵥ A *ᵥ (Gᵀ *ᵥ ofLp z) + (Hᵀ *ᵥ ofLp z) ⬝ᵥ B *ᵥ (Hᵀ *ᵥ ofLp z) := by
    rw [add_mulVec, dotProduct_add, dot_conj, dot_conj]
  have e2 : ofLp z ⬝ᵥ (G *ᵥ a + H *ᵥ b + c) =
      (Gᵀ *ᵥ ofLp z) ⬝ᵥ a + (Hᵀ *ᵥ ofLp z) ⬝ᵥ b + c ⬝ᵥ ofLp z := by
    rw [dotProduct_add, dotProduct_add, dotProduct_mulVec, dotProduct_mulVec, mulVec_transpose, mulVec_transpose,
      dotProduct_comm c]
  rw [e1, e2]
  push_cast
  ring

/-- The covariance of an affine image. -/
theorem conj_posSemidef (G : Matrix μ ι ℝ) (H : Matrix μ κ ℝ) {A : Matrix ι ι ℝ} {B : Matrix κ κ ℝ}
    (hA : A.PosSemidef) (hB : B.PosSemidef) : (G * A * Gᵀ + H * B * Hᵀ).PosSemidef := by
  have h1 := hA.mul_mul_conjTranspose_same G
  have h2 := hB.mul_mul_conjTranspose_same H
  rw [conjTranspose_eq_transpose_of_trivial] at h1 h2
  exact h1.add h2

theorem posSemidef_transpose {A : Matrix ι ι ℝ} (hA : A.PosSemidef) : Aᵀ = A := by
  have := hA.isHermitian
  rwa [IsHermitian, conjTranspose_eq_transpose_of_trivial] at this

end

section
variable {n m : Nat} (N : MVN (Fin n)) (F : Matrix (Fin m) (Fin n) ℝ) (t : Fin m → ℝ) (B : Matrix (Fin m) (Fin m) ℝ)

theorem cov_marginal {A : Matrix (Fin n) (Fin n) ℝ} (hA : A.PosSemidef) :
    F * A * Fᵀ + 1 * B * (1 : Matrix (Fin m) (Fin m) ℝ)ᵀ = B + F * (F * A)ᵀ := by
  simp [transpose_mul, posSemidef_transpose hA, Matrix.mul_assoc, add_comm]

abbrev rxI : Matrix (Fin n ⊕ Fin m) (Fin n) ℝ := fromRows 1 F
abbrev reI (n m : Nat) : Matrix (Fin n ⊕ Fin m) (Fin m) ℝ := fromRows 0 1
abbrev rIx : Matrix (Fin m ⊕ Fin n) (Fin n) ℝ := fromRows F 1
abbrev rIe (n m : Nat) : Matrix (Fin m ⊕ Fin n) (Fin m) ℝ := fromRows 1 0

theorem cov_joint {A : Matrix (Fin n) (Fin n) ℝ} (hA : A.PosSemidef) :
    (rxI F) * A * (rxI F)ᵀ + (reI n m) * B * (reI n m)ᵀ =
      fromBlocks A (F * A)ᵀ (F * A) (B + F * (F * A)ᵀ) := by
  rw [transpose_fromRows, transpose_fromRows, fromRows_mul 1, fromRows_mul 0, fromRows_mul_fromCols,
    fromRows_mul_fromCols, fromBlocks_add]
  simp [transpose_mul, posSemidef_transpose hA, Matrix.mul_assoc, add_comm]

theorem cov_swapped {A : Matrix (Fin n) (Fin n) ℝ} (hA : A.PosSemidef) :
    (rIx F) * A * (rIx F)ᵀ + (rIe n m) * B * (rIe n m)ᵀ =
      fromBlocks (B + F * (F * A)ᵀ) (F * A) (F * A)ᵀ A := by
  rw [transpose_fromRows, transpose_fromRows, fromRows_mul F, fromRows_mul 1 0, fromRows_mul_fromCols,
    fromRows_mul_fromCols, fromBlocks_add]
  simp [transpose_mul, posSemidef_transpose hA, Matrix.mul_assoc, add_comm]

variable (hA : N.cov.PosSemidef) (hB : B.PosSemidef)
include hA hB

/-- C35, default order: the result is exactly the law of `(x, F x + t + e)`; in particular its mean and covariance are
the exact ones. -/
theorem C35_joint : ∃ d, propagate N F t B false false = .joint d ∧
    (Spec.source N B).map (fun p => toLp 2 (Sum.elim (ofLp p.1) (Spec.pushed F t p))) = Spec.law d := by
  refine ⟨_, rfl, ?_⟩
  have h := map_affine (rxI F) (reI n m) (Sum.elim (0 : Fin n → ℝ) t) N.loc 0 N.cov B hA hB (conj_posSemidef _ _ hA hB)
  rw [cov_joint F B hA] at h
  have e1 : ∀ x : Fin n → ℝ, ∀ e : Fin m → ℝ,
      (rxI F) *ᵥ x + (reI n m) *ᵥ e + Sum.elim (0 : Fin n → ℝ) t = Sum.elim x (F *ᵥ x + t + e) := by
    intro x e
    ext i
    cases i <;> simp [fromRows_mulVec, add_right_comm]
  simp only [e1] at h
  have e2 : F *ᵥ N.loc + t + 0 = t + F *ᵥ N.loc := by rw [add_zero, add_comm]
  rw [e2] at h
  exact h

/-- C35, `marginalize=True`: exactly the law of `F x + t + e`. -/
theorem C35_marginal (rev : Bool) : ∃ d, propagate N F t B true rev = .marginal d ∧
    (Spec.source N B).map (fun p => toLp 2 (Spec.pushed F t p)) = Spec.law d := by
  refine ⟨_, rfl, ?_⟩
  have h := map_affine F 1 t N.loc 0 N.cov B hA hB (conj_posSemidef _ _ hA hB)
  rw [cov_marginal F B hA] at h
  have e1 : ∀ x : Fin n → ℝ, ∀ e : Fin m → ℝ,
      F *ᵥ x + (1 : Matrix (Fin m) (Fin m) ℝ) *ᵥ e + t = F *ᵥ x + t + e := by
    intro x e; simp [add_right_comm]
  simp only [e1] at h
  have e2 : F *ᵥ N.loc + t + 0 = t + F *ᵥ N.loc := by rw [add_zero, add_comm]
  rw [e2] at h
  exact h

/-- C35, `reverse_order=True`: exactly the law of `(F x + t + e, x)`. -/
theorem C35_reverse : ∃ d, propagate N F t B false true = .swapped d ∧
    (Spec.source N B).map (fun p => toLp 2 (Sum.elim (Spec.pushed F t p) (ofLp p.1))) = Spec.law d := by
  refine ⟨_, rfl, ?_⟩
  have h := map_affine (rIx F) (rIe n m) (Sum.elim t (0 : Fin n → ℝ)) N.loc 0 N.cov B hA hB (conj_posSemidef _ _ hA hB)
  rw [cov_swapped F B hA] at h
  have e1 : ∀ x : Fin n → ℝ, ∀ e : Fin m → ℝ,
      (rIx F) *ᵥ x + (rIe n m) *ᵥ e + Sum.elim t (0 : Fin n → ℝ) = Sum.elim (F *ᵥ x + t + e) x := by
    intro x e
    ext i
    cases i <;> simp [fromRows_mulVec, add_right_comm]
  simp only [e1] at h
  have e2 : F *ᵥ N.loc + t + 0 = t + F *ᵥ N.loc := by rw [add_zero, add_comm]
  rw [e2] at h
  exact h

/-- C35: the covariances returned are symmetric and positive semidefinite. -/
theorem C35_posSemidef (marg rev : Bool) :
    match propagate N F t B marg rev with
    | .marginal d => d.covᵀ = d.cov ∧ d.cov.PosSemidef
    | .joint d => d.covᵀ = d.cov ∧ d.cov.PosSemidef
    | .swapped d => d.covᵀ = d.cov ∧ d.cov.PosSemidef := by
  have h1 := conj_posSemidef F (1 : Matrix (Fin m) (Fin m) ℝ) hA hB
  have h2 := conj_posSemidef (rxI F) (reI n m) hA hB
  have h3 := conj_posSemidef (rIx F) (rIe n m) hA hB
  rw [cov_marginal F B hA] at h1
  rw [cov_joint F B hA] at h2
  rw [cov_swapped F B hA] at h3
  cases marg <;> cases rev
  · exact ⟨posSemidef_transpose h2, h2⟩
  · exact ⟨posSemidef_transpose h3, h3⟩
  · exact ⟨posSemidef_transpose h1, h1⟩
  · exact ⟨posSemidef_transpose h1, h1⟩

end

/-- C35: with positive definite inputs (which torch's MultivariateNormal demands) the results are positive definite
again, so constructing them does not raise. -/
theorem C35_posDef {n m : Nat} (N : MVN (Fin n)) (F : Matrix (Fin m) (Fin n) ℝ) (t : Fin m → ℝ)
    (B : Matrix (Fin m) (Fin m) ℝ) (hA : N.cov.PosDef) (hB : B.PosDef) (marg rev : Bool) :
    match propagate N F t B marg rev with
    | .marginal d => d.cov.PosDef
    | .joint d => d.cov.PosDef
    | .swapped d => d.cov.PosDef := by
  have h0 := C35_posSemidef N F t B hA.posSemidef hB.posSemidef marg rev
  have key : ∀ {μ : Type} [Fintype μ] [DecidableEq μ] (G : Matrix μ (Fin n) ℝ) (H : Matrix μ (Fin m) ℝ),
      (∀ z, Gᵀ *ᵥ z = 0 → Hᵀ *ᵥ z = 0 → z = 0) → (G * N.cov * Gᵀ + H * B * Hᵀ).PosDef := by
    intro μ _ _ G H hz
    refine PosDef.of_dotProduct_mulVec_pos (conj_posSemidef G H hA.posSemidef hB.posSemidef).isHermitian ?_
    intro z hne
    rw [star_trivial, add_mulVec, dotProduct_add, dot_conj, dot_conj]
    have a1 := hA.posSemidef.dotProduct_mulVec_nonneg (Gᵀ *ᵥ z)
    have a2 := hB.posSemidef.dotProduct_mulVec_nonneg (Hᵀ *ᵥ z)
    rw [star_trivial] at a1 a2
    by_cases g : Gᵀ *ᵥ z = 0
    · have h : Hᵀ *ᵥ z ≠ 0 := fun h => hne (hz z g h)
      have := hB.dotProduct_mulVec_pos h
      rw [star_trivial] at this
      exact add_pos_of_nonneg_of_pos a1 this
    · have := hA.dotProduct_mulVec_pos g
      rw [star_trivial] at this
      exact add_pos_of_pos_of_nonneg this a2
  have h1 := key F 1 (by intro z _ h; simpa using h)
  have h2 := key (rxI F) (reI n m) (by
    intro z h1 h2
    rw [transpose_fromRows, fromCols_mulVec] at h1 h2
    simp only [transpose_zero, zero_mulVec, transpose_one, one_mulVec, zero_add] at h1 h2
    rw [h2, mulVec_zero, add_zero] at h1
    ext i
    cases i with
    | inl i => exact congrFun h1 i
    | inr i => exact congrFun h2 i)
  have h3 := key (rIx F) (rIe n m) (by
    intro z h1 h2
    rw [transpose_fromRows, fromCols_mulVec] at h1 h2
    simp only [transpose_zero, zero_mulVec, transpose_one, one_mulVec, add_zero] at h1 h2
    rw [h2, mulVec_zero, zero_add] at h1
    ext i
    cases i with
    | inl i => exact congrFun h2 i
    | inr i => exact congrFun h1 i)
  rw [cov_marginal F B hA.posSemidef] at h1
  rw [cov_joint F B hA.posSemidef] at h2
  rw [cov_swapped F B hA.posSemidef] at h3
  cases marg <;> cases rev
  · exact h2
  · exact h3
  · exact h1
  · exact h1

/-- One dimension: x ~ N(1, 4), y = 3 x + 5 + e, e ~ N(0, 2): mean (1, 8), covariance ((4, 12), (12, 38)). -/
example : ∃ d, propagate (n := 1) (m := 1) ⟨![1], !![4]⟩ !![3] ![5] !![2] false false = .joint d ∧
    d.loc (.inl 0) = 1 ∧ d.loc (.inr 0) = 8 ∧ d.cov (.inl 0) (.inl 0) = 4 ∧ d.cov (.inl 0) (.inr 0) = 12 ∧
    d.cov (.inr 0) (.inl 0) = 12 ∧ d.cov (.inr 0) (.inr 0) = 38 := by
  refine ⟨_, rfl, ?_⟩
  simp only [catVec, catBlocks, Sum.elim_inl, Sum.elim_inr, fromBlocks_apply₁₁, fromBlocks_apply₁₂,
    fromBlocks_apply₂₁, fromBlocks_apply₂₂, Pi.add_apply, Matrix.add_apply, mulVec, dotProduct, Matrix.mul_apply,
    transpose_apply, Finset.univ_unique, Finset.sum_singleton, Fin.default_eq_zero, of_apply, cons_val_zero,
    cons_val_fin_one]
  norm_num

/-- The hypotheses of C35 hold for it. -/
example : (!![4] : Matrix (Fin 1) (Fin 1) ℝ).PosSemidef ∧ (!![2] : Matrix (Fin 1) (Fin 1) ℝ).PosSemidef := by
  have h : ∀ c : ℝ, 0 ≤ c → (!![c] : Matrix (Fin 1) (Fin 1) ℝ).PosSemidef := by
    intro c hc
    have : (!![c] : Matrix (Fin 1) (Fin 1) ℝ) = diagonal fun _ => c := by ext i j; fin_cases i; fin_cases j; rfl
    rw [this]
    exact PosSemidef.diagonal fun _ => hc
  exact ⟨h 4 (by norm_num), h 2 (by norm_num)⟩

end Verif
