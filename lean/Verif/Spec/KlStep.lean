import Mathlib.Analysis.Calculus.FDeriv.Basic
import Mathlib.Analysis.SpecialFunctions.Log.Basic
import Mathlib.Algebra.BigOperators.Group.Finset.Sigma
/-
One step of nested variational inference over finite spaces, written down without reference to the code: an unnormalised
density g1 over Z1, a forward kernel q, an unnormalised density g2 over Z2 and a reverse kernel r, all depending on parameters,
and the Kullback-Leibler divergence between the two joint distributions that the step compares.
-/
namespace Verif.Spec

/-- Log densities of one step, as functions of the parameters. -/
structure KlStep (Z1 Z2 E : Type) where
  g1 : Z1 → E → ℝ
  q : Z1 → Z2 → E → ℝ
  g2 : Z2 → E → ℝ
  r : Z2 → Z1 → E → ℝ

namespace KlStep
variable {Z1 Z2 E : Type} [Fintype Z1] [Fintype Z2] (S : KlStep Z1 Z2 E)

/-- The kernels are normalised, whatever the parameters. -/
def Kernels : Prop := (∀ θ z1, ∑ z2, Real.exp (S.q z1 z2 θ) = 1) ∧ (∀ θ z2, ∑ z1, Real.exp (S.r z2 z1 θ) = 1)

/-- Every log density is differentiable at `θ₀`. -/
def Smooth [NormedAddCommGroup E] [NormedSpace ℝ E] (θ₀ : E) : Prop :=
  (∀ z1, DifferentiableAt ℝ (S.g1 z1) θ₀) ∧ (∀ z1 z2, DifferentiableAt ℝ (S.q z1 z2) θ₀) ∧
  (∀ z2, DifferentiableAt ℝ (S.g2 z2) θ₀) ∧ (∀ z2 z1, DifferentiableAt ℝ (S.r z2 z1) θ₀)

noncomputable def logZ1 (θ : E) : ℝ := Real.log (∑ z1, Real.exp (S.g1 z1 θ))
noncomputable def logZ2 (θ : E) : ℝ := Real.log (∑ z2, Real.exp (S.g2 z2 θ))

/-- g1(z1) q(z2 | z1) / Z1 -/
noncomputable def proposal (θ : E) (z : Z1 × Z2) : ℝ :=
  Real.exp (S.g1 z.1 θ) * Real.exp (S.q z.1 z.2 θ) / ∑ z1, Real.exp (S.g1 z1 θ)

/-- g2(z2) r(z1 | z2) / Z2 -/
noncomputable def target (θ : E) (z : Z1 × Z2) : ℝ :=
  Real.exp (S.g2 z.2 θ) * Real.exp (S.r z.2 z.1 θ) / ∑ z2, Real.exp (S.g2 z2 θ)

/-- KL(g1 q / Z1 || g2 r / Z2) -/
noncomputable def kl (θ : E) : ℝ := ∑ z, S.proposal θ z * Real.log (S.proposal θ z / S.target θ z)

/-- The incremental log weight of the step. -/
def lv (θ : E) (z : Z1 × Z2) : ℝ := S.g2 z.2 θ + S.r z.2 z.1 θ - S.g1 z.1 θ - S.q z.1 z.2 θ

end KlStep
end Verif.Spec
