import Verif.Spec.AnnealPop
/-
One chain of annealed importance sampling: the joint law of its log weight and its last value.
-/
namespace Verif
open Spec MeasureTheory
open scoped ENNReal

namespace AnnealSpec
variable {X D : Type} [MeasurableSpace X]

/-- Log density of g(k), where g(0) is the initial distribution. -/
def at' (S : AnnealSpec X D) (lp : D → X → ℝ) : Nat → X → ℝ
  | 0 => lp S.d0
  | k + 1 => lp (S.g k)

/-- The increment of the log weight in a step from `x` to `y`. -/
def logIncrement (S : AnnealSpec X D) (lp : D → X → ℝ) (k : Nat) (x y : X) : ℝ :=
  (S.at' lp (k + 1) y + lp (S.r k y) x) - (S.at' lp k x + lp (S.f k x) y)

/-- The expectation of a function of the log weight and the last value of a chain with `K` steps. -/
noncomputable def law (S : AnnealSpec X D) (μ : Measure X) (lp : D → X → ℝ) : Nat → (ℝ → X → ℝ≥0∞) → ℝ≥0∞
  | 0, φ => ∫⁻ x, dens (lp S.d0 x) * φ 0 x ∂μ
  | K + 1, φ => S.law μ lp K fun w x => ∫⁻ y, dens (lp (S.f K x) y) * φ (w + S.logIncrement lp K x y) y ∂μ

end AnnealSpec
end Verif
