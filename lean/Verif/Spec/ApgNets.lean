import Mathlib.Probability.Distributions.Gaussian.Real
import Mathlib.MeasureTheory.Constructions.Pi
import Verif.Model.Affine
/-
The generative model of the bouncing shapes, by its density.
-/
namespace Verif.Spec.Bouncing
open MeasureTheory ProbabilityTheory
open scoped ENNReal
variable {K zd T fp dp : Nat}

/-- The probability of a lit pixel for the brightness `x`: in exact arithmetic 10⁻⁹ more, but at least 2⁻²³ and at most 1 - 2⁻²³. -/
noncomputable def lit (x : ℝ) : ℝ := max (1 / 2 ^ 23) (min (x + 1 / 10 ^ 9) (1 - 1 / 2 ^ 23))

/-- The shapes pasted at their positions; where shapes overlap, brightness adds up. -/
noncomputable def picture (shapes : Fin K → Img dp) (z : Fin T → Fin K → Fin 2 → ℝ) : Fin T → Img fp := fun t i j =>
  ∑ k, digitToFrame (S := Unit) (B := Unit) fp dp (fun _ _ k => shapes k) (fun _ _ t k => (z t k 0, z t k 1)) () () t k i j

/-- Density of the frames: each pixel `v` contributes `p ^ v * (1 - p) ^ (1 - v)`. -/
noncomputable def likelihood (frames brightness : Fin T → Img fp) : ℝ :=
  ∏ t, ∏ i, ∏ j, lit (brightness t i j) ^ frames t i j * (1 - lit (brightness t i j)) ^ (1 - frames t i j)

/-- Density of the positions: a Gaussian random walk of each coordinate of each object, the first position standard normal, steps of
standard deviation 1/5. -/
noncomputable def walk (z : Fin T → Fin K → Fin 2 → ℝ) : ℝ≥0∞ :=
  ∏ t : Fin T, ∏ k, ∏ i, if (t : Nat) = 0 then gaussianPDF 0 1 (z t k i)
    else gaussianPDF (z ⟨t - 1, (Nat.sub_le _ _).trans_lt t.2⟩ k i) ((1 / 5) ^ 2) (z t k i)

/-- Density of the appearance: standard normal. -/
noncomputable def looks (w : Fin K → Fin zd → ℝ) : ℝ≥0∞ := ∏ k, ∏ i, gaussianPDF 0 1 (w k i)

/-- Density of positions, appearance and frames; `decoder` makes shapes from appearance. -/
noncomputable def density (decoder : (Fin zd → ℝ) → Img dp) (frames : Fin T → Img fp) (z : Fin T → Fin K → Fin 2 → ℝ) (w : Fin K → Fin zd → ℝ) : ℝ≥0∞ :=
  walk z * looks w * ENNReal.ofReal (likelihood frames (picture (fun k => decoder (w k)) z))

/-- Density of the frames. -/
noncomputable def evidence (K : Nat) (decoder : (Fin zd → ℝ) → Img dp) (frames : Fin T → Img fp) : ℝ≥0∞ :=
  ∫⁻ z : Fin T → Fin K → Fin 2 → ℝ, ∫⁻ w : Fin K → Fin zd → ℝ, density decoder frames z w

end Verif.Spec.Bouncing
