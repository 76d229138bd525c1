import Mathlib.MeasureTheory.Constructions.Pi
import Mathlib.MeasureTheory.Measure.Lebesgue.Basic
import Mathlib.MeasureTheory.Measure.WithDensity
import Verif.Model.Resampler
import Verif.Spec.Lanes
/-
Populations of particles: expectations over all draws and all offsets of the resamplers.
-/
namespace Verif.Spec
open MeasureTheory
open scoped ENNReal

section
variable (n b : Nat) (X D : Type) [MeasurableSpace X] (μ : Measure X) (lp : D → X → ℝ)

/-- Tensors with a sample and a batch dimension (`TLang`), of values with base measure `μ`. A distribution has a normalised distribution for each
particle and batch element, and `log_prob` works elementwise. -/
@[reducible] noncomputable def PopLang : Lang :=
  TLang n b X (Fin n → Fin b → { d : D // Normalised μ lp d }) fun d v s j => lp (d s j).1 (v s j)

variable {n b X D μ lp}

/-- The expectation of `g` over the draws and offsets. The elements of a draw are independent, an element has the density
`exp (lp d x)` with respect to `μ`. The offsets of `torch.rand` are independent and uniform on [0, 1). -/
noncomputable def expectT {α : Type} : Comp (PopLang n b X D μ lp) α → (α → ℝ≥0∞) → ℝ≥0∞
  | .ret a, g => g a
  | .draw d _ k, g => ∫⁻ v : Fin n → Fin b → X, expectT (k v) g
      ∂Measure.pi fun s => Measure.pi fun j => μ.withDensity fun x => dens (lp (d s j).1 x)
  | .rand k, g => ∫⁻ u : Fin b → Set.Ico (0 : ℝ) 1, expectT (k u) g ∂Measure.pi fun _ => volume.comap Subtype.val

/-- The particle `s` of batch element `j`. -/
noncomputable def particleLane (s : Fin n) (j : Fin b) : Lane (PopLang n b X D μ lp) lp where
  v x := x s j
  w := { toFun := fun x => x s j, map_zero' := rfl, map_add' := fun _ _ => rfl }
  d x := (x s j).1
  logProb _ _ := rfl
  detachV _ := rfl
  detachW _ := rfl

end
end Verif.Spec
