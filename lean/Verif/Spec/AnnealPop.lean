import Verif.Spec.Annealing
import Verif.Spec.Population
/-
Annealing models of populations.
-/
namespace Verif

/-- The parts of an annealing model, for a single particle: log densities of the initial distribution, of the targets (not
necessarily normalised), of the forward and of the reverse kernels. -/
structure AnnealSpec (X D : Type) where
  d0 : D
  g : Nat → D
  f : Nat → X → D
  r : Nat → X → D

open Spec MeasureTheory
open scoped ENNReal

/-- Every particle of batch element `j` of the tensor model `M` is a particle of `S`. -/
structure Vectorises {n b : Nat} {X D : Type} [MeasurableSpace X] {μ : Measure X} {lp : D → X → ℝ} (M : AnnealModel (PopLang n b X D μ lp))
    (S : AnnealSpec X D) (j : Fin b) : Prop where
  d0 : ∀ s, (M.d0 s j).1 = S.d0
  g : ∀ s k v, M.g k v s j = lp (S.g k) (v s j)
  f : ∀ s k v, (M.f k v s j).1 = S.f k (v s j)
  r : ∀ s k v, (M.r k v s j).1 = S.r k (v s j)

end Verif
