import Verif.Model.Objectives
import Verif.Spec.AnnealChains
/-
The paths of a chain of annealed importance sampling: how they are sampled and what they are meant to be distributed like. Expectations over draws for the
language of the objectives.
-/
namespace Verif
open Spec MeasureTheory
open scoped ENNReal

namespace AnnealSpec

/-- The values x_0, ..., x_K. -/
def Path (X : Type) : Nat → Type
  | 0 => X
  | K + 1 => Path X K × X

section
variable {X D : Type} [MeasurableSpace X]

noncomputable instance measurableSpacePath : (K : Nat) → MeasurableSpace (Path X K)
  | 0 => inferInstanceAs (MeasurableSpace X)
  | K + 1 => @Prod.instMeasurableSpace _ _ (measurableSpacePath K) _

/-- x_K -/
def endOf : (K : Nat) → Path X K → X
  | 0, x => x
  | _ + 1, p => p.2

/-- The product of `μ` for each value. -/
noncomputable def base (μ : Measure X) : (K : Nat) → Measure (Path X K)
  | 0 => μ
  | K + 1 => (base μ K).prod μ

/-- Log density of the distribution that paths are sampled from: x_0 from the initial distribution, x_(k+1) from the forward kernel at x_k. -/
def logSampled (S : AnnealSpec X D) (lp : D → X → ℝ) : (K : Nat) → Path X K → ℝ
  | 0, x => lp S.d0 x
  | K + 1, p => S.logSampled lp K p.1 + lp (S.f K (endOf K p.1)) p.2

/-- Log density of the reverse kernels: x_k given x_(k+1), for all k < K. -/
def logReverse (S : AnnealSpec X D) (lp : D → X → ℝ) : (K : Nat) → Path X K → ℝ
  | 0, _ => 0
  | K + 1, p => S.logReverse lp K p.1 + lp (S.r K p.2) (endOf K p.1)

/-- The distribution of the sampled paths. -/
noncomputable def sampled (S : AnnealSpec X D) (μ : Measure X) (lp : D → X → ℝ) (K : Nat) : Measure (Path X K) :=
  (base μ K).withDensity fun p => dens (S.logSampled lp K p)

/-- The extended target, normalised with `exp logZ`: x_K from the last target, x_k from the reverse kernel at x_(k+1). -/
noncomputable def extended (S : AnnealSpec X D) (μ : Measure X) (lp : D → X → ℝ) (logZ : ℝ) (K : Nat) : Measure (Path X K) :=
  (base μ K).withDensity fun p => dens (S.at' lp K (endOf K p) + S.logReverse lp K p - logZ)

end
end AnnealSpec

section
variable {n b : Nat} {X D : Type} [MeasurableSpace X] {μ : Measure X} {lp : D → X → ℝ} {E : Type} {θ₀ : E}
  {lpθ : (Fin n → Fin b → { d : D // Normalised μ lp d }) → (Fin n → Fin b → X) → Ten n b E}
local notation "𝕆" => CLang n b E θ₀ (Fin n → Fin b → X) (Fin n → Fin b → { d : D // Normalised μ lp d }) lpθ id
local notation "ℙ" => PopLang n b X D μ lp

/-- The same draws, in the language of populations. -/
def Comp.recast {α : Type} : Comp 𝕆 α → Comp ℙ α
  | .ret a => .ret a
  | .draw d r k => .draw (L := PopLang n b X D μ lp) d r fun v => (k v).recast
  | .rand k => (k ()).recast

/-- The expectation over the draws: the elements of a draw are independent, and at the current parameters θ₀ an element has the density `exp (lp d x)`. -/
noncomputable def expectO {α : Type} (m : Comp 𝕆 α) (g : α → ℝ≥0∞) : ℝ≥0∞ := expectT m.recast g

/-- Every particle of batch element `j` of the tensor model `M` is a particle of `S`, at the current parameters. -/
structure VectorisesAt (M : AnnealModel 𝕆) (S : AnnealSpec X D) (j : Fin b) : Prop where
  logProb : ∀ d v s, lpθ d v s j θ₀ = lp (d s j).1 (v s j)
  d0 : ∀ s, (M.d0 s j).1 = S.d0
  g : ∀ s k v, (M.g k v : Ten n b E) s j θ₀ = lp (S.g k) (v s j)
  f : ∀ s k v, (M.f k v s j).1 = S.f k (v s j)
  r : ∀ s k v, (M.r k v s j).1 = S.r k (v s j)

end
end Verif
