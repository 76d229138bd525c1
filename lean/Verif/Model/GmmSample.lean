import Mathlib.MeasureTheory.Constructions.Pi
import Mathlib.MeasureTheory.Integral.Lebesgue.Basic
import Mathlib.Data.Fintype.Perm
import Mathlib.Algebra.BigOperators.Fin
import Verif.Model.Shapes
/-
experiments/annealing/models.py: GMM.sample.
-/
namespace Verif
open MeasureTheory
open scoped ENNReal

/-- The components that the rows of `torch.cat(xs)` come from, in order, in `GMM.sample` with `sample_shape = [n]`
(experiments/annealing/models.py:214-230): for each component as many rows as there are `k` among the values drawn. -/
def gmmRows {K n : Nat} (zs : Fin n → Fin K) : List (Fin K) :=
  (List.finRange K).flatMap fun k => List.replicate (List.count k (List.ofFn zs)) k

theorem gmmRows_perm {K n : Nat} (zs : Fin n → Fin K) : (gmmRows zs).Perm (List.ofFn zs) := by
  rw [List.perm_iff_count]
  intro a
  unfold gmmRows
  rw [List.count_flatMap]
  have : (List.finRange K).map (List.count a ∘ fun k => List.replicate (List.count k (List.ofFn zs)) k) =
      (List.finRange K).map fun k => if k = a then List.count a (List.ofFn zs) else 0 := by
    refine List.map_congr_left fun k _ => ?_
    simp only [Function.comp, List.count_replicate]
    by_cases h : k = a <;> simp [h]
  rw [this]
  show ((List.finRange K).map _).sum = _
  rw [← List.ofFn_eq_map, List.sum_ofFn]
  simp

theorem gmmRows_length {K n : Nat} (zs : Fin n → Fin K) : (gmmRows zs).length = n := by
  rw [(gmmRows_perm zs).length_eq, List.length_ofFn]

/-- The expectation of `f` over `GMM.sample` with `sample_shape = [n]` (experiments/annealing/models.py:214-230): `n` draws of a component with equal
probabilities; independent draws of the rows, component by component; a uniform permutation `ix` of the rows. -/
noncomputable def gmmSample {V : Type} [MeasurableSpace V] {K : Nat} (comp : Fin K → Measure V) (n : Nat) (f : (Fin n → V) → ℝ≥0∞) : ℝ≥0∞ :=
  ∑ zs : Fin n → Fin K, (K : ℝ≥0∞)⁻¹ ^ n *
    ∫⁻ xs, ∑ ix : Equiv.Perm (Fin n), (n.factorial : ℝ≥0∞)⁻¹ * f (fun i => xs (ix i))
      ∂Measure.pi fun i => comp ((gmmRows zs).get (i.cast (gmmRows_length zs).symm))

/-- The shape of the result of `GMM.sample(sample_shape)` for points with `d` coordinates (experiments/annealing/models.py:214-230): the counts add up
to the number of values drawn, and `zs.shape[1:-1]` is appended to every count. -/
def gmmShape (sampleShape : Shape) (d : Nat) : Shape := [sampleShape.prod] ++ (sampleShape.drop 1).dropLast ++ [d]

end Verif
