import Verif.Props.Population
import Verif.Props.WeightingNormal
/-
C57 for normal distributions.
-/
namespace Verif
open Spec MeasureTheory ProbabilityTheory
open scoped ENNReal

namespace Gauss

/-- Normal densities with variance 1, multiplied by exp of the second component. -/
noncomputable def lpU (d : ℝ × ℝ) (x : ℝ) : ℝ := lp d.1 x + d.2

theorem measurable_lpU {Γ : Type} [MeasurableSpace Γ] {d : Γ → ℝ × ℝ} {x : Γ → ℝ} (hd : Measurable d) (hx : Measurable x) :
    Measurable fun γ => lpU (d γ) (x γ) := (measurable_lp (measurable_fst.comp hd) hx).add (measurable_snd.comp hd)

theorem normalisedU (m : ℝ) : Normalised volume lpU (m, 0) := by
  have h := normalised m
  refine ⟨measurable_lpU measurable_const measurable_id, ?_⟩
  simpa [lpU] using h.2

/-- Annealing from a standard normal distribution to ones further and further away, not normalised; the kernels move half way. -/
noncomputable def annealSpec : AnnealSpec ℝ (ℝ × ℝ) where
  d0 := (0, 0)
  g k := (k, k + 1)
  f k x := ((x + k) / 2, 0)
  r k x := (x / 2, 0)

/-- Five particles, one batch element. -/
noncomputable def annealPop : AnnealModel (PopLang 5 1 ℝ (ℝ × ℝ) volume lpU) where
  d0 _ _ := ⟨(0, 0), normalisedU _⟩
  rep0 := false
  cls0 := "FixedMultivariateNormal"
  g k v s j := lpU (k, k + 1) (v s j)
  cls _ := "Tempered"
  f k v s j := ⟨((v s j + k) / 2, 0), normalisedU _⟩
  rep := true
  r _ v s j := ⟨(v s j / 2, 0), normalisedU _⟩
  rep' := false

end Gauss

/-- The hypotheses of C57 for continuous values. -/
example : Vectorises Gauss.annealPop Gauss.annealSpec 0 ∧ Gauss.annealSpec.Norm volume Gauss.lpU :=
  ⟨⟨fun _ => rfl, fun _ _ _ => rfl, fun _ _ _ => rfl, fun _ _ _ => rfl⟩,
    ⟨Gauss.normalisedU _, fun _ _ => Gauss.normalisedU _, fun _ _ => Gauss.normalisedU _,
      fun _ => Gauss.measurable_lpU measurable_const measurable_id,
      fun _ => Gauss.measurable_lpU (by simp only [Gauss.annealSpec]; fun_prop) measurable_snd,
      fun _ => Gauss.measurable_lpU (by simp only [Gauss.annealSpec]; fun_prop) measurable_snd⟩⟩

end Verif
