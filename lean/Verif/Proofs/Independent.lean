import Mathlib.Probability.Independence.Integration
import Verif.Proofs.UpperLaw
/-
Products over the particles of a population: without resampling, particles are independent.
-/
namespace Verif
open Spec MeasureTheory ProbabilityTheory
open scoped ENNReal

section
variable {n b : Nat} {X D : Type} [MeasurableSpace X] {μ : Measure X} {lp : D → X → ℝ}
local notation "ℙ" => PopLang n b X D μ lp

/-- The integral of a product over independent coordinates. -/
theorem lintegral_pi_prod {ι : Type} [Fintype ι] {Y : Type} [MeasurableSpace Y] (ν : ι → Measure Y) [∀ i, IsProbabilityMeasure (ν i)] (F : ι → Y → ℝ≥0∞)
    (hF : ∀ i, Measurable (F i)) : ∫⁻ v : ι → Y, ∏ i, F i (v i) ∂Measure.pi ν = ∏ i, ∫⁻ y, F i y ∂ν i := by
  have hind : iIndepFun (fun (i : ι) (v : ι → Y) => F i (v i)) (Measure.pi ν) := iIndepFun_pi fun i => (hF i).aemeasurable
  have := lintegral_prod_eq_prod_lintegral_of_indepFun Finset.univ _ hind fun i => (hF i).comp (measurable_pi_apply i)
  rw [this]
  exact Finset.prod_congr rfl fun i _ => (measurePreserving_eval ν i).lintegral_comp (hF i)

/-- The elements of a draw are independent. -/
theorem lintegral_elements (d : Fin n → Fin b → { d : D // Normalised μ lp d }) (σ : Finset (Fin n × Fin b)) (F : Fin n × Fin b → X → ℝ≥0∞)
    (hF : ∀ p, Measurable (F p)) :
    ∫⁻ v : Fin n → Fin b → X, ∏ p ∈ σ, F p (v p.1 p.2) ∂(Measure.pi fun s => Measure.pi fun j => μ.withDensity fun x => dens (lp (d s j).1 x)) =
      ∏ p ∈ σ, ∫⁻ x, dens (lp (d p.1 p.2).1 x) * F p x ∂μ := by
  have h1 : ∀ s j, IsProbabilityMeasure (μ.withDensity fun x => dens (lp (d s j).1 x)) := fun s j => normalised_prob (d s j).2
  let F' : Fin n × Fin b → X → ℝ≥0∞ := fun p x => if p ∈ σ then F p x else 1
  have hF' : ∀ p, Measurable (F' p) := by
    intro p
    by_cases hp : p ∈ σ
    · simpa [F', hp] using hF p
    · simpa [F', hp] using measurable_const
  have e1 : ∀ v : Fin n → Fin b → X, ∏ p ∈ σ, F p (v p.1 p.2) = ∏ s, ∏ j, F' (s, j) (v s j) := by
    intro v
    rw [← Fintype.prod_prod_type' (fun s j => F' (s, j) (v s j)), ← Finset.prod_subset (Finset.subset_univ σ)]
    · exact Finset.prod_congr rfl fun p hp => by simp [F', hp]
    · intro p _ hp
      simp [F', hp]
  simp only [e1]
  rw [lintegral_pi_prod _ (fun s (v : Fin b → X) => ∏ j, F' (s, j) (v j)) fun s => Finset.measurable_prod _ fun j _ => (hF' _).comp (measurable_pi_apply j)]
  simp only [lintegral_pi_prod _ _ fun j => hF' (_, j)]
  rw [← Fintype.prod_prod_type' (fun s j => ∫⁻ x, F' (s, j) x ∂μ.withDensity fun x => dens (lp (d s j).1 x)), ← Finset.prod_subset (Finset.subset_univ σ)]
  · refine Finset.prod_congr rfl fun p hp => ?_
    refine (lintegral_withDensity_eq_lintegral_mul _ (measurable_dens.comp (d p.1 p.2).2.1) (hF' _)).trans ?_
    exact lintegral_congr fun x => by simp [F', hp]
  · intro p _ hp
    have : F' (p.1, p.2) = fun _ => 1 := by funext x; simp [F', hp]
    rw [this, lintegral_one, measure_univ]

/-- Products over distinct particles. -/
theorem isLaw_prod (σ : Finset (Fin n × Fin b)) :
    IsLawOf (fun f => ∏ p, f p) μ (fun p : σ => particleLane (μ := μ) (lp := lp) p.1.1 p.1.2) (fun {_} m g => expectT m g) where
  ret _ _ := rfl
  bind := expectT_bind
  congr := expectT_congr
  draw d b' k g F hF h := by
    let F' : Fin n × Fin b → X → ℝ≥0∞ := fun p x => if hp : p ∈ σ then F ⟨p, hp⟩ x else 1
    have hF' : ∀ p, Measurable (F' p) := by
      intro p
      by_cases hp : p ∈ σ
      · simpa [F', hp] using hF ⟨p, hp⟩
      · simpa [F', hp] using measurable_const
    have e1 : ∀ v : Fin n → Fin b → X, expectT (k v) g = ∏ p ∈ σ, F' p (v p.1 p.2) := by
      intro v
      refine (h v).trans ?_
      rw [← Finset.prod_coe_sort σ]
      exact Finset.prod_congr rfl fun p _ => by simp [F', p.2]; rfl
    refine (lintegral_congr e1).trans ?_
    rw [lintegral_elements d σ F' hF', ← Finset.prod_coe_sort σ]
    exact Finset.prod_congr rfl fun p _ => by simp [F', p.2]; rfl

theorem measurable_pairs (F : Fin n → X → ℝ≥0∞) (hF : ∀ s, Measurable (F s)) (j : Fin b) :
    Measurable fun v : Fin n → Fin b → X => ∑ p ∈ Finset.univ.offDiag, F p.1 (v p.1 j) * F p.2 (v p.2 j) := by
  have hm : ∀ s, Measurable fun v : Fin n → Fin b → X => F s (v s j) :=
    fun s => (hF s).comp ((measurable_pi_apply j).comp (measurable_pi_apply s))
  exact Finset.measurable_sum _ fun p _ => (hm p.1).mul (hm p.2)

theorem lintegral_pairs (d : Fin n → Fin b → { d : D // Normalised μ lp d }) (j : Fin b) (F : Fin n → X → ℝ≥0∞) (hF : ∀ s, Measurable (F s)) :
    ∫⁻ v : Fin n → Fin b → X, ∑ p ∈ Finset.univ.offDiag, F p.1 (v p.1 j) * F p.2 (v p.2 j)
        ∂(Measure.pi fun s => Measure.pi fun j => μ.withDensity fun x => dens (lp (d s j).1 x)) =
      ∑ p ∈ Finset.univ.offDiag, (∫⁻ x, dens (lp (d p.1 j).1 x) * F p.1 x ∂μ) * ∫⁻ x, dens (lp (d p.2 j).1 x) * F p.2 x ∂μ := by
  have hm : ∀ s, Measurable fun v : Fin n → Fin b → X => F s (v s j) :=
    fun s => (hF s).comp ((measurable_pi_apply j).comp (measurable_pi_apply s))
  rw [lintegral_finset_sum _ fun p _ => (hm p.1).mul (hm p.2)]
  refine Finset.sum_congr rfl fun p hp => ?_
  have hne : (p.1, j) ≠ (p.2, j) := by
    intro he
    exact (Finset.mem_offDiag.1 hp).2.2 (Prod.ext_iff.1 he).1
  have := lintegral_elements d {(p.1, j), (p.2, j)} (fun q => F q.1) fun q => hF q.1
  simpa only [Finset.prod_pair hne] using this

/-- Sums over pairs of different particles. -/
theorem isLaw_pairs (j : Fin b) :
    IsLawOf (fun f => ∑ p ∈ Finset.univ.offDiag, f p.1 * f p.2) μ (fun s : Fin n => particleLane (μ := μ) (lp := lp) s j) (fun {_} m g => expectT m g) where
  ret _ _ := rfl
  bind := expectT_bind
  congr := expectT_congr
  draw d b' k g F hF h := (lintegral_congr h).trans (lintegral_pairs d j F hF)

theorem isLaw_pairsU (j : Fin b) :
    IsLawOf (fun f => ∑ p ∈ Finset.univ.offDiag, f p.1 * f p.2) μ (fun s : Fin n => particleLane (μ := μ) (lp := lp) s j) (fun {_} m g => expectTU m g) where
  ret _ _ := rfl
  bind := (isLaw_expectTU j).bind
  congr := (isLaw_expectTU j).congr
  draw d b' k g F hF h := by
    refine (congrArg (upper (Y := Fin n → Fin b → X) _ _) (funext h)).trans ?_
    refine (upper_measurable _ _ (measurable_pairs F hF j)).trans ?_
    simp only [one_mul]
    exact lintegral_pairs d j F hF

end
end Verif
