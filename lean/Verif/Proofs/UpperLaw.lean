import Verif.Props.Weighting
import Verif.Props.Population
/-
Upper expectations: with upper instead of (lower) integrals at each draw. They satisfy the same laws (`IsLaw`), so that the means of
weights (C29, C55) are upper means as well; and means are subadditive if one of two summands is taken with its upper mean. Used for
C62, where nothing need be said about the measurability of a whole call.
-/
namespace Verif
open Spec MeasureTheory
open scoped ENNReal

section
variable {Y : Type} [MeasurableSpace Y]

/-- The upper integral. -/
noncomputable def upper (μ : Measure Y) (ρ f : Y → ℝ≥0∞) : ℝ≥0∞ :=
  ⨅ h : { h : Y → ℝ≥0∞ // Measurable h ∧ ∀ y, f y ≤ h y }, ∫⁻ y, ρ y * h.1 y ∂μ

theorem upper_measurable (μ : Measure Y) (ρ : Y → ℝ≥0∞) {f : Y → ℝ≥0∞} (hf : Measurable f) : upper μ ρ f = ∫⁻ y, ρ y * f y ∂μ := by
  refine le_antisymm (iInf_le_of_le ⟨f, hf, fun _ => le_rfl⟩ le_rfl) (le_iInf fun h => ?_)
  exact lintegral_mono fun y => mul_le_mul_right (h.2.2 y) _

theorem lintegral_add_upper (μ : Measure Y) {ρ : Y → ℝ≥0∞} (hρ : Measurable ρ) {f g s : Y → ℝ≥0∞} (h : ∀ y, f y ≤ g y + s y) :
    ∫⁻ y, ρ y * f y ∂μ ≤ upper μ ρ g + ∫⁻ y, ρ y * s y ∂μ := by
  rw [upper, ENNReal.iInf_add]
  refine le_iInf fun h' => ?_
  rw [← lintegral_add_left (f := fun y => ρ y * h'.1 y) (hρ.mul h'.2.1)]
  refine lintegral_mono fun y => ?_
  rw [← mul_add]
  exact mul_le_mul_right ((h y).trans (add_le_add_left (h'.2.2 y) _)) _

end

section
variable {V D Lo : Type} [AddCommGroup Lo] {lp : D → V → ℝ} [MeasurableSpace V] {μ : Measure V} [Nonempty V]
local notation "𝕃" => PLang V D Lo lp

/-- The upper expectation over the draws. -/
noncomputable def expectU (μ : Measure V) {α : Type} : Comp 𝕃 α → (α → ℝ≥0∞) → ℝ≥0∞
  | .ret a, g => g a
  | .draw d _ k, g => upper μ (fun v => dens (lp d v)) fun v => expectU μ (k v) g
  | .rand k, g => expectU μ (k ()) g

theorem isLaw_expectU : IsLaw μ (fun _ : Unit => oneLane V D Lo lp) (fun {_} m g => expectU μ m g) where
  ret _ _ := rfl
  bind m f g := by
    induction m with
    | ret a => rfl
    | draw d b k ih => simp only [Comp.bind, expectU, ih]
    | rand k ih => exact ih ()
  congr m g g' h := by
    induction m with
    | ret a => exact h a rfl
    | draw d b k ih =>
      have : (fun v => expectU μ (k v) g) = fun v => expectU μ (k v) g' := funext fun v => ih v fun a ha => h a ⟨v, ha⟩
      simp only [expectU, this]
    | rand k ih => exact ih () fun a ha => h a ⟨(), ha⟩
  draw d b k g F hF h := by
    simp only [Finset.univ_unique, Finset.sum_singleton] at h ⊢
    have : (fun v => expectU μ (k v) g) = F () := funext fun v => (h v).trans rfl
    simp only [expectU, this]
    exact upper_measurable _ _ (hF ())

end

section
variable {n b : Nat} {X D : Type} [MeasurableSpace X] {μ : Measure X} {lp : D → X → ℝ}
local notation "ℙ" => PopLang n b X D μ lp

/-- The upper expectation over draws and offsets. -/
noncomputable def expectTU {α : Type} : Comp ℙ α → (α → ℝ≥0∞) → ℝ≥0∞
  | .ret a, g => g a
  | .draw d _ k, g => upper (Measure.pi fun s => Measure.pi fun j => μ.withDensity fun x => dens (lp (d s j).1 x)) (fun _ => 1)
      fun v : Fin n → Fin b → X => expectTU (k v) g
  | .rand k, g => upper (Measure.pi fun _ => volume.comap Subtype.val) (fun _ => 1) fun u : Fin b → Set.Ico (0 : ℝ) 1 => expectTU (k u) g

theorem isLaw_expectTU (j : Fin b) :
    IsLaw μ (fun s : Fin n => particleLane (μ := μ) (lp := lp) s j) (fun {_} m g => expectTU m g) where
  ret _ _ := rfl
  bind m f g := by
    induction m with
    | ret a => rfl
    | draw d b k ih => exact congrArg (upper _ _) (funext ih)
    | rand k ih => exact congrArg (upper _ _) (funext ih)
  congr m g g' h := by
    induction m with
    | ret a => exact h a rfl
    | draw d b k ih => exact congrArg (upper _ _) (funext fun v => ih v fun a ha => h a ⟨v, ha⟩)
    | rand k ih => exact congrArg (upper _ _) (funext fun v => ih v fun a ha => h a ⟨v, ha⟩)
  draw d b' k g F hF h := by
    have hm : ∀ s, Measurable fun v : Fin n → Fin b → X => F s (v s j) :=
      fun s => (hF s).comp ((measurable_pi_apply j).comp (measurable_pi_apply s))
    refine (congrArg (upper (Y := Fin n → Fin b → X) _ _) (funext h)).trans ?_
    refine (upper_measurable _ _ (Finset.measurable_sum _ fun s _ => hm s)).trans ?_
    simp only [one_mul]
    exact (lintegral_finset_sum _ fun s _ => hm s).trans (Finset.sum_congr rfl fun s _ => lintegral_element d s j (hF s))

theorem unbiased_systematicU [NeZero n] (j : Fin b) :
    Unbiased (fun s : Fin n => particleLane (μ := μ) (lp := lp) s j) (fun {_} m g => expectTU m g) (systematic false false) :=
  unbiased_systematic_of j (fun _ _ => rfl) fun k g F hF h => by
    refine (congrArg (upper _ _) (funext h)).trans ?_
    refine (upper_measurable _ _ (hF.comp (measurable_subtype_coe.comp (measurable_pi_apply j)))).trans ?_
    simp only [one_mul]
    exact lintegral_offset j F hF

end
end Verif
