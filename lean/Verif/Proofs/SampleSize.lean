import Mathlib.MeasureTheory.Integral.Lebesgue.Add
import Verif.Proofs.LargeNumbers
import Verif.Props.Metrics
/-
The effective sample size of many independent weights.
-/
namespace Verif
open MeasureTheory Filter ProbabilityTheory
open scoped ENNReal Topology

variable {Y : Type} [MeasurableSpace Y] (P : Measure Y) [IsProbabilityMeasure P]

/-- The effective sample size as a fraction of the number of particles. -/
noncomputable def essFraction (w : Y → ℝ) (n : Nat) (x : Fin n → Y) : ℝ := ((∑ i, w (x i)) ^ 2 / ∑ i, w (x i) ^ 2) / n

omit [MeasurableSpace Y] in
theorem essFraction_eq (w : Y → ℝ) (n : Nat) (hn : 0 < n) (x : Fin n → Y) :
    essFraction w n x = ((∑ i, w (x i)) / n) ^ 2 / ((∑ i, w (x i) ^ 2) / n) := by
  have : (n : ℝ) ≠ 0 := by positivity
  unfold essFraction
  by_cases h : ∑ i, w (x i) ^ 2 = 0
  · rw [h]; simp
  · field_simp

theorem measurable_essFraction (w : Y → ℝ) (hw : Measurable w) (n : Nat) : Measurable (essFraction w n) := by
  have h1 : Measurable fun x : Fin n → Y => ∑ i, w (x i) := Finset.measurable_sum _ fun i _ => hw.comp (measurable_pi_apply i)
  have h2 : Measurable fun x : Fin n → Y => ∑ i, w (x i) ^ 2 := Finset.measurable_sum _ fun i _ => (hw.comp (measurable_pi_apply i)).pow_const 2
  exact ((h1.pow_const 2).div h2).div_const _

theorem ess_finite (w : Y → ℝ) (hw : Measurable w) (hi : Integrable w P) (h2 : Integrable (fun y => w y ^ 2) P) (h0 : ∫ y, w y ^ 2 ∂P ≠ 0) (ε : ℝ) (hε : 0 < ε) :
    Tendsto (fun n : Nat => (Measure.pi fun _ : Fin n => P) {x | ε ≤ |essFraction w n x - (∫ y, w y ∂P) ^ 2 / ∫ y, w y ^ 2 ∂P|}) atTop (𝓝 0) := by
  refine in_probability P (essFraction w) (measurable_essFraction w hw) _ ?_ ε hε
  filter_upwards [average_ae P w hw hi, average_ae P _ (hw.pow_const 2) h2] with ω a1 a2
  refine ((a1.pow 2).div a2 h0).congr' ?_
  filter_upwards [eventually_gt_atTop 0] with n hn
  exact (essFraction_eq w n hn _).symm

/-- With infinite variance the fraction tends to 0. -/
theorem ess_infinite (w : Y → ℝ) (hw : Measurable w) (hi : Integrable w P) (h2 : ∫⁻ y, ENNReal.ofReal (w y ^ 2) ∂P = ⊤) (ε : ℝ) (hε : 0 < ε) :
    Tendsto (fun n : Nat => (Measure.pi fun _ : Fin n => P) {x | ε ≤ |essFraction w n x - 0|}) atTop (𝓝 0) := by
  refine in_probability P (essFraction w) (measurable_essFraction w hw) _ ?_ ε hε
  have hc : ∀ m : Nat, Measurable fun y => min (w y ^ 2) m := fun m => (hw.pow_const 2).min measurable_const
  have hb : ∀ m : Nat, Integrable (fun y => min (w y ^ 2) m) P := fun m => by
    refine (integrable_const (m : ℝ)).mono' (hc m).aestronglyMeasurable (.of_forall fun y => ?_)
    rw [Real.norm_of_nonneg (le_min (sq_nonneg _) (Nat.cast_nonneg m))]
    exact min_le_right _ _
  have hall : ∀ᵐ ω ∂Measure.infinitePi fun _ : Nat => P, ∀ m : Nat,
      Tendsto (fun n : Nat => (∑ i : Fin n, min (w (ω i.val) ^ 2) m) / n) atTop (𝓝 (∫ y, min (w y ^ 2) m ∂P)) :=
    ae_all_iff.2 fun m => average_ae P _ (hc m) (hb m)
  -- the truncated second moments grow beyond all bounds
  have hgrow : ∀ B : ℝ, ∃ m : Nat, B < ∫ y, min (w y ^ 2) m ∂P := by
    intro B
    by_contra hB
    push Not at hB
    have e : ∀ y, ENNReal.ofReal (w y ^ 2) = ⨆ m : Nat, ENNReal.ofReal (min (w y ^ 2) m) := by
      intro y
      obtain ⟨m, hm⟩ := exists_nat_ge (w y ^ 2)
      refine le_antisymm ?_ (iSup_le fun m => ENNReal.ofReal_le_ofReal (min_le_left _ _))
      refine le_trans ?_ (le_iSup _ m)
      rw [min_eq_left hm]
    have h3 : ∫⁻ y, ENNReal.ofReal (w y ^ 2) ∂P = ⨆ m : Nat, ∫⁻ y, ENNReal.ofReal (min (w y ^ 2) m) ∂P := by
      simp only [e]
      refine lintegral_iSup (fun m => ENNReal.measurable_ofReal.comp (hc m)) fun m m' hm y => ?_
      exact ENNReal.ofReal_le_ofReal (min_le_min_left _ (by exact_mod_cast hm))
    have h4 : (⨆ m : Nat, ∫⁻ y, ENNReal.ofReal (min (w y ^ 2) m) ∂P) ≤ ENNReal.ofReal B := by
      refine iSup_le fun m => ?_
      rw [← ofReal_integral_eq_lintegral_ofReal (hb m) (.of_forall fun y => le_min (sq_nonneg _) (Nat.cast_nonneg m))]
      exact ENNReal.ofReal_le_ofReal (hB m)
    rw [← h3, h2] at h4
    exact ENNReal.ofReal_ne_top (top_le_iff.1 h4)
  filter_upwards [average_ae P w hw hi, hall] with ω a1 a2
  obtain ⟨Z, hZ⟩ : ∃ Z, Z = ∫ y, w y ∂P := ⟨_, rfl⟩
  rw [← hZ] at a1
  have hnn : ∀ n : Nat, 0 ≤ essFraction w n fun i => ω i.val := fun n =>
    div_nonneg (div_nonneg (sq_nonneg _) (Finset.sum_nonneg fun _ _ => sq_nonneg _)) (Nat.cast_nonneg n)
  rw [Metric.tendsto_atTop]
  intro η hη
  obtain ⟨m, hm⟩ := hgrow (max 1 (2 * (Z ^ 2 + 1) / η))
  have m1 : 1 < ∫ y, min (w y ^ 2) m ∂P := lt_of_le_of_lt (le_max_left _ _) hm
  have m2 : 2 * (Z ^ 2 + 1) / η < ∫ y, min (w y ^ 2) m ∂P := lt_of_le_of_lt (le_max_right _ _) hm
  have lim : Tendsto (fun n : Nat => ((∑ i : Fin n, w (ω i.val)) / n) ^ 2 / ((∑ i : Fin n, min (w (ω i.val) ^ 2) m) / n)) atTop
      (𝓝 (Z ^ 2 / ∫ y, min (w y ^ 2) m ∂P)) := (a1.pow 2).div (a2 m) (by linarith)
  have hlt : Z ^ 2 / (∫ y, min (w y ^ 2) m ∂P) < η := by
    rw [div_lt_iff₀ hη] at m2
    rw [div_lt_iff₀ (by linarith)]
    nlinarith [sq_nonneg Z]
  have ev := (lim.eventually_lt_const hlt).and (((a2 m).eventually_const_lt (show (0 : ℝ) < ∫ y, min (w y ^ 2) m ∂P by linarith)).and (eventually_gt_atTop 0))
  obtain ⟨N, hN⟩ := eventually_atTop.1 ev
  refine ⟨N, fun n hn => ?_⟩
  obtain ⟨b1, b2, b3⟩ := hN n hn
  rw [Real.dist_eq, sub_zero, abs_of_nonneg (hnn n), essFraction_eq w n b3]
  refine lt_of_le_of_lt ?_ b1
  refine div_le_div_of_nonneg_left (sq_nonneg _) b2 ?_
  exact div_le_div_of_nonneg_right (Finset.sum_le_sum fun i _ => min_le_left _ _) (Nat.cast_nonneg n)

end Verif
