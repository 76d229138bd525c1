import Mathlib.MeasureTheory.Integral.IntervalIntegral.Basic
import Mathlib.MeasureTheory.Integral.IntervalIntegral.FundThmCalculus
import Verif.Props.Systematic
/-
C23: systematic resampling is unbiased.
-/
namespace Verif
open Spec MeasureTheory
variable {n : Nat} [NeZero n]

theorem integrable_step (a b c d : ℝ) :
    IntervalIntegrable (Set.indicator (Set.Ioc a b) (fun _ => (1 : ℝ))) volume c d := by
  rw [intervalIntegrable_iff]
  have h : IntegrableOn (fun _ : ℝ => (1 : ℝ)) (Set.uIoc c d) volume :=
    intervalIntegrable_iff.1 (intervalIntegrable_const)
  exact Integrable.indicator h measurableSet_Ioc

theorem integral_step {a b c : ℝ} (ha : 0 ≤ a) (hab : a ≤ b) (hb : b ≤ c) :
    ∫ x in (0 : ℝ)..c, Set.indicator (Set.Ioc a b) (fun _ => (1 : ℝ)) x = b - a := by
  rw [intervalIntegral.integral_of_le (by linarith), setIntegral_indicator measurableSet_Ioc]
  have : Set.Ioc 0 c ∩ Set.Ioc a b = Set.Ioc a b := by
    rw [Set.inter_eq_right]
    exact Set.Ioc_subset_Ioc ha hb
  rw [this, ← intervalIntegral.integral_of_le hab]
  simp

theorem offspring_indicator (w : Fin n → ℝ) (hw : ∀ i, 0 ≤ w i) (hs : 0 < ∑ i, w i) (i : Fin n) (u : ℝ) (hu : 0 < u) :
    (offspring w u i : ℝ) = ∑ k ∈ Finset.range n,
      Set.indicator (Set.Ioc (n * (prefixSum w i.val / ∑ j, w j)) (n * (prefixSum w (i.val + 1) / ∑ j, w j)))
        (fun _ => (1 : ℝ)) (u + k) := by
  rw [offspring_eq hw hs hu, Finset.card_filter, Nat.cast_sum,
    Finset.sum_range (fun k : ℕ => Set.indicator (Set.Ioc (n * (prefixSum w i.val / ∑ j, w j))
      (n * (prefixSum w (i.val + 1) / ∑ j, w j))) (fun _ => (1 : ℝ)) (u + (k : ℝ)))]
  refine Finset.sum_congr rfl fun k _ => ?_
  by_cases hk : n * (prefixSum w i.val / ∑ j, w j) < k.val + u ∧ k.val + u ≤ n * (prefixSum w (i.val + 1) / ∑ j, w j)
  · rw [if_pos hk, Set.indicator_of_mem (by rw [Set.mem_Ioc, add_comm u]; exact hk)]; simp
  · rw [if_neg hk, Set.indicator_of_notMem (by rw [Set.mem_Ioc, add_comm u]; exact hk)]; simp

theorem integrable_offspring (w : Fin n → ℝ) (hw : ∀ i, 0 ≤ w i) (hs : 0 < ∑ i, w i) (i : Fin n) :
    IntervalIntegrable (fun u => (offspring w u i : ℝ)) volume 0 1 := by
  have h : IntervalIntegrable (fun u => ∑ k ∈ Finset.range n,
      Set.indicator (Set.Ioc (n * (prefixSum w i.val / ∑ j, w j)) (n * (prefixSum w (i.val + 1) / ∑ j, w j)))
        (fun _ => (1 : ℝ)) (u + k)) volume 0 1 := by
    have := IntervalIntegrable.sum (μ := volume) (a := 0) (b := 1) (Finset.range n) (f := fun (k : ℕ) (u : ℝ) =>
      Set.indicator (Set.Ioc (n * (prefixSum w i.val / ∑ j, w j)) (n * (prefixSum w (i.val + 1) / ∑ j, w j)))
        (fun _ => (1 : ℝ)) (u + k)) (fun k _ => ?_)
    · have e : (∑ k ∈ Finset.range n, fun u : ℝ =>
        Set.indicator (Set.Ioc (n * (prefixSum w i.val / ∑ j, w j)) (n * (prefixSum w (i.val + 1) / ∑ j, w j)))
          (fun _ => (1 : ℝ)) (u + k)) = fun u : ℝ => ∑ k ∈ Finset.range n,
        Set.indicator (Set.Ioc (n * (prefixSum w i.val / ∑ j, w j)) (n * (prefixSum w (i.val + 1) / ∑ j, w j)))
          (fun _ => (1 : ℝ)) (u + k) := by
        funext u; simp [Finset.sum_apply]
      rw [e] at this
      exact this
    · have := (integrable_step (n * (prefixSum w i.val / ∑ j, w j)) (n * (prefixSum w (i.val + 1) / ∑ j, w j))
        (0 + k) (1 + k)).comp_add_right (k : ℝ)
      simpa using this
  refine h.congr ?_
  intro u hu
  rw [Set.uIoc_of_le zero_le_one] at hu
  exact (offspring_indicator w hw hs i u hu.1).symm

/-- C23. The expected number of offspring of particle `i`, over a uniform offset, is `n * share`. -/
theorem C23_expected_offspring (w : Fin n → ℝ) (hw : ∀ i, 0 ≤ w i) (hs : 0 < ∑ i, w i) (i : Fin n) :
    ∫ u in (0 : ℝ)..1, (offspring w u i : ℝ) = n * share w i := by
  have h1 : ∫ u in (0 : ℝ)..1, (offspring w u i : ℝ) = ∫ u in (0 : ℝ)..1, ∑ k ∈ Finset.range n,
      Set.indicator (Set.Ioc (n * (prefixSum w i.val / ∑ j, w j)) (n * (prefixSum w (i.val + 1) / ∑ j, w j)))
        (fun _ => (1 : ℝ)) (u + k) := by
    refine intervalIntegral.integral_congr_ae (Filter.Eventually.of_forall fun u hu => ?_)
    rw [Set.uIoc_of_le zero_le_one] at hu
    exact offspring_indicator w hw hs i u hu.1
  obtain ⟨b1, b2, b3⟩ := window_bounds hw hs i
  rw [h1, intervalIntegral.integral_finsetSum]
  · have h2 : ∀ k ∈ Finset.range n, ∫ u in (0 : ℝ)..1,
        Set.indicator (Set.Ioc (n * (prefixSum w i.val / ∑ j, w j)) (n * (prefixSum w (i.val + 1) / ∑ j, w j)))
          (fun _ => (1 : ℝ)) (u + k) = ∫ x in ((k : ℕ) : ℝ)..((k + 1 : ℕ) : ℝ),
        Set.indicator (Set.Ioc (n * (prefixSum w i.val / ∑ j, w j)) (n * (prefixSum w (i.val + 1) / ∑ j, w j)))
          (fun _ => (1 : ℝ)) x := by
      intro k _
      rw [intervalIntegral.integral_comp_add_right]
      simp [add_comm]
    rw [Finset.sum_congr rfl h2, intervalIntegral.sum_integral_adjacent_intervals (a := fun k : ℕ => (k : ℝ))
      (fun k _ => integrable_step _ _ _ _), Nat.cast_zero, integral_step b1 b3 b2, share_eq]
    ring
  · intro k _
    have := (integrable_step (n * (prefixSum w i.val / ∑ j, w j)) (n * (prefixSum w (i.val + 1) / ∑ j, w j))
        (0 + k) (1 + k)).comp_add_right (k : ℝ)
    simpa using this

/-- C23. The equally weighted average of any function over the resampled particles has, over a uniform offset, the
expectation of the self-normalised weighted average over the incoming particles. -/
theorem C23_unbiased (w : Fin n → ℝ) (hw : ∀ i, 0 ≤ w i) (hs : 0 < ∑ i, w i) (h : Fin n → ℝ) :
    ∫ u in (0 : ℝ)..1, (1 / n : ℝ) * ∑ k : Fin n, ∑ i : Fin n, (if ancestors w u k = i.val then h i else 0) =
      ∑ i, share w i * h i := by
  have hn : (n : ℝ) ≠ 0 := by exact_mod_cast NeZero.ne n
  have h1 : ∀ u, (1 / n : ℝ) * ∑ k : Fin n, ∑ i : Fin n, (if ancestors w u k = i.val then h i else 0) =
      ∑ i, (1 / n * h i) * (offspring w u i : ℝ) := by
    intro u
    rw [Finset.sum_comm, Finset.mul_sum]
    refine Finset.sum_congr rfl fun i _ => ?_
    rw [offspring, ← Finset.sum_filter, Finset.sum_const, nsmul_eq_mul]
    ring
  simp only [h1]
  rw [intervalIntegral.integral_finsetSum]
  · refine Finset.sum_congr rfl fun i _ => ?_
    rw [intervalIntegral.integral_const_mul, C23_expected_offspring w hw hs]
    field_simp
  · intro i _
    exact (integrable_offspring w hw hs i).const_mul _

/-- C23: premises for three particles of weights 1, 0, 2. -/
example : (∀ i, 0 ≤ (![1, 0, 2] : Fin 3 → ℝ) i) ∧ 0 < ∑ i, (![1, 0, 2] : Fin 3 → ℝ) i ∧
    share (![1, 0, 2] : Fin 3 → ℝ) 2 = 2 / 3 := by
  refine ⟨?_, ?_, ?_⟩
  · intro i; fin_cases i <;> simp
  · simp [Fin.sum_univ_three]; norm_num
  · simp [share, Fin.sum_univ_three]; norm_num

end Verif
