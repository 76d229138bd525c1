import Mathlib.Analysis.Convex.SpecificFunctions.Basic
import Mathlib.Analysis.Convex.Jensen
import Mathlib.Algebra.Order.Chebyshev
import Mathlib.Algebra.BigOperators.Field
import Mathlib.Tactic.Linarith
import Mathlib.Tactic.FieldSimp
import Mathlib.Tactic.Ring
import Verif.Model.Metrics
/-
C24, C27, C28: weights and metrics.
-/
namespace Verif
variable {n : Nat} [NeZero n]

theorem sum_exp_pos (lw : Fin n → ℝ) : 0 < ∑ i, Real.exp (lw i) :=
  Finset.sum_pos (fun i _ => Real.exp_pos _) ⟨0, Finset.mem_univ _⟩

theorem n_pos : (0 : ℝ) < n := by exact_mod_cast Nat.pos_of_ne_zero (NeZero.ne n)

theorem softmax_pos (lw : Fin n → ℝ) (i : Fin n) : 0 < softmax lw i := div_pos (Real.exp_pos _) (sum_exp_pos lw)

theorem softmax_sum (lw : Fin n → ℝ) : ∑ i, softmax lw i = 1 := by
  simp only [softmax]
  rw [← Finset.sum_div, div_self (sum_exp_pos lw).ne']

/-- C27. `effective_sample_size` is `(sum w)^2 / sum w^2` for the weights `w = exp lw`. -/
theorem C27_formula (lw : Fin n → ℝ) :
    effectiveSampleSize lw = (∑ i, Real.exp (lw i)) ^ 2 / ∑ i, Real.exp (lw i) ^ 2 := by
  have hS := sum_exp_pos lw
  have h : ∀ i, Real.exp (2 * Real.log (softmax lw i)) = Real.exp (lw i) ^ 2 / (∑ j, Real.exp (lw j)) ^ 2 := by
    intro i
    rw [mul_comm, Real.exp_mul, Real.exp_log (softmax_pos lw i)]
    norm_cast
    rw [softmax, div_pow]
  have hp : 0 < ∑ i, Real.exp (lw i) ^ 2 :=
    Finset.sum_pos (fun i _ => pow_pos (Real.exp_pos _) 2) ⟨0, Finset.mem_univ _⟩
  simp only [effectiveSampleSize, logsumexp, h]
  rw [← Finset.sum_div, Real.exp_neg, Real.exp_log (by positivity), inv_div]

theorem square_gap (w : Fin n → ℝ) :
    ∑ i, ∑ j, (w i - w j) ^ 2 = 2 * (n * ∑ i, w i ^ 2 - (∑ i, w i) ^ 2) := by
  have : ∀ i j, (w i - w j) ^ 2 = w i ^ 2 + w j ^ 2 - 2 * (w i * w j) := fun i j => by ring
  simp only [this, Finset.sum_sub_distrib, Finset.sum_add_distrib, Finset.sum_const, Finset.card_univ, Fintype.card_fin,
    nsmul_eq_mul, ← Finset.mul_sum, ← Finset.sum_mul]
  ring

/-- C27. It lies between 1 and the number of particles. -/
theorem C27_bounds (lw : Fin n → ℝ) : 1 ≤ effectiveSampleSize lw ∧ effectiveSampleSize lw ≤ n := by
  rw [C27_formula]
  have hp : 0 < ∑ i, Real.exp (lw i) ^ 2 :=
    Finset.sum_pos (fun i _ => pow_pos (Real.exp_pos _) 2) ⟨0, Finset.mem_univ _⟩
  constructor
  · rw [le_div_iff₀ hp, one_mul]
    exact Finset.sum_sq_le_sq_sum_of_nonneg (fun i _ => (Real.exp_pos _).le)
  · rw [div_le_iff₀ hp]
    have h := square_gap (fun i => Real.exp (lw i))
    have h0 : 0 ≤ ∑ i, ∑ j, (Real.exp (lw i) - Real.exp (lw j)) ^ 2 :=
      Finset.sum_nonneg fun i _ => Finset.sum_nonneg fun j _ => sq_nonneg _
    linarith

/-- C27. It equals the number of particles exactly when all log weights are equal. -/
theorem C27_max_iff (lw : Fin n → ℝ) : effectiveSampleSize lw = n ↔ ∀ i j, lw i = lw j := by
  rw [C27_formula]
  have hp : 0 < ∑ i, Real.exp (lw i) ^ 2 :=
    Finset.sum_pos (fun i _ => pow_pos (Real.exp_pos _) 2) ⟨0, Finset.mem_univ _⟩
  rw [div_eq_iff hp.ne']
  have h := square_gap (fun i => Real.exp (lw i))
  have h1 : (∑ i, Real.exp (lw i)) ^ 2 = n * ∑ i, Real.exp (lw i) ^ 2 ↔
      ∑ i, ∑ j, (Real.exp (lw i) - Real.exp (lw j)) ^ 2 = 0 := by
    constructor <;> intro h' <;> linarith
  rw [h1, Finset.sum_eq_zero_iff_of_nonneg (fun i _ => Finset.sum_nonneg fun j _ => sq_nonneg _)]
  constructor
  · intro h2 i j
    have h3 := h2 i (Finset.mem_univ _)
    rw [Finset.sum_eq_zero_iff_of_nonneg (fun j _ => sq_nonneg _)] at h3
    have h4 := h3 j (Finset.mem_univ _)
    exact Real.exp_injective (sub_eq_zero.1 (pow_eq_zero_iff (two_ne_zero)|>.1 h4))
  · intro h2 i _
    refine Finset.sum_eq_zero fun j _ => ?_
    rw [h2 i j, sub_self]
    norm_num

/-- C27. Adding a constant to all log weights changes nothing. -/
theorem C27_shift (lw : Fin n → ℝ) (c : ℝ) : effectiveSampleSize (fun i => lw i + c) = effectiveSampleSize lw := by
  have h : softmax (fun i => lw i + c) = softmax lw := by
    funext i
    simp only [softmax, Real.exp_add]
    rw [← Finset.sum_mul, mul_div_mul_right _ _ (Real.exp_pos c).ne']
  simp only [effectiveSampleSize, h]

/-- C27: two particles of weights 1 and e: the size is strictly between 1 and 2. -/
example : 1 ≤ effectiveSampleSize (![0, 1] : Fin 2 → ℝ) ∧ effectiveSampleSize (![0, 1] : Fin 2 → ℝ) < 2 := by
  refine ⟨(C27_bounds _).1, lt_of_le_of_ne (by exact_mod_cast (C27_bounds (![0, 1] : Fin 2 → ℝ)).2) ?_⟩
  intro h
  have := (C27_max_iff (![0, 1] : Fin 2 → ℝ)).1 (by exact_mod_cast h) 0 1
  simp at this

theorem zHat_pos (lw : Fin n → ℝ) : 0 < zHat lw := div_pos (sum_exp_pos lw) n_pos

/-- C28. Shifting all log weights shifts the estimate. -/
theorem C28_shift (lw : Fin n → ℝ) (c : ℝ) : logZHat (fun i => lw i + c) = logZHat lw + c := by
  have h : zHat (fun i => lw i + c) = zHat lw * Real.exp c := by
    simp only [zHat, Real.exp_add]
    rw [← Finset.sum_mul]; ring
  rw [logZHat, h, Real.log_mul (zHat_pos lw).ne' (Real.exp_pos c).ne', Real.log_exp, logZHat]

/-- C28. The estimate lies between the mean and every upper bound (in particular the maximum) of the log weights. -/
theorem C28_bounds (lw : Fin n → ℝ) : (∑ i, lw i) / n ≤ logZHat lw ∧ ∀ m, (∀ i, lw i ≤ m) → logZHat lw ≤ m := by
  have hn : (0 : ℝ) < n := n_pos
  constructor
  · rw [logZHat, Real.le_log_iff_exp_le (zHat_pos lw), zHat]
    have := convexOn_exp.map_sum_le (t := Finset.univ) (w := fun _ : Fin n => (1 / n : ℝ)) (p := lw)
      (fun i _ => by positivity) (by simp) (fun i _ => Set.mem_univ _)
    simp only [smul_eq_mul, ← Finset.mul_sum] at this
    rw [div_eq_inv_mul, div_eq_inv_mul]
    simpa using this
  · intro m hm
    rw [logZHat, Real.log_le_iff_le_exp (zHat_pos lw), zHat, div_le_iff₀ hn]
    calc ∑ i, Real.exp (lw i) ≤ ∑ _i : Fin n, Real.exp m := Finset.sum_le_sum fun i _ => Real.exp_le_exp.2 (hm i)
      _ = Real.exp m * n := by simp [mul_comm]

/-- C28. The estimate is linear in the weights' scale and symmetric; for equal log weights it is their common value. -/
theorem C28_equal (c : ℝ) : logZHat (fun _ : Fin n => c) = c := by
  have hn : (n : ℝ) ≠ 0 := (n_pos).ne'
  rw [logZHat, zHat]
  simp only [Finset.sum_const, Finset.card_univ, Fintype.card_fin, nsmul_eq_mul]
  rw [mul_div_assoc, mul_div_cancel₀ _ hn, Real.log_exp]

/-- C28: weights 1 and 3 have mean 2. -/
example : logZHat (![0, Real.log 3] : Fin 2 → ℝ) = Real.log 2 := by
  simp [logZHat, zHat, Fin.sum_univ_two, Real.exp_log]
  norm_num

theorem resampledLw_eq (lw : Fin n → ℝ) (s : Fin n) : resampledLw false lw s = logZHat lw := by
  have hn : (0 : ℝ) < n := n_pos
  simp only [resampledLw, logsumexp, logZHat, zHat, Bool.false_eq_true, if_false]
  congr 1
  rw [Finset.sum_div]
  refine Finset.sum_congr rfl fun i _ => ?_
  rw [Real.exp_sub, Real.exp_log hn]

/-- C24. Every resampled log weight is the log of the mean incoming weight; hence the evidence estimate is unchanged and
the effective sample size is the number of particles. -/
theorem C24_resampled_weights (lw : Fin n → ℝ) :
    (∀ s, resampledLw false lw s = Real.log ((∑ i, Real.exp (lw i)) / n)) ∧
      logZHat (resampledLw false lw) = logZHat lw ∧ effectiveSampleSize (resampledLw false lw) = n := by
  have h : resampledLw false lw = fun _ => logZHat lw := funext (resampledLw_eq lw)
  refine ⟨fun s => resampledLw_eq lw s, by rw [h, C28_equal], ?_⟩
  rw [C27_max_iff, h]
  intro i j
  trivial

/-- C24. With `normalize_weights` every log weight is `-log n` (and the evidence estimate is lost: it becomes `-log n`). -/
theorem C24_normalized (lw : Fin n → ℝ) :
    (∀ s, resampledLw true lw s = -Real.log n) ∧ logZHat (resampledLw true lw) = -Real.log n := by
  have h : ∀ s, resampledLw true lw s = -Real.log n := by
    intro s
    simp only [resampledLw, if_true, softmax, Finset.sum_const, Finset.card_univ, Fintype.card_fin, nsmul_eq_mul]
    rw [← Real.log_inv]
    congr 1
    rw [div_mul_cancel_right₀ (Real.exp_pos _).ne']
  refine ⟨h, ?_⟩
  rw [show resampledLw true lw = fun _ => -Real.log n from funext h, C28_equal]

/-- C24: three particles of weights 1, 2, 3 all get weight 2. -/
example (s : Fin 3) : resampledLw false (![0, Real.log 2, Real.log 3] : Fin 3 → ℝ) s = Real.log 2 := by
  rw [(C24_resampled_weights _).1]
  simp [Fin.sum_univ_three, Real.exp_log]
  norm_num

end Verif
