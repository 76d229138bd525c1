import Mathlib.Algebra.Order.Chebyshev
import Verif.Props.FloatMetrics
import Verif.Props.FloatResampler
/-
C89: how accurate the log weight after resampling and the effective sample size are in float32.
-/
namespace Verif
namespace Fp
open Finset (range)

/-- Numbers of relative distance `x` have logarithms of about that distance. -/
theorem log_close {a b x y : ℝ} (hb : 0 < b) (hx : |a - b| ≤ x * b) (hx1 : x < 1) (hy : x ≤ y * (1 - x)) : |Real.log a - Real.log b| ≤ y := by
  have h := abs_le.1 hx
  have ha : 0 < a := by nlinarith
  have h1 := Real.log_le_sub_one_of_pos (div_pos ha hb)
  have h2 := Real.log_le_sub_one_of_pos (div_pos hb ha)
  rw [Real.log_div ha.ne' hb.ne'] at h1
  rw [Real.log_div hb.ne' ha.ne'] at h2
  have h3 : a / b - 1 ≤ x := by
    rw [sub_le_iff_le_add, div_le_iff₀ hb]
    linarith
  have hx0 : 0 ≤ x := by
    by_contra hc
    have := abs_nonneg (a - b)
    nlinarith
  have hy0 : 0 ≤ y := by
    by_contra hc
    nlinarith
  have hxy : x ≤ y := by nlinarith
  have h4 : b / a - 1 ≤ y := by
    rw [sub_le_iff_le_add, div_le_iff₀ ha]
    have : b * (1 - x) ≤ a := by linarith
    nlinarith
  exact abs_le.2 ⟨by linarith, by linarith⟩

theorem float32_exp {d : Bool} (x : ℝ) (hx : x ≤ 0) : |(float32 d).exp x - Real.exp x| ≤ 1 / 2 ^ 24 := by
  have := (float32_err (d := d)).rd (Real.exp x)
  rwa [abs_of_pos (Real.exp_pos x), max_eq_right (Real.exp_le_one_iff.2 hx), mul_one] at this

theorem float32_top {d : Bool} : Real.exp (-((float32 d).top / 2)) ≤ 1 / 2 ^ 24 := by
  rw [Real.exp_neg, ← one_div]
  refine one_div_le_one_div_of_le (by positivity) ?_
  have := Real.add_one_le_exp ((float32 d).top / 2)
  have h2 : (2 : ℝ) ^ 24 ≤ (float32 d).top / 2 + 1 := by
    show (2 : ℝ) ^ 24 ≤ (2 ^ 24 - 1) * 2 ^ 104 / 2 + 1
    norm_num
  linarith

/-- The exponentials relative to the maximum. -/
theorem expReal_float32 {d : Bool} {n : Nat} (hA : (float32 d).Ok n) (m : ℝ) (v : Num) (hv : v ≠ .nan ∧ v ≠ .pinf) (hle : ∀ x, v = .fin x → x ≤ m) :
    |expReal (float32 d) m v - v.weight * Real.exp (-m)| ≤ 2 * (1 / 2 ^ 24) := by
  cases v with
  | nan => exact absurd rfl hv.1
  | pinf => exact absurd rfl hv.2
  | ninf => simp only [expReal, Num.weight, zero_mul, sub_zero, abs_zero]; norm_num
  | fin x =>
    have hx := hle x rfl
    have hEx : (Num.fin x).weight * Real.exp (-m) = Real.exp (x - m) := by
      show Real.exp x * _ = _
      rw [← Real.exp_add]
      rfl
    rw [hEx]
    simp only [expReal]
    have hd0 : (float32 d).rd (x - m) ≤ 0 := by
      have := hA.rd_mono (show x - m ≤ 0 by linarith)
      rwa [hA.zero] at this
    have herr := (float32_err (d := d)).rd (x - m)
    split_ifs with h
    · have h1 := float32_exp (d := d) _ hd0
      have h2 := exp_close hd0 (by linarith : x - m ≤ 0) (by norm_num) (by norm_num) herr
      have := abs_add_le ((float32 d).exp ((float32 d).rd (x - m)) - Real.exp ((float32 d).rd (x - m))) (Real.exp ((float32 d).rd (x - m)) - Real.exp (x - m))
      rw [sub_add_sub_cancel] at this
      linarith
    · have hlt : (float32 d).rd (x - m) < -(float32 d).top := by
        by_contra hc
        exact h ⟨hx, not_lt.1 hc⟩
      have htop : (1 : ℝ) ≤ (float32 d).top := by
        show (1 : ℝ) ≤ (2 ^ 24 - 1) * 2 ^ 104
        norm_num
      have hy : (float32 d).top / 2 ≤ m - x := by
        rw [abs_of_nonpos (by linarith : x - m ≤ 0)] at herr
        have := (abs_le.1 herr).1
        rcases le_total (-(x - m)) 1 with h1 | h1
        · rw [max_eq_right h1] at this
          linarith
        · rw [max_eq_left h1] at this
          nlinarith
      have : Real.exp (x - m) ≤ 1 / 2 ^ 24 := (Real.exp_le_exp.2 (by linarith)).trans (float32_top (d := d))
      rw [zero_sub, abs_neg, abs_of_pos (Real.exp_pos _)]
      linarith

/-- The sum that softmax and `logsumexp` divide by or take the logarithm of, relative to the maximum. -/
theorem softmax_sum {d : Bool} {n : Nat} (hn : 0 < n) (hn' : n ≤ 2 ^ 16) (t : SumTree) (ht : t.leaves.Perm (List.range n)) (v : Nat → Num) (hv : ∀ i, i < n → v i ≠ .nan ∧ v i ≠ .pinf)
    (m s : ℝ) (j : Nat) (hj : j < n) (hjm : v j = .fin m) (hle : ∀ i x, i < n → v i = .fin x → x ≤ m)
    (es' : t.sum (float32 d) (fun i => .fin (expReal (float32 d) m (v i))) = .fin s) (he0 : ∀ i, 0 ≤ expReal (float32 d) m (v i)) (he1 : ∀ i, expReal (float32 d) m (v i) ≤ 1)
    (her : ∀ i, (float32 d).rd (expReal (float32 d) m (v i)) = expReal (float32 d) m (v i)) (hej : expReal (float32 d) m (v j) = 1) (hs1 : 1 ≤ s) (hsn : s ≤ n) :
    ∃ S, 1 ≤ S ∧ |(float32 d).rd s - S| ≤ 6 * n * (1 / 2 ^ 24) * S ∧ ∀ i, exactWeight v n i = (v i).weight * Real.exp (-m) / S := by
  have hA := float32_ok (d := d) hn (hn'.trans (by norm_num))
  have hE := float32_err (d := d)
  have hnr : (1 : ℝ) ≤ n := by exact_mod_cast hn
  have hnr' : (n : ℝ) ≤ 2 ^ 16 := by exact_mod_cast hn'
  set r := (float32 d).rd s with hr
  -- the sums
  let E : Nat → ℝ := fun i => (v i).weight * Real.exp (-m)
  have hE0 : ∀ i, 0 ≤ E i := fun i => mul_nonneg (weight_nonneg _) (Real.exp_pos _).le
  set S := ∑ i ∈ range n, E i with hS
  have hS1 : 1 ≤ S := by
    have h1 : E j = 1 := by
      show (v j).weight * _ = 1
      rw [hjm]
      show Real.exp m * _ = 1
      rw [← Real.exp_add, add_neg_cancel, Real.exp_zero]
    rw [← h1]
    exact Finset.single_le_sum (fun i _ => hE0 i) (Finset.mem_range.2 hj)
  set T := ∑ i ∈ range n, expReal (float32 d) m (v i) with hT
  have hT1 : 1 ≤ T := by
    rw [← hej]
    exact Finset.single_le_sum (f := fun i => expReal (float32 d) m (v i)) (fun i _ => he0 i) (Finset.mem_range.2 hj)
  have hsT : |s - T| ≤ 2 * (1 / 2 ^ 24) * n * T := by
    have hlen : t.leaves.length = n := by rw [ht.length_eq, List.length_range]
    have h2 : (t.leaves.map fun i => expReal (float32 d) m (v i)).sum = T := by
      rw [(ht.map _).sum_eq]
      rfl
    have h := sum_close hA hE (by norm_num) (by nlinarith) (fun i => expReal (float32 d) m (v i)) he0 he1 her T hT1 t s hlen.le h2.le es'
    rw [h2, hlen] at h
    refine h.trans ?_
    nlinarith
  have hTS : |T - S| ≤ n * (2 * (1 / 2 ^ 24)) := by
    rw [hS, hT, ← Finset.sum_sub_distrib]
    refine (Finset.abs_sum_le_sum_abs _ _).trans ?_
    refine (Finset.sum_le_sum fun i hi => expReal_float32 hA m (v i) (hv i (Finset.mem_range.1 hi)) fun x hx => hle i x (Finset.mem_range.1 hi) hx).trans ?_
    rw [Finset.sum_const, Finset.card_range, nsmul_eq_mul]
  have hrs : |r - s| ≤ 1 / 2 ^ 24 * s := by
    have := hE.rd_nonneg s (by linarith)
    rwa [max_eq_left hs1] at this
  have hrS : |r - S| ≤ 6 * n * (1 / 2 ^ 24) * S := by
    have h1 := abs_le.1 hTS
    have h2 := abs_le.1 hsT
    have h3 := abs_le.1 hrs
    have hq : (n : ℝ) * (1 / 2 ^ 24) ≤ 1 / 256 := by linarith
    have hq1 : (1 : ℝ) / 2 ^ 24 ≤ n * (1 / 2 ^ 24) := by linarith
    generalize hqq : (n : ℝ) * (1 / 2 ^ 24) = q at *
    have e1 : 2 * (1 / 2 ^ 24) * n * T = 2 * q * T := by rw [← hqq]; ring
    have e2 : (n : ℝ) * (2 * (1 / 2 ^ 24)) = 2 * q := by rw [← hqq]; ring
    have e3 : 6 * n * (1 / 2 ^ 24) * S = 6 * q * S := by rw [← hqq]; ring
    rw [e1] at h2
    rw [e2] at h1
    rw [e3]
    have hq0 : 0 < q := lt_of_lt_of_le (by norm_num) hq1
    have hTS' : T ≤ (1 + 1 / 128) * S := by nlinarith
    have hqT : q * T ≤ q * ((1 + 1 / 128) * S) := mul_le_mul_of_nonneg_left hTS' hq0.le
    have hqS : q ≤ q * S := le_mul_of_one_le_right hq0.le hS1
    have hs' : s ≤ (1 + 1 / 16) * S := by nlinarith
    have hes : 1 / 2 ^ 24 * s ≤ q * ((1 + 1 / 16) * S) := mul_le_mul hq1 hs' (by linarith) hq0.le
    refine abs_le.2 ⟨by linarith, by linarith⟩
  refine ⟨S, hS1, hrS, fun i => ?_⟩
  unfold exactWeight
  rw [hS]
  show _ = _ / ∑ i ∈ range n, (v i).weight * Real.exp (-m)
  rw [← Finset.sum_mul, mul_div_mul_right _ _ (Real.exp_pos _).ne']

/-- `logsumexp` of usable numbers in float32 is the logarithm of the sum of the weights, up to an error that grows with the number of terms, and the rounding of the
result. -/
theorem logsumexp_close {d : Bool} {n : Nat} (hn : 0 < n) (hn' : n ≤ 2 ^ 16) (t : SumTree) (ht : t.leaves.Perm (List.range n)) (v : Nat → Num) (hv : ∀ i, i < n → v i ≠ .nan ∧ v i ≠ .pinf)
    (hfin : ∃ i x, i < n ∧ v i = .fin x) :
    ∃ m l, (∃ j, j < n ∧ v j = .fin m) ∧ (∀ i x, i < n → v i = .fin x → x ≤ m) ∧ logsumexp (float32 d) t v n = fit (float32 d).top ((float32 d).rd l) ∧
      m ≤ l ∧ l ≤ m + 17 ∧ |l - Real.log (∑ i ∈ range n, (v i).weight)| ≤ (7 * n + 17) * (1 / 2 ^ 24) := by
  have hn24 : n ≤ 2 ^ 24 := hn'.trans (by norm_num)
  have hA := float32_ok (d := d) hn hn24
  have hE := float32_err (d := d)
  have hnr : (1 : ℝ) ≤ n := by exact_mod_cast hn
  have hnr' : (n : ℝ) ≤ 2 ^ 16 := by exact_mod_cast hn'
  obtain ⟨m, s, j, hj, hjm, hle, em, es, es', he0, he1, her, hej, hs1, hsn, hr1, hrn, -, -⟩ := softmax_eq hA t ht v hv hfin
  have h17 : b32.round 17 = 17 := by simpa using round_of_rep b32 (by decide) (rep_nat b32 (by decide) (k := 17) (by decide))
  set r := (float32 d).rd s with hr
  set L := (float32 d).log r with hL
  have hlogr0 : 0 ≤ Real.log r := Real.log_nonneg hr1
  have hlogr : Real.log r ≤ 17 := by
    have hle : r ≤ 2 ^ 24 := hrn.trans (by exact_mod_cast hn24)
    have h2 := Real.log_le_log (by linarith) hle
    rw [Real.log_pow] at h2
    have := Real.log_two_lt_d9
    push_cast at h2
    linarith
  have hL0 : 0 ≤ L := by
    show 0 ≤ b32.round (Real.log r)
    rw [← round_zero b32]
    exact round_mono b32 (by decide) hlogr0
  have hL17 : L ≤ 17 := by
    show b32.round (Real.log r) ≤ 17
    rw [← h17]
    exact round_mono b32 (by decide) hlogr
  have hLr : |L - Real.log r| ≤ 17 * (1 / 2 ^ 24) := by
    refine (hE.rd (Real.log r)).trans ?_
    rw [abs_of_nonneg hlogr0, mul_comm]
    exact mul_le_mul_of_nonneg_right (max_le hlogr (by norm_num)) (by norm_num)
  obtain ⟨S, hS1, hrS, hWS⟩ := softmax_sum hn hn' t ht v hv m s j hj hjm hle es' he0 he1 her hej hs1 hsn
  have hSW : Real.log (∑ i ∈ range n, (v i).weight) = Real.log S + m := by
    have hp := sum_weight_pos v n hfin
    have h1 := hWS j
    unfold exactWeight at h1
    have hwj : (v j).weight ≠ 0 := by
      rw [hjm]
      exact (Real.exp_pos m).ne'
    have h2 : ∑ i ∈ range n, (v i).weight = S * Real.exp m := by
      have hem : Real.exp m * Real.exp (-m) = 1 := by rw [← Real.exp_add, add_neg_cancel, Real.exp_zero]
      rw [div_eq_div_iff hp.ne' (by linarith)] at h1
      have h3 : S = Real.exp (-m) * ∑ i ∈ range n, (v i).weight := mul_left_cancel₀ hwj (by linarith)
      rw [h3]
      linear_combination (-(∑ i ∈ range n, (v i).weight)) * hem
    rw [h2, Real.log_mul (by linarith) (Real.exp_pos _).ne', Real.log_exp]
  rw [← hr] at hrS
  have hlog : |Real.log r - Real.log S| ≤ 7 * n * (1 / 2 ^ 24) := by
    refine log_close (by linarith) hrS (by linarith) ?_
    nlinarith
  refine ⟨m, L + m, ⟨j, hj, hjm⟩, hle, ?_, by linarith, by linarith, ?_⟩
  · unfold logsumexp
    simp only
    rw [em] at es ⊢
    show Num.plus (float32 d) (Num.log (float32 d) (Num.round (float32 d) (t.sum (float32 d) fun i => Num.exp (float32 d) (Num.sub (float32 d) (v i) (.fin m))))) (.fin m) = _
    rw [es]
    show Num.plus (float32 d) (Num.log (float32 d) (fit (float32 d).top ((float32 d).rd s))) (.fin m) = _
    rw [fit_fin (by linarith) (hrn.trans hA.top)]
    show Num.plus (float32 d) (if _ then _ else if _ then _ else _) (.fin m) = _
    rw [if_neg (by linarith), if_neg (by linarith)]
    rfl
  · rw [hSW]
    have h1 := abs_le.1 hLr
    have h2 := abs_le.1 hlog
    exact abs_le.2 ⟨by linarith, by linarith⟩


/-- Sums whose terms agree up to a factor. -/
theorem log_sum_close {n : Nat} (p q : Nat → ℝ) {δ : ℝ} (hp : 0 < ∑ i ∈ range n, p i) (hq : 0 < ∑ i ∈ range n, q i) (h1 : ∀ i, i < n → p i ≤ Real.exp δ * q i) (h2 : ∀ i, i < n → q i ≤ Real.exp δ * p i) :
    |Real.log (∑ i ∈ range n, p i) - Real.log (∑ i ∈ range n, q i)| ≤ δ := by
  have a1 : ∑ i ∈ range n, p i ≤ Real.exp δ * ∑ i ∈ range n, q i := by
    rw [Finset.mul_sum]
    exact Finset.sum_le_sum fun i hi => h1 i (Finset.mem_range.1 hi)
  have a2 : ∑ i ∈ range n, q i ≤ Real.exp δ * ∑ i ∈ range n, p i := by
    rw [Finset.mul_sum]
    exact Finset.sum_le_sum fun i hi => h2 i (Finset.mem_range.1 hi)
  have b1 := Real.log_le_log hp a1
  have b2 := Real.log_le_log hq a2
  rw [Real.log_mul (Real.exp_pos _).ne' hq.ne', Real.log_exp] at b1
  rw [Real.log_mul (Real.exp_pos _).ne' hp.ne', Real.log_exp] at b2
  exact abs_le.2 ⟨by linarith, by linarith⟩

/-- C89. The log weight after resampling usable float32 log weights of size at most `M` is the logarithm of the mean of the weights, up to `(7 n + 3 M + 80) / 2^24` and the
error of `math.log(n)`. -/
theorem C89_new_weight_close {d : Bool} {n : Nat} (hn : 0 < n) (hn' : n ≤ 2 ^ 16) (t : SumTree) (ht : t.leaves.Perm (List.range n)) (lw : Nat → Num)
    (hlw : ∀ i, i < n → lw i ≠ .nan ∧ lw i ≠ .pinf) (hfin : ∃ i x, i < n ∧ lw i = .fin x) (M : ℝ) (hM : M ≤ 2 ^ 100) (hsize : ∀ i x, i < n → lw i = .fin x → |x| ≤ M) (logn : ℝ) (h0 : 0 ≤ logn) (h17 : logn ≤ 17) :
    ∃ y, newLogWeight (float32 d) t lw n logn = .fin y ∧ |y - Real.log ((∑ i ∈ range n, (lw i).weight) / n)| ≤ (7 * n + 3 * M + 80) * (1 / 2 ^ 24) + |logn - Real.log n| := by
  have hnpos : (0 : ℝ) < n := by exact_mod_cast hn
  have hE := float32_err (d := d)
  have hM0 : 0 ≤ M := by
    obtain ⟨i, x, hi, hx⟩ := hfin
    exact (abs_nonneg x).trans (hsize i x hi hx)
  obtain ⟨y, hy, -⟩ := C89_new_weight_float32 (d := d) hn (hn'.trans (by norm_num)) t ht lw hlw hfin (fun i x hi hx => (hsize i x hi hx).trans hM) logn h0 h17
  refine ⟨y, hy, ?_⟩
  have htop : (2 : ℝ) ^ 102 ≤ (float32 d).top := by
    show (2 : ℝ) ^ 102 ≤ (2 ^ 24 - 1) * 2 ^ 104
    norm_num
  -- the numbers that logsumexp is called on
  have herr : ∀ i x, i < n → lw i = .fin x → |(float32 d).rd (x - logn) - (x - logn)| ≤ (M + 17) * (1 / 2 ^ 24) := by
    intro i x hi hl
    refine (hE.rd _).trans ?_
    rw [mul_comm]
    refine mul_le_mul_of_nonneg_right (max_le ?_ (by linarith)) (by norm_num)
    have hb := abs_le.1 (hsize i x hi hl)
    exact abs_le.2 ⟨by linarith, by linarith⟩
  have hval : ∀ i x, i < n → lw i = .fin x → (lw i).sub (float32 d) (.fin logn) = .fin ((float32 d).rd (x - logn)) := by
    intro i x hi hl
    have hb := abs_le.1 (hsize i x hi hl)
    have he := abs_le.1 (herr i x hi hl)
    have h1 : (M + 17) * (1 / 2 ^ 24) ≤ 2 ^ 100 := by linarith
    have h2 : (2 : ℝ) ^ 102 = 4 * 2 ^ 100 := by norm_num
    have h3 : (17 : ℝ) ≤ 2 ^ 100 := by norm_num
    rw [hl]
    show fit _ _ = _
    unfold fit
    rw [if_neg (by linarith), if_neg (by linarith)]
  have hvok : ∀ i, i < n → (lw i).sub (float32 d) (.fin logn) ≠ .nan ∧ (lw i).sub (float32 d) (.fin logn) ≠ .pinf := by
    intro i hi
    cases hl : lw i with
    | nan => exact absurd hl (hlw i hi).1
    | pinf => exact absurd hl (hlw i hi).2
    | ninf => exact ⟨fun h => (by cases h), fun h => (by cases h)⟩
    | fin x =>
      have := hval i x hi hl
      rw [hl] at this
      rw [this]
      exact ⟨fun h => (by cases h), fun h => (by cases h)⟩
  obtain ⟨i₀, x₀, hi₀, hx₀⟩ := hfin
  have hfin' : ∃ i x, i < n ∧ (lw i).sub (float32 d) (.fin logn) = .fin x := ⟨i₀, _, hi₀, hval i₀ x₀ hi₀ hx₀⟩
  obtain ⟨m, l, ⟨i, hi, hm⟩, -, hlse, hml, hlm, hl⟩ := logsumexp_close (d := d) hn hn' t ht _ hvok hfin'
  have hmb : |m| ≤ M + 18 + M * (1 / 2 ^ 24) := by
    obtain ⟨x, hlx⟩ : ∃ x, lw i = .fin x := by
      cases hl : lw i with
      | nan => exact absurd hl (hlw i hi).1
      | pinf => exact absurd hl (hlw i hi).2
      | ninf => rw [hl] at hm; cases hm
      | fin x => exact ⟨x, rfl⟩
    have hmx : m = (float32 d).rd (x - logn) := by
      have := hval i x hi hlx
      rw [hm] at this
      exact Num.fin.inj this
    have h1 := abs_le.1 (herr i x hi hlx)
    have h2 := abs_le.1 (hsize i x hi hlx)
    rw [← hmx] at h1
    exact abs_le.2 ⟨by linarith, by linarith⟩
  have hyl : |y - l| ≤ (M + 36 + M * (1 / 2 ^ 24)) * (1 / 2 ^ 24) := by
    have hye : y = (float32 d).rd l := by
      unfold newLogWeight at hy
      rw [hlse] at hy
      unfold fit at hy
      split_ifs at hy
      exact (Num.fin.inj hy).symm
    rw [hye]
    refine (hE.rd l).trans ?_
    rw [mul_comm]
    have h2 := abs_le.1 hmb
    have h3 : 0 ≤ M * (1 / 2 ^ 24) := by positivity
    refine mul_le_mul_of_nonneg_right (max_le ?_ (by linarith)) (by norm_num)
    exact abs_le.2 ⟨by linarith, by linarith⟩
  -- the exact sums
  have hsum : |Real.log (∑ i ∈ range n, ((lw i).sub (float32 d) (.fin logn)).weight) - Real.log (∑ i ∈ range n, (lw i).weight * Real.exp (-logn))| ≤ (M + 17) * (1 / 2 ^ 24) := by
    have hpos : 0 < ∑ i ∈ range n, (lw i).weight := sum_weight_pos lw n ⟨i₀, x₀, hi₀, hx₀⟩
    have key : ∀ i, i < n → ((lw i).sub (float32 d) (.fin logn)).weight ≤ Real.exp ((M + 17) * (1 / 2 ^ 24)) * ((lw i).weight * Real.exp (-logn)) ∧
        (lw i).weight * Real.exp (-logn) ≤ Real.exp ((M + 17) * (1 / 2 ^ 24)) * ((lw i).sub (float32 d) (.fin logn)).weight := by
      intro i hi
      cases hl : lw i with
      | nan => exact absurd hl (hlw i hi).1
      | pinf => exact absurd hl (hlw i hi).2
      | ninf => simp [Num.weight, Num.sub]
      | fin x =>
        have h1 := hval i x hi hl
        rw [hl] at h1
        rw [h1]
        have he := abs_le.1 (herr i x hi hl)
        show Real.exp _ ≤ Real.exp _ * (Real.exp x * _) ∧ Real.exp x * _ ≤ Real.exp _ * Real.exp _
        rw [← Real.exp_add, ← Real.exp_add, ← Real.exp_add, Real.exp_le_exp, Real.exp_le_exp]
        constructor <;> linarith
    refine log_sum_close _ _ (sum_weight_pos _ n hfin') ?_ (fun i hi => (key i hi).1) fun i hi => (key i hi).2
    rw [← Finset.sum_mul]
    exact mul_pos hpos (Real.exp_pos _)
  have hpos : 0 < ∑ i ∈ range n, (lw i).weight := sum_weight_pos lw n ⟨i₀, x₀, hi₀, hx₀⟩
  rw [← Finset.sum_mul, Real.log_mul hpos.ne' (Real.exp_pos _).ne', Real.log_exp] at hsum
  rw [Real.log_div hpos.ne' hnpos.ne']
  have b1 := abs_le.1 hsum
  have b2 := abs_le.1 hyl
  have b3 := abs_le.1 hl
  have b4 := neg_abs_le (logn - Real.log n)
  have b5 := le_abs_self (logn - Real.log n)
  refine abs_le.2 ⟨by linarith, by linarith⟩

/-- Positive float32 numbers are not too small. -/
theorem rep_pos {x : ℝ} (h : b32.Rep x) (hx : 0 < x) : 1 / 2 ^ 149 ≤ x := by
  obtain ⟨m, e, he, -, rfl⟩ := h
  have hz : (0 : ℝ) < 2 ^ e := by positivity
  have hm : 0 < m := by
    by_contra hc
    have : (m : ℝ) ≤ 0 := by exact_mod_cast not_lt.1 hc
    nlinarith
  have hm1 : (1 : ℝ) ≤ m := by exact_mod_cast hm
  have he' : ((2 : ℝ) ^ (-149 : ℤ)) ≤ 2 ^ e := zpow_le_zpow_right₀ (by norm_num) he
  have : (1 : ℝ) / 2 ^ 149 = 2 ^ (-149 : ℤ) := by rw [zpow_neg, one_div]; norm_cast
  rw [this]
  nlinarith

/-- The distance of each weight that softmax returns in float32 from the exact one. -/
theorem softmax_pointwise {d : Bool} {n : Nat} (hn : 0 < n) (hn' : n ≤ 2 ^ 16) (t : SumTree) (ht : t.leaves.Perm (List.range n)) (lw : Nat → Num) (hlw : ∀ i, i < n → lw i ≠ .nan ∧ lw i ≠ .pinf)
    (hfin : ∃ i x, i < n ∧ lw i = .fin x) (w : Nat → ℝ) (hw : ∀ i, i < n → softmax (float32 d) t lw n i = .fin (w i)) (i : Nat) (hi : i < n) :
    |w i - exactWeight lw n i| ≤ 3 * (1 / 2 ^ 24) + exactWeight lw n i * (7 * n * (1 / 2 ^ 24)) := by
  have hn24 : n ≤ 2 ^ 24 := hn'.trans (by norm_num)
  have hA := float32_ok (d := d) hn hn24
  have hE := float32_err (d := d)
  have hnr : (1 : ℝ) ≤ n := by exact_mod_cast hn
  have hnr' : (n : ℝ) ≤ 2 ^ 16 := by exact_mod_cast hn'
  obtain ⟨m, s, j, hj, hjm, hle, em, es, es', he0, he1, her, hej, hs1, hsn, hr1, hrn, hsm, -⟩ := softmax_eq hA t ht lw hlw hfin
  obtain ⟨S, hS1, hrS, hWS⟩ := softmax_sum hn hn' t ht lw hlw m s j hj hjm hle es' he0 he1 her hej hs1 hsn
  set r := (float32 d).rd s with hr
  have hpos : 0 < r := by linarith
  have hSpos : 0 < S := by linarith
  have hwi : w i = (float32 d).rd (expReal (float32 d) m (lw i) / r) := by
    have := hw i hi
    rw [hsm i hi] at this
    exact (Num.fin.inj this).symm
  have hle1 : expReal (float32 d) m (lw i) / r ≤ 1 := (div_le_one hpos).2 ((he1 i).trans hr1)
  have h1 := hE.rd_nonneg (expReal (float32 d) m (lw i) / r) (div_nonneg (he0 i) hpos.le)
  rw [max_eq_right hle1, mul_one, ← hwi] at h1
  set E := (lw i).weight * Real.exp (-m) with hEdef
  have hE0 : 0 ≤ E := mul_nonneg (weight_nonneg _) (Real.exp_pos _).le
  have h2 : expReal (float32 d) m (lw i) / r - E / S = (expReal (float32 d) m (lw i) - E) / r + E / S * ((S - r) / r) := by
    field_simp
    ring
  have h3 : |(expReal (float32 d) m (lw i) - E) / r| ≤ 2 * (1 / 2 ^ 24) := by
    rw [abs_div, abs_of_pos hpos]
    exact (div_le_self (abs_nonneg _) hr1).trans (expReal_float32 hA m (lw i) (hlw i hi) fun x hx => hle i x hi hx)
  have h4 : |E / S * ((S - r) / r)| ≤ E / S * (7 * n * (1 / 2 ^ 24)) := by
    have hES : 0 ≤ E / S := div_nonneg hE0 hSpos.le
    rw [abs_mul, abs_of_nonneg hES]
    refine mul_le_mul_of_nonneg_left ?_ hES
    rw [abs_div, abs_of_pos hpos, abs_sub_comm, div_le_iff₀ hpos]
    refine hrS.trans ?_
    have hq : (n : ℝ) * (1 / 2 ^ 24) ≤ 1 / 256 := by linarith
    have hq0 : 0 ≤ (n : ℝ) * (1 / 2 ^ 24) := by positivity
    have := (abs_le.1 hrS).1
    have hSr : S ≤ 7 / 6 * r := by nlinarith
    nlinarith
  rw [hWS i]
  have h5 : w i - E / S = (w i - expReal (float32 d) m (lw i) / r) + (expReal (float32 d) m (lw i) / r - E / S) := by ring
  rw [h5]
  refine (abs_add_le _ _).trans ?_
  rw [h2]
  linarith [abs_add_le ((expReal (float32 d) m (lw i) - E) / r) (E / S * ((S - r) / r))]

/-- The exact effective sample size: one over the sum of the squares of the normalised weights. -/
noncomputable def exactEss (lw : Nat → Num) (n : Nat) : ℝ := 1 / ∑ i ∈ range n, exactWeight lw n i ^ 2

/-- The sum of the squares of the weights that softmax returns. -/
theorem squares_close {d : Bool} {n : Nat} (hn : 0 < n) (hn' : n ≤ 2 ^ 16) (t : SumTree) (ht : t.leaves.Perm (List.range n)) (lw : Nat → Num) (hlw : ∀ i, i < n → lw i ≠ .nan ∧ lw i ≠ .pinf)
    (hfin : ∃ i x, i < n ∧ lw i = .fin x) (w : Nat → ℝ) (hw : ∀ i, i < n → softmax (float32 d) t lw n i = .fin (w i)) :
    0 < ∑ i ∈ range n, exactWeight lw n i ^ 2 ∧ ∑ i ∈ range n, exactWeight lw n i ^ 2 ≤ 1 ∧
      |∑ i ∈ range n, w i ^ 2 - ∑ i ∈ range n, exactWeight lw n i ^ 2| ≤ 21 * n * (1 / 2 ^ 24) * ∑ i ∈ range n, exactWeight lw n i ^ 2 := by
  have hnr : (1 : ℝ) ≤ n := by exact_mod_cast hn
  have hnr' : (n : ℝ) ≤ 2 ^ 16 := by exact_mod_cast hn'
  have hpt := softmax_pointwise hn hn' t ht lw hlw hfin w hw
  have hW0 := exactWeight_nonneg lw n
  have hW1 := sum_exactWeight lw n hfin
  have hQn : 1 ≤ n * ∑ i ∈ range n, exactWeight lw n i ^ 2 := by
    have h := sq_sum_le_card_mul_sum_sq (s := range n) (f := exactWeight lw n)
    rw [hW1, Finset.card_range, one_pow] at h
    exact h
  have hQ1 : ∑ i ∈ range n, exactWeight lw n i ^ 2 ≤ 1 := by
    rw [← hW1]
    refine Finset.sum_le_sum fun i hi => ?_
    have : exactWeight lw n i ≤ 1 := by
      rw [← hW1]
      exact Finset.single_le_sum (fun i _ => hW0 i) hi
    nlinarith [hW0 i]
  set Q := ∑ i ∈ range n, exactWeight lw n i ^ 2 with hQ
  have hQ0 : 0 < Q := by
    by_contra hc
    nlinarith
  refine ⟨hQ0, hQ1, ?_⟩
  generalize ha : (3 : ℝ) * (1 / 2 ^ 24) = a at hpt
  generalize hb : 7 * (n : ℝ) * (1 / 2 ^ 24) = b at hpt
  have ha0 : 0 ≤ a := by rw [← ha]; norm_num
  have hb0 : 0 ≤ b := by rw [← hb]; positivity
  have hterm : ∀ i ∈ range n, |w i ^ 2 - exactWeight lw n i ^ 2| ≤ a ^ 2 + 2 * a * (1 + b) * exactWeight lw n i + b * (2 + b) * exactWeight lw n i ^ 2 := by
    intro i hi
    have h1 := hpt i (Finset.mem_range.1 hi)
    have h2 : w i ^ 2 - exactWeight lw n i ^ 2 = (w i - exactWeight lw n i) * ((w i - exactWeight lw n i) + 2 * exactWeight lw n i) := by ring
    rw [h2, abs_mul]
    have h3 : |(w i - exactWeight lw n i) + 2 * exactWeight lw n i| ≤ a + exactWeight lw n i * b + 2 * exactWeight lw n i := by
      refine (abs_add_le _ _).trans ?_
      rw [abs_of_nonneg (by linarith [hW0 i] : 0 ≤ 2 * exactWeight lw n i)]
      linarith
    have h4 : 0 ≤ a + exactWeight lw n i * b := (abs_nonneg _).trans h1
    refine (mul_le_mul h1 h3 (abs_nonneg _) h4).trans (le_of_eq ?_)
    ring
  rw [hQ, ← Finset.sum_sub_distrib, ← hQ]
  refine (Finset.abs_sum_le_sum_abs _ _).trans ((Finset.sum_le_sum hterm).trans ?_)
  rw [Finset.sum_add_distrib, Finset.sum_add_distrib, Finset.sum_const, Finset.card_range, nsmul_eq_mul, ← Finset.mul_sum, ← Finset.mul_sum, hW1, ← hQ, mul_one]
  generalize hq : (n : ℝ) * (1 / 2 ^ 24) = q
  have hq1 : q ≤ 1 / 256 := by rw [← hq]; linarith
  have hq0 : 0 < q := by rw [← hq]; positivity
  have haq : a ≤ 3 * q * Q := by
    have : 3 * q * Q = 3 * (1 / 2 ^ 24) * (n * Q) := by rw [← hq]; ring
    rw [this, ← ha]
    exact le_mul_of_one_le_right (by norm_num) hQn
  have hna : n * a ^ 2 = 3 * q * a := by rw [← hq, ← ha]; ring
  have hbq : b = 7 * q := by rw [← hb, ← hq]; ring
  have hgoal : 21 * (n : ℝ) * (1 / 2 ^ 24) * Q = 21 * q * Q := by rw [← hq]; ring
  rw [hgoal, hna, hbq]
  have hqQ : 0 < q * Q := mul_pos hq0 hQ0
  have e1 : 3 * q * a ≤ 3 / 256 * (3 * q * Q) := by nlinarith
  have e2 : 2 * a * (1 + 7 * q) ≤ 2 * (1 + 7 / 256) * (3 * q * Q) := by nlinarith
  have e3 : 7 * q * (2 + 7 * q) * Q ≤ 7 * (2 + 7 / 256) * (q * Q) := by nlinarith
  linarith

/-- C89. The effective sample size of usable float32 log weights is the exact one, up to a relative error of at most `(34 n + 550) / 2^24`. -/
theorem C89_ess_close {d d' : Bool} {n : Nat} (hn : 0 < n) (hn' : n ≤ 2 ^ 16) (t t' : SumTree) (ht : t.leaves.Perm (List.range n)) (ht' : t'.leaves.Perm (List.range n)) (lw : Nat → Num)
    (hlw : ∀ i, i < n → lw i ≠ .nan ∧ lw i ≠ .pinf) (hfin : ∃ i x, i < n ∧ lw i = .fin x) :
    ∃ x, ess (float32 d) (float32 d') t t' lw n = .fin x ∧ |x - exactEss lw n| ≤ (34 * n + 550) * (1 / 2 ^ 24) * exactEss lw n := by
  have hn24 : n ≤ 2 ^ 24 := hn'.trans (by norm_num)
  have hnr : (1 : ℝ) ≤ n := by exact_mod_cast hn
  have hnr' : (n : ℝ) ≤ 2 ^ 16 := by exact_mod_cast hn'
  have hE := float32_err (d := d)
  have hA := float32_ok (d := d') hn hn24
  obtain ⟨x, hx0, hx⟩ := C89_ess_float32 (d := d) (d' := d') hn hn24 t t' ht ht' lw hlw hfin
  refine ⟨x, hx, ?_⟩
  obtain ⟨w, hw, w0, wr, -, w1, wpos⟩ := softmax_ok hA t ht lw hlw hfin
  obtain ⟨hQ0, hQ1, hq⟩ := squares_close hn hn' t ht lw hlw hfin w hw
  unfold exactEss
  set Q := ∑ i ∈ range n, exactWeight lw n i ^ 2 with hQ
  have hlogq : |Real.log (∑ i ∈ range n, w i ^ 2) - Real.log Q| ≤ 23 * n * (1 / 2 ^ 24) := by
    refine log_close hQ0 hq (by linarith) ?_
    nlinarith
  -- twice the logarithms
  have hwr : ∀ i, i < n → 0 < w i → -104 ≤ Real.log (w i) := by
    intro i hi hp
    have hrep : b32.Rep (w i) := by
      rw [← wr i]
      exact round_rep b32 _
    have h1 := Real.log_le_log (by positivity) (rep_pos hrep hp)
    rw [Real.log_div (by norm_num) (by positivity), Real.log_one, Real.log_pow] at h1
    have := Real.log_two_lt_d9
    push_cast at h1
    linarith
  have herr : ∀ i, i < n → 0 < w i → |b32.round (2 * b32.round (Real.log (w i))) - 2 * Real.log (w i)| ≤ 418 * (1 / 2 ^ 24) := by
    intro i hi hp
    have h1 := hwr i hi hp
    have h2 := Real.log_nonpos (w0 i) (w1 i)
    have h3 := hE.rd (Real.log (w i))
    have h4 : |b32.round (Real.log (w i)) - Real.log (w i)| ≤ 104 * (1 / 2 ^ 24) := by
      refine h3.trans ?_
      rw [mul_comm]
      refine mul_le_mul_of_nonneg_right (max_le ?_ (by norm_num)) (by norm_num)
      exact abs_le.2 ⟨by linarith, by linarith⟩
    have h5 : |b32.round (2 * b32.round (Real.log (w i))) - 2 * b32.round (Real.log (w i))| ≤ 210 * (1 / 2 ^ 24) := by
      refine (hE.rd (2 * b32.round (Real.log (w i)))).trans ?_
      rw [mul_comm]
      refine mul_le_mul_of_nonneg_right (max_le ?_ (by norm_num)) (by norm_num)
      have := abs_le.1 h4
      exact abs_le.2 ⟨by linarith, by linarith⟩
    have a1 := abs_le.1 h4
    have a2 := abs_le.1 h5
    exact abs_le.2 ⟨by linarith, by linarith⟩
  have hv : ∀ i, i < n → ((softmax (float32 d') t lw n i).log (float32 d)).two (float32 d) = if w i = 0 then .ninf else .fin (b32.round (2 * b32.round (Real.log (w i)))) := by
    intro i hi
    rw [hw i hi]
    show Num.two (float32 d) (if w i < 0 then _ else if w i = 0 then _ else _) = _
    rw [if_neg (not_lt.2 (w0 i))]
    split_ifs with h
    · rfl
    · have hp := lt_of_le_of_ne (w0 i) (Ne.symm h)
      have h1 := hwr i hi hp
      have h2 := Real.log_nonpos (w0 i) (w1 i)
      have h3 := abs_le.1 (herr i hi hp)
      have htop : (1000 : ℝ) ≤ (float32 d).top := by
        show (1000 : ℝ) ≤ (2 ^ 24 - 1) * 2 ^ 104
        norm_num
      show fit (float32 d).top (b32.round (2 * b32.round (Real.log (w i)))) = _
      unfold fit
      rw [if_neg (by linarith), if_neg (by linarith)]
  have hvok : ∀ i, i < n → ((softmax (float32 d') t lw n i).log (float32 d)).two (float32 d) ≠ .nan ∧ ((softmax (float32 d') t lw n i).log (float32 d)).two (float32 d) ≠ .pinf := by
    intro i hi
    rw [hv i hi]
    split_ifs <;> exact ⟨fun h => (by cases h), fun h => (by cases h)⟩
  obtain ⟨j, hj, hwj⟩ := wpos
  have hvj : ∃ i x, i < n ∧ ((softmax (float32 d') t lw n i).log (float32 d)).two (float32 d) = .fin x := ⟨j, _, hj, by rw [hv j hj, if_neg hwj.ne']⟩
  obtain ⟨m, l, ⟨i, hi, hm⟩, hmax, hlse, hml, hlm, hl⟩ := logsumexp_close (d := d) hn hn' t' ht' _ hvok hvj
  have hsum : |Real.log (∑ i ∈ range n, (((softmax (float32 d') t lw n i).log (float32 d)).two (float32 d)).weight) - Real.log (∑ i ∈ range n, w i ^ 2)| ≤ 418 * (1 / 2 ^ 24) := by
    have key : ∀ i, i < n → (((softmax (float32 d') t lw n i).log (float32 d)).two (float32 d)).weight ≤ Real.exp (418 * (1 / 2 ^ 24)) * w i ^ 2 ∧
        w i ^ 2 ≤ Real.exp (418 * (1 / 2 ^ 24)) * (((softmax (float32 d') t lw n i).log (float32 d)).two (float32 d)).weight := by
      intro i hi
      rw [hv i hi]
      split_ifs with h
      · rw [h]
        simp [Num.weight]
      · have hp := lt_of_le_of_ne (w0 i) (Ne.symm h)
        have he := abs_le.1 (herr i hi hp)
        have hw2 : w i ^ 2 = Real.exp (2 * Real.log (w i)) := by
          rw [two_mul, Real.exp_add, Real.exp_log hp, sq]
        rw [hw2]
        show Real.exp _ ≤ Real.exp _ * Real.exp _ ∧ Real.exp _ ≤ Real.exp _ * Real.exp _
        rw [← Real.exp_add, ← Real.exp_add, Real.exp_le_exp, Real.exp_le_exp]
        constructor <;> linarith
    refine log_sum_close _ _ (sum_weight_pos _ n hvj) ?_ (fun i hi => (key i hi).1) fun i hi => (key i hi).2
    exact Finset.sum_pos' (fun _ _ => sq_nonneg _) ⟨j, Finset.mem_range.2 hj, by positivity⟩
  -- the range of the result
  have hlog1 : |l + Real.log (1 / Q)| ≤ (30 * n + 435) * (1 / 2 ^ 24) := by
    rw [one_div, Real.log_inv]
    have a1 := abs_le.1 hl
    have a2 := abs_le.1 hsum
    have a3 := abs_le.1 hlogq
    exact abs_le.2 ⟨by linarith, by linarith⟩
  have hess1 : 1 ≤ 1 / Q := by rw [le_div_iff₀ hQ0]; linarith
  have hessn : 1 / Q ≤ 2 ^ 16 := by
    rw [div_le_iff₀ hQ0]
    have h := sq_sum_le_card_mul_sum_sq (s := range n) (f := exactWeight lw n)
    rw [sum_exactWeight lw n hfin, Finset.card_range, one_pow] at h
    have : (n : ℝ) * Q ≤ 2 ^ 16 * Q := mul_le_mul_of_nonneg_right hnr' hQ0.le
    exact h.trans this
  have hl0 := Real.log_nonneg hess1
  have hl12 : Real.log (1 / Q) ≤ 12 := by
    have h1 := Real.log_le_log (by linarith) hessn
    rw [Real.log_pow] at h1
    have := Real.log_two_lt_d9
    push_cast at h1
    linarith
  set y := (float32 d).rd l with hy
  have hyl : |y - l| ≤ 13 * (1 / 2 ^ 24) := by
    refine (hE.rd l).trans ?_
    rw [mul_comm]
    have a1 := abs_le.1 hlog1
    refine mul_le_mul_of_nonneg_right (max_le ?_ (by norm_num)) (by norm_num)
    exact abs_le.2 ⟨by linarith, by linarith⟩
  have hxe : x = b32.round (Real.exp (-y)) := by
    have a1 := abs_le.1 hlog1
    have a2 := abs_le.1 hyl
    have htop : (1000 : ℝ) ≤ (float32 d).top := by
      show (1000 : ℝ) ≤ (2 ^ 24 - 1) * 2 ^ 104
      norm_num
    unfold ess at hx
    rw [hlse] at hx
    have hfit : fit (float32 d).top y = .fin y := by
      unfold fit
      rw [if_neg (by linarith), if_neg (by linarith)]
    rw [hfit] at hx
    have h1 : fit (float32 d).top (b32.round (Real.exp (-y))) = .fin x := hx
    unfold fit at h1
    split_ifs at h1
    exact (Num.fin.inj h1).symm
  -- back from the logarithms
  set c : ℝ := (30 * n + 448) * (1 / 2 ^ 24) with hc
  have hc0 : 0 ≤ c := by positivity
  have hc1 : c ≤ 3 / 25 := by rw [hc]; linarith
  have hz : |(-y) - Real.log (1 / Q)| ≤ c := by
    have a1 := abs_le.1 hlog1
    have a2 := abs_le.1 hyl
    exact abs_le.2 ⟨by linarith, by linarith⟩
  have hexp : Real.exp (-y) = 1 / Q * Real.exp ((-y) - Real.log (1 / Q)) := by
    rw [Real.exp_sub, Real.exp_log (by linarith)]
    field_simp
  have hrel : |Real.exp ((-y) - Real.log (1 / Q)) - 1| ≤ 28 / 25 * c := by
    set z := (-y) - Real.log (1 / Q) with hzdef
    have h1 := Real.abs_exp_sub_one_sub_id_le (x := z) (by linarith)
    have h2 : z ^ 2 ≤ 3 / 25 * c := by
      rw [← sq_abs]
      have := abs_nonneg z
      nlinarith
    have h3 : Real.exp z - 1 = (Real.exp z - 1 - z) + z := by ring
    rw [h3]
    refine (abs_add_le _ _).trans ?_
    linarith
  set g := Real.exp ((-y) - Real.log (1 / Q)) with hg
  have hg1 := abs_le.1 hrel
  have hround : |x - Real.exp (-y)| ≤ 1 / 2 ^ 24 * (2 * (1 / Q)) := by
    rw [hxe]
    refine (hE.rd (Real.exp (-y))).trans ?_
    refine mul_le_mul_of_nonneg_left (max_le ?_ (by linarith)) (by norm_num)
    rw [abs_of_pos (Real.exp_pos _), hexp]
    nlinarith
  have hfinal : x - 1 / Q = (x - Real.exp (-y)) + 1 / Q * (g - 1) := by
    rw [hexp]
    ring
  rw [hfinal]
  refine (abs_add_le _ _).trans ?_
  rw [abs_mul, abs_of_pos (by linarith : 0 < 1 / Q)]
  have : 1 / Q * |g - 1| ≤ 1 / Q * (28 / 25 * c) := mul_le_mul_of_nonneg_left hrel (by linarith)
  have hcc : 1 / 2 ^ 24 * (2 * (1 / Q)) + 1 / Q * (28 / 25 * c) ≤ (34 * n + 550) * (1 / 2 ^ 24) * (1 / Q) := by
    rw [hc]
    have hQi : 0 < 1 / Q := by linarith
    have : (2 + 28 / 25 * (30 * (n : ℝ) + 448)) * (1 / Q) ≤ (34 * n + 550) * (1 / Q) := mul_le_mul_of_nonneg_right (by linarith) hQi.le
    linarith
  linarith

/-- C89. With up to 4900 particles, the effective sample size of usable float32 log weights is within one per cent of the exact one. -/
theorem C89_ess_percent {d d' : Bool} {n : Nat} (hn : 0 < n) (hn' : n ≤ 4900) (t t' : SumTree) (ht : t.leaves.Perm (List.range n)) (ht' : t'.leaves.Perm (List.range n)) (lw : Nat → Num)
    (hlw : ∀ i, i < n → lw i ≠ .nan ∧ lw i ≠ .pinf) (hfin : ∃ i x, i < n ∧ lw i = .fin x) :
    ∃ x, ess (float32 d) (float32 d') t t' lw n = .fin x ∧ |x - exactEss lw n| ≤ exactEss lw n / 100 := by
  obtain ⟨x, hx, h⟩ := C89_ess_close (d := d) (d' := d') hn (hn'.trans (by norm_num)) t t' ht ht' lw hlw hfin
  refine ⟨x, hx, h.trans ?_⟩
  have hnr : (n : ℝ) ≤ 4900 := by exact_mod_cast hn'
  have h0 : 0 ≤ exactEss lw n := one_div_nonneg.2 (Finset.sum_nonneg fun _ _ => sq_nonneg _)
  have : (34 * (n : ℝ) + 550) * (1 / 2 ^ 24) ≤ 1 / 100 := by linarith
  nlinarith

/-- C89. The exact effective sample size lies between 1 and the number of particles. -/
theorem C89_ess_exact {n : Nat} (lw : Nat → Num) (hfin : ∃ i x, i < n ∧ lw i = .fin x) : 1 ≤ exactEss lw n ∧ exactEss lw n ≤ n := by
  have hW0 := exactWeight_nonneg lw n
  have hW1 := sum_exactWeight lw n hfin
  have hQn : 1 ≤ n * ∑ i ∈ range n, exactWeight lw n i ^ 2 := by
    have h := sq_sum_le_card_mul_sum_sq (s := range n) (f := exactWeight lw n)
    rw [hW1, Finset.card_range, one_pow] at h
    exact h
  have hQ0 : 0 < ∑ i ∈ range n, exactWeight lw n i ^ 2 := by
    by_contra hc
    have : (0 : ℝ) ≤ n := Nat.cast_nonneg n
    nlinarith
  have hQ1 : ∑ i ∈ range n, exactWeight lw n i ^ 2 ≤ 1 := by
    rw [← hW1]
    refine Finset.sum_le_sum fun i hi => ?_
    have : exactWeight lw n i ≤ 1 := by
      rw [← hW1]
      exact Finset.single_le_sum (fun i _ => hW0 i) hi
    nlinarith [hW0 i]
  unfold exactEss
  exact ⟨by rw [le_div_iff₀ hQ0]; linarith, by rw [div_le_iff₀ hQ0]; exact hQn⟩

/-- Two log weights of -200, and 1000 log weights of 0: the log weight after resampling is within 1/1000 of -200 and the effective sample size within one per cent of 1000. -/
example (d d' : Bool) (t : SumTree) (ht : t.leaves.Perm (List.range 1000)) :
    (∃ y, newLogWeight (float32 d) (.node (.leaf 0) (.leaf 1)) (fun _ => .fin (-200)) 2 (Real.log 2) = .fin y ∧ |y - -200| ≤ 1 / 1000) ∧
      ∃ x, ess (float32 d) (float32 d') t t (fun _ => .fin 0) 1000 = .fin x ∧ |x - 1000| ≤ 10 := by
  have hok : ∀ (z : ℝ) i n, i < n → (fun _ : Nat => Num.fin z) i ≠ .nan ∧ (fun _ : Nat => Num.fin z) i ≠ .pinf := fun z i n _ => ⟨fun h => (by cases h), fun h => (by cases h)⟩
  constructor
  · have hl2 := Real.log_two_lt_d9
    obtain ⟨y, hy, h⟩ := C89_new_weight_close (d := d) (n := 2) (by norm_num) (by norm_num) (.node (.leaf 0) (.leaf 1)) (by decide) (fun _ => .fin (-200)) (fun i hi => hok _ i 2 hi)
      ⟨0, -200, by norm_num, rfl⟩ 200 (by norm_num) (fun i x _ h => by
        rw [← Num.fin.inj h]
        norm_num) (Real.log 2) (Real.log_nonneg (by norm_num)) (by linarith)
    refine ⟨y, hy, ?_⟩
    have e : Real.log ((∑ i ∈ range 2, ((fun _ : Nat => Num.fin (-200)) i).weight) / ((2 : Nat) : ℝ)) = -200 := by
      rw [Finset.sum_const, Finset.card_range, nsmul_eq_mul, mul_div_cancel_left₀ _ (by norm_num)]
      exact Real.log_exp _
    rw [e] at h
    refine h.trans ?_
    norm_num
  · obtain ⟨x, hx, h⟩ := C89_ess_percent (d := d) (d' := d') (n := 1000) (by norm_num) (by norm_num) t t ht ht (fun _ => .fin 0) (fun i hi => hok _ i 1000 hi) ⟨0, 0, by norm_num, rfl⟩
    refine ⟨x, hx, ?_⟩
    have e : exactEss (fun _ => .fin 0) 1000 = 1000 := by
      unfold exactEss exactWeight
      simp only [Num.weight, Real.exp_zero, Finset.sum_const, Finset.card_range, nsmul_eq_mul]
      norm_num
    rw [e] at h
    refine h.trans ?_
    norm_num

end Fp
end Verif
