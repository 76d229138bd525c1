import Verif.Props.FloatAccuracy
/-
C89: how accurate `log_Z_hat` is in float32.
-/
namespace Verif
namespace Fp
open Finset (range)

/-- Rounding has a small relative error outside the subnormal numbers. -/
theorem round_rel (F : Format) (x : ℝ) (hx : (2 : ℝ) ^ (F.emin + F.p - 1) ≤ |x|) : |F.round x - x| ≤ 1 / 2 ^ F.p * |x| := by
  have h2 : (0 : ℝ) < 1 / 2 ^ F.p := by positivity
  have hx0 : 0 < |x| := lt_of_lt_of_le (zpow_pos (by norm_num) _) hx
  have hq : (0 : ℝ) < (2 : ℝ) ^ F.ulpExp x := zpow_pos (by norm_num) _
  have hn := nearbyint_le (x / (2 : ℝ) ^ F.ulpExp x)
  have e : F.round x - x = (nearbyint (x / (2 : ℝ) ^ F.ulpExp x) - x / (2 : ℝ) ^ F.ulpExp x) * (2 : ℝ) ^ F.ulpExp x := by
    unfold Format.round
    field_simp
  rw [e, abs_mul, abs_of_pos hq]
  have hlog : F.emin + F.p - 1 ≤ Int.log 2 |x| := (Int.zpow_le_iff_le_log (by norm_num) hx0).1 (by exact_mod_cast hx)
  have hul : F.ulpExp x = Int.log 2 |x| + (1 - F.p) := by
    unfold Format.ulpExp
    omega
  have hle : (2 : ℝ) ^ Int.log 2 |x| ≤ |x| := by exact_mod_cast Int.zpow_log_le_self (b := 2) (by norm_num) hx0
  have hz : (2 : ℝ) ^ (1 - (F.p : ℤ)) = 2 * (1 / 2 ^ F.p) := by
    rw [zpow_sub₀ (by norm_num), zpow_one, zpow_natCast]
    ring
  rw [hul, zpow_add₀ (by norm_num), hz]
  have hz0 : (0 : ℝ) < (2 : ℝ) ^ Int.log 2 |x| := zpow_pos (by norm_num) _
  calc _ ≤ 1 / 2 * ((2 : ℝ) ^ Int.log 2 |x| * (2 * (1 / 2 ^ F.p))) := by
        rw [hul, zpow_add₀ (by norm_num), hz] at hn
        exact mul_le_mul_of_nonneg_right hn (by positivity)
    _ = 1 / 2 ^ F.p * (2 : ℝ) ^ Int.log 2 |x| := by ring
    _ ≤ _ := mul_le_mul_of_nonneg_left hle h2.le

theorem rd_rel {d : Bool} (x : ℝ) (hx : 1 / 2 ^ 126 ≤ x) : |(float32 d).rd x - x| ≤ 1 / 2 ^ 24 * x := by
  have h0 : 0 < x := lt_of_lt_of_le (by positivity) hx
  have h := round_rel b32 x (by
    rw [abs_of_pos h0]
    refine le_trans (le_of_eq ?_) hx
    simp only [b32]
    norm_num)
  rwa [abs_of_pos h0] at h

theorem acc_rel {d : Bool} (x : ℝ) (hx : 1 / 2 ^ 126 ≤ x) : |(float32 d).acc x - x| ≤ 1 / 2 ^ 24 * x := by
  have h0 : 0 < x := lt_of_lt_of_le (by positivity) hx
  cases d
  · exact rd_rel (d := false) x hx
  · have h := round_rel b64 x (by
      rw [abs_of_pos h0]
      refine le_trans ?_ hx
      rw [show (1 : ℝ) / 2 ^ 126 = 2 ^ (-126 : ℤ) by norm_num [zpow_neg]]
      exact zpow_le_zpow_right₀ (by norm_num) (by decide))
    rw [abs_of_pos h0] at h
    refine h.trans (mul_le_mul_of_nonneg_right ?_ h0.le)
    simp only [b64]
    norm_num

/-- The sum of positive numbers that are neither too small nor too large. -/
theorem sum_rel {d : Bool} {n : Nat} (hn : n ≤ 2 ^ 16) (e : Nat → ℝ) (M : ℝ) (hM : n * M ≤ 2 ^ 126) :
    ∀ t : SumTree, t.leaves.length ≤ n → (∀ i ∈ t.leaves, 1 / 2 ^ 126 ≤ e i) → (∀ i ∈ t.leaves, e i ≤ M) →
      ∃ s, t.sum (float32 d) (fun i => .fin (e i)) = .fin s ∧ 0 < t.leaves.length ∧ t.leaves.length * (1 / 2 ^ 126) ≤ (t.leaves.map e).sum ∧ (t.leaves.map e).sum ≤ t.leaves.length * M ∧
        |s - (t.leaves.map e).sum| ≤ 2 * (1 / 2 ^ 24) * ((t.leaves.length : ℝ) - 1) * (t.leaves.map e).sum
  | .leaf j, _, hlo, hhi => by
    refine ⟨e j, rfl, by simp [SumTree.leaves], ?_, ?_, ?_⟩ <;> simp only [SumTree.leaves, List.map_cons, List.map_nil, List.sum_cons, List.sum_nil, List.length_singleton, add_zero, Nat.cast_one, one_mul]
    · exact hlo j (by simp [SumTree.leaves])
    · exact hhi j (by simp [SumTree.leaves])
    · simp
  | .node l r, hlen, hlo, hhi => by
    have hll : l.leaves.length + r.leaves.length ≤ n := by simpa [SumTree.leaves] using hlen
    obtain ⟨a, ea, pa, la, ua, ca⟩ := sum_rel (d := d) hn e M hM l (by omega) (fun i hi => hlo i (List.mem_append_left _ hi)) fun i hi => hhi i (List.mem_append_left _ hi)
    obtain ⟨b, eb, pb, lb, ub, cb⟩ := sum_rel (d := d) hn e M hM r (by omega) (fun i hi => hlo i (List.mem_append_right _ hi)) fun i hi => hhi i (List.mem_append_right _ hi)
    have hlr : (l.leaves.length : ℝ) + r.leaves.length ≤ n := by exact_mod_cast hll
    have hnr : (n : ℝ) ≤ 2 ^ 16 := by exact_mod_cast hn
    have hl1 : (1 : ℝ) ≤ l.leaves.length := by exact_mod_cast pa
    have hr1 : (1 : ℝ) ≤ r.leaves.length := by exact_mod_cast pb
    set p : ℝ := (l.leaves.length : ℝ) with hp
    set q : ℝ := (r.leaves.length : ℝ) with hq
    set x := (l.leaves.map e).sum with hx
    set y := (r.leaves.map e).sum with hy
    have hx0 : 0 < x := lt_of_lt_of_le (by positivity) la
    have hy0 : 0 < y := lt_of_lt_of_le (by positivity) lb
    generalize hE : (1 : ℝ) / 2 ^ 24 = ε at *
    have hε0 : 0 < ε := by rw [← hE]; norm_num
    have hεn : (p + q) * ε ≤ 1 / 256 := by rw [← hE]; linarith
    have hab : |(a + b) - (x + y)| ≤ 2 * ε * (p + q - 2) * (x + y) := by
      have h1 := abs_add_le (a - x) (b - y)
      have e1 : (a + b) - (x + y) = (a - x) + (b - y) := by ring
      rw [e1]
      refine h1.trans ((add_le_add ca cb).trans ?_)
      have h3 : 0 ≤ ε * ((q - 1) * x) := by have : 0 ≤ q - 1 := by linarith
                                            positivity
      have h4 : 0 ≤ ε * ((p - 1) * y) := by have : 0 ≤ p - 1 := by linarith
                                            positivity
      linarith
    have hab' := abs_le.1 hab
    have hz0 : 0 < x + y := by linarith
    have hsmall : 2 * ε * (p + q - 2) * (x + y) ≤ 1 / 128 * (x + y) := mul_le_mul_of_nonneg_right (by linarith) hz0.le
    have hBsum : 2 * (1 / 2 ^ 126) ≤ x + y := by
      have h1 : (1 : ℝ) * (1 / 2 ^ 126) ≤ p * (1 / 2 ^ 126) := mul_le_mul_of_nonneg_right hl1 (by positivity)
      have h2 : (1 : ℝ) * (1 / 2 ^ 126) ≤ q * (1 / 2 ^ 126) := mul_le_mul_of_nonneg_right hr1 (by positivity)
      linarith
    have hacc := acc_rel (d := d) (a + b) (by linarith)
    rw [hE] at hacc
    have hacc' := abs_le.1 hacc
    have hzM : x + y ≤ 2 ^ 126 := by
      have hM0 : 0 ≤ M := by
        by_contra hc
        nlinarith
      have : (p + q) * M ≤ n * M := mul_le_mul_of_nonneg_right hlr hM0
      linarith
    have htop : (2 : ℝ) ^ 127 ≤ (float32 d).accTop := by
      show (2 : ℝ) ^ 127 ≤ if d then (2 ^ 53 - 1) * 2 ^ 971 else (2 ^ 24 - 1) * 2 ^ 104
      split_ifs
      · have h1 : (2 : ℝ) ^ 127 ≤ 2 ^ 971 := pow_le_pow_right₀ (by norm_num) (by norm_num)
        have h2 : (1 : ℝ) ≤ 2 ^ 53 - 1 := by norm_num
        have h3 : (0 : ℝ) < 2 ^ 971 := by positivity
        exact h1.trans (le_mul_of_one_le_left h3.le h2)
      · norm_num
    have h126 : (2 : ℝ) ^ 127 = 2 * 2 ^ 126 := by norm_num
    have hε1 : ε ≤ 1 / 256 := by rw [← hE]; norm_num
    have hεab : ε * (a + b) ≤ 1 / 256 * (a + b) := mul_le_mul_of_nonneg_right hε1 (by linarith)
    have hl : (SumTree.node l r).leaves.length = l.leaves.length + r.leaves.length := by simp [SumTree.leaves]
    have hs : ((SumTree.node l r).leaves.map e).sum = x + y := by simp [SumTree.leaves, hx, hy]
    rw [hl, hs]
    push_cast
    refine ⟨(float32 d).acc (a + b), ?_, by omega, by linarith, by linarith, ?_⟩
    · show Num.add _ (l.sum _ _) (r.sum _ _) = _
      rw [ea, eb]
      exact fit_fin (by linarith) (by linarith)
    · rw [← hp, ← hq]
      have hee : ε * (a + b) ≤ ε * ((1 + 1 / 128) * (x + y)) := mul_le_mul_of_nonneg_left (by linarith) hε0.le
      have hez : 0 < ε * (x + y) := mul_pos hε0 hz0
      exact abs_le.2 ⟨by linarith, by linarith⟩

/-- The sum of a tree depends on the values at its leaves. -/
theorem sum_congr_leaves {A : Arith} : ∀ (t : SumTree) (f g : Nat → Num), (∀ i ∈ t.leaves, f i = g i) → t.sum A f = t.sum A g
  | .leaf j, f, g, h => h j (by simp [SumTree.leaves])
  | .node l r, f, g, h => by
    show Num.add A (l.sum A f) (r.sum A f) = Num.add A (l.sum A g) (r.sum A g)
    rw [sum_congr_leaves l f g fun i hi => h i (List.mem_append_left _ hi), sum_congr_leaves r f g fun i hi => h i (List.mem_append_right _ hi)]

/-- The mean, from the sum: rounding the sum, dividing and rounding again. -/
theorem mean_close {d : Bool} {n : Nat} (hnr : (1 : ℝ) ≤ n) (hnr' : (n : ℝ) ≤ 2 ^ 16) (s S : ℝ) (hS4 : 2 * (1 / 2 ^ 126) ≤ S) (hSlo' : 2 * (1 / 2 ^ 126) ≤ S / n) (hsS : |s - S| ≤ 13 / 4 * n * (1 / 2 ^ 24) * S) :
    0 < (float32 d).rd s ∧ (float32 d).rd s ≤ 2 * S ∧ 0 < (float32 d).rd ((float32 d).rd s / n) ∧ (float32 d).rd ((float32 d).rd s / n) ≤ 2 * S ∧
      |Real.log ((float32 d).rd ((float32 d).rd s / n)) - Real.log (S / n)| ≤ 7 * n * (1 / 2 ^ 24) := by
  have hnpos : (0 : ℝ) < n := by linarith
  have hB0 : (0 : ℝ) < 1 / 2 ^ 126 := by positivity
  generalize hB : (1 : ℝ) / 2 ^ 126 = B at hS4 hSlo' hB0
  have hS0 : 0 < S := by linarith
  have hnS : 13 / 4 * n * (1 / 2 ^ 24) * S ≤ 1 / 32 * S := mul_le_mul_of_nonneg_right (by linarith) hS0.le
  have hs' := abs_le.1 hsS
  have hrs := rd_rel (d := d) s (by rw [hB]; linarith)
  have hrs' := abs_le.1 hrs
  set r := (float32 d).rd s with hr
  have hrS : |r - S| ≤ 9 / 2 * n * (1 / 2 ^ 24) * S := by
    have h5 : S ≤ n * S := le_mul_of_one_le_left hS0.le hnr
    exact abs_le.2 ⟨by linarith, by linarith⟩
  have hrS' := abs_le.1 hrS
  have hnS2 : 9 / 2 * n * (1 / 2 ^ 24) * S ≤ 1 / 32 * S := mul_le_mul_of_nonneg_right (by linarith) hS0.le
  -- the mean
  have hrn : |r / n - S / n| ≤ 9 / 2 * n * (1 / 2 ^ 24) * (S / n) := by
    rw [← sub_div, abs_div, abs_of_pos hnpos, ← mul_div_assoc]
    exact div_le_div_of_nonneg_right hrS hnpos.le
  have hrn' := abs_le.1 hrn
  have hm0 : 0 < S / n := by positivity
  have hnS3 : 9 / 2 * n * (1 / 2 ^ 24) * (S / n) ≤ 1 / 32 * (S / n) := mul_le_mul_of_nonneg_right (by linarith) hm0.le
  have hqr := rd_rel (d := d) (r / n) (by rw [hB]; linarith)
  have hqr' := abs_le.1 hqr
  set g := (float32 d).rd (r / n) with hg
  have hgS : |g - S / n| ≤ 6 * n * (1 / 2 ^ 24) * (S / n) := by
    have h5 : S / n ≤ n * (S / n) := le_mul_of_one_le_left hm0.le hnr
    exact abs_le.2 ⟨by linarith, by linarith⟩
  have hgS' := abs_le.1 hgS
  have hnS4 : 6 * n * (1 / 2 ^ 24) * (S / n) ≤ 1 / 32 * (S / n) := mul_le_mul_of_nonneg_right (by linarith) hm0.le
  have hg0 : 0 < g := by linarith
  have hlogg : |Real.log g - Real.log (S / n)| ≤ 7 * n * (1 / 2 ^ 24) := by
    refine log_close hm0 hgS (by linarith) ?_
    nlinarith
  refine ⟨by linarith, by linarith, hg0, ?_, hlogg⟩
  have : S / n ≤ S := div_le_self hS0.le hnr
  linarith

/-- C89. For log weights between -86 and 75, `log_Z_hat` in float32 is the logarithm of the mean of the weights, up to `(7 n + 100) / 2^24`. -/
theorem C89_log_z_close {d : Bool} {n : Nat} (hn : 0 < n) (hn' : n ≤ 2 ^ 16) (t : SumTree) (ht : t.leaves.Perm (List.range n)) (x : Nat → ℝ) (hlo : ∀ i, i < n → -86 ≤ x i) (hhi : ∀ i, i < n → x i ≤ 75) :
    ∃ y, logZHat (float32 d) t (fun i => .fin (x i)) n = .fin y ∧ |y - Real.log ((∑ i ∈ range n, Real.exp (x i)) / n)| ≤ (7 * n + 100) * (1 / 2 ^ 24) := by
  have hnr : (1 : ℝ) ≤ n := by exact_mod_cast hn
  have hnr' : (n : ℝ) ≤ 2 ^ 16 := by exact_mod_cast hn'
  have hnpos : (0 : ℝ) < n := by linarith
  have hE := float32_err (d := d)
  have hlen : t.leaves.length = n := by rw [ht.length_eq, List.length_range]
  have hlow : ∀ i, i < n → 4 * (1 / 2 ^ 127) ≤ Real.exp (x i) := by
    intro i hi
    refine le_trans ?_ (Real.exp_le_exp.2 (hlo i hi))
    rw [Real.exp_neg, ← one_div]
    have h1 : Real.exp 86 ≤ 2 ^ 125 := by
      rw [show (86 : ℝ) = (86 : Nat) * 1 by norm_num, Real.exp_nat_mul]
      refine (pow_le_pow_left₀ (Real.exp_pos 1).le Real.exp_one_lt_d9.le 86).trans ?_
      norm_num
    refine le_trans ?_ (one_div_le_one_div_of_le (Real.exp_pos _) h1)
    norm_num
  have hhigh : ∀ i, i < n → Real.exp (x i) ≤ 2 ^ 109 := by
    intro i hi
    refine (Real.exp_le_exp.2 (hhi i hi)).trans ?_
    rw [show (75 : ℝ) = (75 : Nat) * 1 by norm_num, Real.exp_nat_mul]
    refine (pow_le_pow_left₀ (Real.exp_pos 1).le Real.exp_one_lt_d9.le 75).trans ?_
    norm_num
  have hB : (1 : ℝ) / 2 ^ 126 = 2 * (1 / 2 ^ 127) := by norm_num
  have hB0 : (0 : ℝ) < 1 / 2 ^ 127 := by positivity
  have hem : ∀ i, i < n → |(float32 d).exp (x i) - Real.exp (x i)| ≤ 1 / 2 ^ 24 * Real.exp (x i) := fun i hi => rd_rel (d := d) (Real.exp (x i)) (by linarith [hlow i hi])
  have htop : (2 : ℝ) ^ 127 ≤ (float32 d).top := by
    show (2 : ℝ) ^ 127 ≤ (2 ^ 24 - 1) * 2 ^ 104
    norm_num
  have h126 : (2 : ℝ) ^ 127 = 2 * 2 ^ 126 := by norm_num
  have h109 : (2 : ℝ) ^ 126 = 2 ^ 17 * 2 ^ 109 := by norm_num
  generalize hP : (2 : ℝ) ^ 126 = P at h126 h109
  have hval : ∀ i, i < n → (Num.fin (x i)).exp (float32 d) = .fin ((float32 d).exp (x i)) := by
    intro i hi
    have h1 := abs_le.1 (hem i hi)
    have h2 := hlow i hi
    have h3 := hhigh i hi
    have h4 : (0 : ℝ) < 2 ^ 109 := by positivity
    exact fit_fin (by linarith) (by linarith)
  have hmem : ∀ i, i ∈ t.leaves → i < n := fun i hi => List.mem_range.1 (ht.mem_iff.1 hi)
  obtain ⟨s, es, -, -, -, cs⟩ := sum_rel (d := d) hn' (fun i => (float32 d).exp (x i)) (2 * 2 ^ 109) (by
      have : (n : ℝ) * (2 * 2 ^ 109) ≤ 2 ^ 16 * (2 * 2 ^ 109) := mul_le_mul_of_nonneg_right hnr' (by positivity)
      rw [hP]
      linarith) t hlen.le
    (fun i hi => by
      have h1 := abs_le.1 (hem i (hmem i hi))
      have h2 := hlow i (hmem i hi)
      show _ ≤ (float32 d).exp (x i)
      linarith)
    (fun i hi => by
      have h1 := abs_le.1 (hem i (hmem i hi))
      have h3 := hhigh i (hmem i hi)
      have h4 : (0 : ℝ) < 2 ^ 109 := by positivity
      show (float32 d).exp (x i) ≤ _
      linarith)
  have hsum : (t.leaves.map fun i => (float32 d).exp (x i)).sum = ∑ i ∈ range n, (float32 d).exp (x i) := by
    rw [(ht.map _).sum_eq]
    rfl
  rw [hsum, hlen] at cs
  have es' : t.sum (float32 d) (fun i => (Num.fin (x i)).exp (float32 d)) = .fin s := by
    rw [← es]
    exact sum_congr_leaves t _ _ fun i hi => hval i (hmem i hi)
  set S := ∑ i ∈ range n, Real.exp (x i) with hS
  set T := ∑ i ∈ range n, (float32 d).exp (x i) with hT
  have hTS : |T - S| ≤ 1 / 2 ^ 24 * S := by
    rw [hT, hS, ← Finset.sum_sub_distrib, Finset.mul_sum]
    exact (Finset.abs_sum_le_sum_abs _ _).trans (Finset.sum_le_sum fun i hi => hem i (Finset.mem_range.1 hi))
  have hSlo : n * (4 * (1 / 2 ^ 127)) ≤ S := by
    have := Finset.card_nsmul_le_sum (range n) (fun i => Real.exp (x i)) (4 * (1 / 2 ^ 127)) fun i hi => hlow i (Finset.mem_range.1 hi)
    rwa [Finset.card_range, nsmul_eq_mul] at this
  have hShi : S ≤ n * 2 ^ 109 := by
    have := Finset.sum_le_card_nsmul (range n) (fun i => Real.exp (x i)) (2 ^ 109) fun i hi => hhigh i (Finset.mem_range.1 hi)
    rwa [Finset.card_range, nsmul_eq_mul] at this
  have hS0 : 0 < S := lt_of_lt_of_le (by positivity) hSlo
  have hSlo' : 4 * (1 / 2 ^ 127) ≤ S / n := by
    rw [le_div_iff₀ hnpos]
    linarith
  have hShi' : S / n ≤ 2 ^ 109 := by
    rw [div_le_iff₀ hnpos]
    linarith
  have hSP : S ≤ P / 2 := by
    have : (n : ℝ) * 2 ^ 109 ≤ 2 ^ 16 * 2 ^ 109 := mul_le_mul_of_nonneg_right hnr' (by positivity)
    linarith
  have hS4 : 4 * (1 / 2 ^ 127) ≤ S := by
    have : (1 : ℝ) * (4 * (1 / 2 ^ 127)) ≤ n * (4 * (1 / 2 ^ 127)) := mul_le_mul_of_nonneg_right hnr (by positivity)
    linarith
  -- the sum
  have hsS : |s - S| ≤ 13 / 4 * n * (1 / 2 ^ 24) * S := by
    have h1 := abs_le.1 hTS
    have h2 := abs_le.1 cs
    have hq : (n : ℝ) * (1 / 2 ^ 24) ≤ 1 / 256 := by linarith
    have hTle : T ≤ (1 + 1 / 2 ^ 24) * S := by linarith
    have h3 : 2 * (1 / 2 ^ 24) * ((n : ℝ) - 1) * T ≤ 2 * (1 / 2 ^ 24) * n * ((1 + 1 / 2 ^ 24) * S) := by
      have a1 : 0 ≤ (n : ℝ) - 1 := by linarith
      have a2 : T * (2 * (1 / 2 ^ 24) * ((n : ℝ) - 1)) ≤ ((1 + 1 / 2 ^ 24) * S) * (2 * (1 / 2 ^ 24) * ((n : ℝ) - 1)) := mul_le_mul_of_nonneg_right hTle (by positivity)
      have a3 : 0 ≤ (1 + 1 / 2 ^ 24) * S * (2 * (1 / 2 ^ 24)) := by positivity
      linarith
    have h4 : 0 < n * S := by positivity
    have h5 : S ≤ n * S := le_mul_of_one_le_left hS0.le hnr
    exact abs_le.2 ⟨by linarith, by linarith⟩
  obtain ⟨hr0, hrS, hg0, hgS, hlogg⟩ := mean_close (d := d) hnr hnr' s S (by linarith) (by linarith) hsS
  set r := (float32 d).rd s with hr
  set g := (float32 d).rd (r / n) with hg
  have hex := C89_exact x hn hlo hhi
  rw [← hS] at hex
  have hy : |b32.round (Real.log g) - Real.log g| ≤ 100 * (1 / 2 ^ 24) := by
    refine (hE.rd (Real.log g)).trans ?_
    rw [mul_comm]
    have := abs_le.1 hlogg
    refine mul_le_mul_of_nonneg_right (max_le ?_ (by norm_num)) (by norm_num)
    exact abs_le.2 ⟨by linarith, by linarith⟩
  refine ⟨b32.round (Real.log g), ?_, ?_⟩
  · unfold logZHat zHat
    rw [es']
    show Num.log _ (Num.div _ (fit (float32 d).top r) _) = _
    rw [fit_fin (by linarith) (by linarith)]
    show Num.log _ (if (n : ℝ) = 0 then _ else fit (float32 d).top g) = _
    rw [if_neg hnpos.ne', fit_fin hg0.le (by linarith)]
    show (if _ then _ else if _ then _ else _) = _
    rw [if_neg (by linarith), if_neg hg0.ne']
    rfl
  · have h1 := abs_le.1 hy
    have h2 := abs_le.1 hlogg
    exact abs_le.2 ⟨by linarith, by linarith⟩

/-- Log weights 0 and 10: `log_Z_hat` is within 1/1000 of the logarithm of the mean of 1 and `exp 10`. -/
example (d : Bool) :
    ∃ y, logZHat (float32 d) (.node (.leaf 0) (.leaf 1)) (fun i => .fin (10 * i)) 2 = .fin y ∧ |y - Real.log ((1 + Real.exp 10) / 2)| ≤ 1 / 1000 := by
  have hi : ∀ i : Nat, i < 2 → (0 : ℝ) ≤ i ∧ (i : ℝ) ≤ 1 := fun i hi => ⟨Nat.cast_nonneg i, by exact_mod_cast Nat.le_of_lt_succ hi⟩
  obtain ⟨y, hy, h⟩ := C89_log_z_close (d := d) (n := 2) (by norm_num) (by norm_num) (.node (.leaf 0) (.leaf 1)) (by decide) (fun i => 10 * i) (fun i h => by linarith [(hi i h).1]) fun i h => by linarith [(hi i h).2]
  refine ⟨y, hy, ?_⟩
  have e : ∑ i ∈ range 2, Real.exp (10 * (i : ℝ)) = 1 + Real.exp 10 := by
    simp [Finset.sum_range_succ]
  rw [e] at h
  refine h.trans ?_
  norm_num

end Fp
end Verif
