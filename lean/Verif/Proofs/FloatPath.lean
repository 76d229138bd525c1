import Mathlib.Analysis.SpecialFunctions.Log.Deriv
import Mathlib.Analysis.Complex.ExponentialBounds
import Verif.Model.FloatPath
import Verif.Props.FloatEvidence
/-
Rounding errors of the annealing path: `arange`, `logit` and `sigmoid` in float32 (C104).
-/
namespace Verif
namespace Fp

theorem round64_unit {x : ℝ} (hx : |x| ≤ 1) : |b64.round x - x| ≤ 1 / 2 ^ 54 := by
  have := round_error b64 (by decide) (k := 0) (by simpa using hx) (by decide)
  refine this.trans (le_of_eq ?_)
  simp only [b64]
  norm_num

theorem round32_unit {x : ℝ} (hx : |x| ≤ 1) : |b32.round x - x| ≤ 1 / 2 ^ 25 := by
  have := round_error b32 (by decide) (k := 0) (by simpa using hx) (by decide)
  refine this.trans (le_of_eq ?_)
  simp only [b32]
  norm_num

/-- The elements of `arange` are close to the fractions, whatever the blocks. -/
theorem arangeElem_close {m : Nat} (h1 : 1 ≤ m) (hm : m ≤ 2 ^ 16) {s : ℝ} (hs : |s - 1 / m| ≤ 1 / 2 ^ 53 * (1 / m)) {i j : Nat} (hj : j ≤ i) (hi : i < m) :
    |arangeElem s j i - i / m| ≤ 1 / 2 ^ 23 := by
  have hm0 : (0 : ℝ) < m := by exact_mod_cast h1
  have hm1 : 1 / 2 ^ 16 ≤ 1 / (m : ℝ) := one_div_le_one_div_of_le hm0 (by exact_mod_cast hm)
  have htop : ∀ k : Nat, k ≤ i → 0 ≤ (k : ℝ) / m ∧ (k : ℝ) / m ≤ 1 - 1 / 2 ^ 16 := fun k hk => by
    have hk' : (k : ℝ) + 1 ≤ m := by exact_mod_cast (by omega : k + 1 ≤ m)
    refine ⟨by positivity, le_trans ?_ (sub_le_sub_left hm1 1)⟩
    rw [le_sub_iff_add_le, ← add_div, div_le_one hm0]
    exact hk'
  have key : ∀ k : Nat, k ≤ i → |b64.round (k * s) - k / m| ≤ 1 / 2 ^ 52 := fun k hk => by
    have hkt := htop k hk
    have hk0 : (0 : ℝ) ≤ k := Nat.cast_nonneg k
    have e : |(k : ℝ) * s - k / m| ≤ 1 / 2 ^ 53 := by
      rw [show (k : ℝ) * s - k / m = k * (s - 1 / m) by ring, abs_mul, abs_of_nonneg hk0]
      calc (k : ℝ) * |s - 1 / m| ≤ k * (1 / 2 ^ 53 * (1 / m)) := mul_le_mul_of_nonneg_left hs hk0
        _ = 1 / 2 ^ 53 * (k / m) := by ring
        _ ≤ 1 / 2 ^ 53 * 1 := mul_le_mul_of_nonneg_left (by linarith) (by positivity)
        _ = _ := mul_one _
    have e' := abs_le.1 e
    have h := round64_unit (x := k * s) (abs_le.2 ⟨by linarith, by linarith⟩)
    have h' := abs_le.1 h
    exact abs_le.2 ⟨by linarith, by linarith⟩
  have hj' := abs_le.1 (key j hj)
  have hij' := abs_le.1 (key (i - j) (by omega))
  have hjt := htop j hj
  have hit := htop i le_rfl
  have hsum : (j : ℝ) / m + ((i - j : Nat) : ℝ) / m = i / m := by
    rw [← add_div, ← Nat.cast_add, Nat.add_sub_cancel' hj]
  have hb := abs_le.1 (round32_unit (x := b64.round (j * s)) (abs_le.2 ⟨by linarith, by linarith⟩))
  have hq := abs_le.1 (round64_unit (x := b32.round (b64.round (j * s)) + b64.round ((i - j : Nat) * s))
    (abs_le.2 ⟨by linarith, by linarith⟩))
  have hr := abs_le.1 (round32_unit (x := b64.round (b32.round (b64.round (j * s)) + b64.round ((i - j : Nat) * s)))
    (abs_le.2 ⟨by linarith, by linarith⟩))
  unfold arangeElem
  exact abs_le.2 ⟨by linarith, by linarith⟩

theorem fit32 {d : Bool} {x : ℝ} (h0 : 0 ≤ x) (h1 : x ≤ 2 ^ 100) : fit (float32 d).top x = .fin x := by
  have ht : (2 : ℝ) ^ 100 ≤ (float32 d).top := by
    show (2 : ℝ) ^ 100 ≤ (2 ^ 24 - 1) * 2 ^ 104
    norm_num
  have ht0 : (0 : ℝ) ≤ (float32 d).top := le_trans (by positivity) ht
  unfold fit
  rw [if_neg (by linarith), if_neg (by linarith)]

theorem recip_close {x y ε : ℝ} (hy : 0 < y) (hε : ε ≤ 1 / 2) (h : |x - y| ≤ ε * y) : 0 < x ∧ |1 / x - 1 / y| ≤ 2 * ε * (1 / y) := by
  have h' := abs_le.1 h
  have hε0 : 0 ≤ ε := by
    by_contra hc
    have := abs_nonneg (x - y)
    nlinarith
  have hx : y / 2 ≤ x := by nlinarith
  have hx0 : 0 < x := by linarith
  refine ⟨hx0, ?_⟩
  rw [show 1 / x - 1 / y = -(x - y) * (1 / x) * (1 / y) by field_simp; ring, abs_mul, abs_mul, abs_neg, abs_of_pos (one_div_pos.2 hx0),
    abs_of_pos (one_div_pos.2 hy)]
  refine mul_le_mul_of_nonneg_right ?_ (by positivity)
  rw [mul_one_div, div_le_iff₀ hx0]
  nlinarith

theorem odds_close {x y ε : ℝ} (hx : 0 < x) (hy : 0 < y) (h : |x - y| ≤ ε * y) : |1 / (1 + x) - 1 / (1 + y)| ≤ ε := by
  have hε0 : 0 ≤ ε := by
    by_contra hc
    have := abs_nonneg (x - y)
    nlinarith
  rw [show 1 / (1 + x) - 1 / (1 + y) = -(x - y) / ((1 + x) * (1 + y)) by field_simp; ring, abs_div, abs_neg, abs_of_pos (by positivity : 0 < (1 + x) * (1 + y)),
    div_le_iff₀ (by positivity)]
  refine h.trans (mul_le_mul_of_nonneg_left ?_ hε0)
  nlinarith

/-- `logit` in float32. -/
theorem logit_close {d : Bool} {b : ℝ} (h0 : 1 / 2 ^ 17 ≤ b) (h1 : b ≤ 1 - 1 / 2 ^ 17) :
    ∃ l, (Num.fin b).logit (float32 d) = .fin l ∧ |Real.log (b / (1 - b)) - l| ≤ 1 / 2 ^ 20 := by
  have hb0 : 0 < b := lt_of_lt_of_le (by positivity) h0
  have hb1 : 1 / 2 ^ 17 ≤ 1 - b := by linarith
  have hb1' : 0 < 1 - b := lt_of_lt_of_le (by positivity) hb1
  have hsmall : (1 : ℝ) / 2 ^ 126 ≤ 1 / 2 ^ 20 := by norm_num
  -- 1 - b
  have hc := rd_rel (d := d) (1 - b) (hsmall.trans (le_trans (by norm_num) hb1))
  set c := (float32 d).rd (1 - b) with ec
  obtain ⟨hc0, hci⟩ := recip_close hb1' (by norm_num) hc
  have ec' : (Num.fin 1).sub (float32 d) (.fin b) = .fin c := by
    have hc' := abs_le.1 hc
    show fit _ _ = _
    rw [← ec, fit32 hc0.le (by linarith)]
  -- the odds
  set z := b / (1 - b) with ez
  have hz0 : 0 < z := div_pos hb0 hb1'
  have hz1 : 1 / 2 ^ 17 ≤ z := by
    rw [ez, le_div_iff₀ hb1']
    nlinarith
  have hz2 : z ≤ 2 ^ 17 := by
    rw [ez, div_le_iff₀ hb1']
    norm_num at hb1 ⊢
    linarith
  have hbc : |b / c - z| ≤ 2 * (1 / 2 ^ 24) * z := by
    rw [show b / c - z = b * (1 / c - 1 / (1 - b)) by rw [ez]; ring, abs_mul, abs_of_pos hb0]
    calc b * |1 / c - 1 / (1 - b)| ≤ b * (2 * (1 / 2 ^ 24) * (1 / (1 - b))) := mul_le_mul_of_nonneg_left hci hb0.le
      _ = _ := by rw [ez]; ring
  have hbc' := abs_le.1 hbc
  have hr := rd_rel (d := d) (b / c) (hsmall.trans (by linarith))
  set r := (float32 d).rd (b / c) with er
  have hr' := abs_le.1 hr
  have hrz : |r - z| ≤ 4 * (1 / 2 ^ 24) * z :=
    abs_le.2 ⟨by linarith, by linarith⟩
  have hrz' := abs_le.1 hrz
  have hr0 : 0 < r := by linarith
  have er' : (Num.fin b).div (float32 d) (.fin c) = .fin r := by
    show (if c = 0 then _ else fit _ _) = _
    rw [if_neg hc0.ne', ← er, fit32 hr0.le (by linarith)]
  -- the logarithm
  have hlog := abs_le.1 (log_close (y := 8 * (1 / 2 ^ 24)) hz0 hrz (by norm_num) (by norm_num))
  have hl2 := Real.log_two_lt_d9
  have hzl : |Real.log z| ≤ 12 := by
    have a1 : Real.log z ≤ Real.log (2 ^ 17) := Real.log_le_log hz0 hz2
    have a2 : Real.log (1 / 2 ^ 17) ≤ Real.log z := Real.log_le_log (by positivity) hz1
    rw [Real.log_pow] at a1
    rw [one_div, Real.log_inv, Real.log_pow] at a2
    push_cast at a1 a2
    exact abs_le.2 ⟨by linarith, by linarith⟩
  have hzl' := abs_le.1 hzl
  have hl := round_error b32 (by decide) (k := 4) (x := Real.log r) (abs_le.2 ⟨by linarith, by linarith⟩) (by decide)
  set l := b32.round (Real.log r) with el
  have hl' : |l - Real.log r| ≤ 1 / 2 ^ 21 := hl.trans (le_of_eq (by simp only [b32]; norm_num))
  have hl'' := abs_le.1 hl'
  have hlz : |Real.log z - l| ≤ 1 / 2 ^ 20 :=
    abs_le.2 ⟨by linarith, by linarith⟩
  have el' : (Num.fin b).logit (float32 d) = .fin l := by
    unfold Num.logit
    rw [ec', er']
    show (if r < 0 then _ else if r = 0 then _ else Num.fin (b32.round (Real.log r))) = _
    rw [if_neg (by linarith), if_neg hr0.ne']
  exact ⟨l, el', hlz⟩

/-- `sigmoid` in float32, close to the logarithm of the odds `z`. -/
theorem sigmoid_close {d : Bool} {z l : ℝ} (hz1 : 1 / 2 ^ 17 ≤ z) (hz2 : z ≤ 2 ^ 17) (hlz : |Real.log z - l| ≤ 1 / 2 ^ 20) :
    ∃ w, (Num.fin l).sigmoid (float32 d) = .fin w ∧ |w - 1 / (1 + 1 / z)| ≤ 1 / 2 ^ 18 := by
  have hz0 : 0 < z := lt_of_lt_of_le (by positivity) hz1
  have hsmall : (1 : ℝ) / 2 ^ 126 ≤ 1 / 2 ^ 20 := by norm_num
  -- the exponential
  have hz3 : 1 / 2 ^ 17 ≤ 1 / z := one_div_le_one_div_of_le hz0 hz2
  have hz4 : 1 / z ≤ 2 ^ 17 := by
    rw [div_le_iff₀ hz0]
    norm_num at hz1 ⊢
    linarith
  have hexp : |Real.exp (-l) - 1 / z| ≤ 1 / 2 ^ 19 * (1 / z) := by
    have e : Real.exp (-l) = 1 / z * Real.exp (Real.log z - l) := by
      rw [sub_eq_add_neg, Real.exp_add, Real.exp_log hz0]
      field_simp
    have h := Real.abs_exp_sub_one_le (x := Real.log z - l) (hlz.trans (by norm_num))
    rw [e, show 1 / z * Real.exp (Real.log z - l) - 1 / z = (Real.exp (Real.log z - l) - 1) * (1 / z) by ring, abs_mul, abs_of_pos (one_div_pos.2 hz0)]
    refine mul_le_mul_of_nonneg_right (h.trans ?_) (by positivity)
    norm_num at hlz ⊢
    linarith
  have hexp' := abs_le.1 hexp
  have he := rd_rel (d := d) (Real.exp (-l)) (hsmall.trans (by linarith))
  set e := (float32 d).rd (Real.exp (-l)) with ee
  have he' := abs_le.1 he
  have hez : |e - 1 / z| ≤ (1 / 2 ^ 19 + 1 / 2 ^ 23) * (1 / z) :=
    abs_le.2 ⟨by linarith, by linarith⟩
  have hez' := abs_le.1 hez
  have he0 : 0 < e := by linarith
  have he1 : e ≤ 2 ^ 18 := by linarith
  have ee' : (Num.fin (-l)).exp (float32 d) = .fin e := by
    show fit _ (b32.round (Real.exp (-l))) = _
    exact fit32 he0.le (he1.trans (by norm_num))
  -- the denominator
  have hd := rd_rel (d := d) (1 + e) (hsmall.trans (by norm_num; linarith))
  set D := (float32 d).rd (1 + e) with eD
  obtain ⟨hD0, hDi⟩ := recip_close (by linarith) (by norm_num) hd
  have hd' := abs_le.1 hd
  have eD' : (Num.fin 1).plus (float32 d) (.fin e) = .fin D := by
    show fit (float32 d).top ((float32 d).rd (1 + e)) = _
    rw [← eD]
    exact fit32 hD0.le (by linarith)
  have hDi' := abs_le.1 hDi
  have hq0 : 1 / 2 ^ 19 ≤ 1 / (1 + e) := one_div_le_one_div_of_le (by linarith) (by linarith)
  have hq1 : 1 / (1 + e) ≤ 1 := by rw [div_le_one (by linarith)]; linarith
  have hw := rd_rel (d := d) (1 / D) (hsmall.trans (by linarith))
  set w := (float32 d).rd (1 / D) with ew
  have hw' := abs_le.1 hw
  have hod := odds_close he0 (one_div_pos.2 hz0) hez
  have hod' := abs_le.1 hod
  refine ⟨w, ?_, ?_⟩
  · unfold Num.sigmoid
    rw [show (Num.fin l).neg = .fin (-l) from rfl, ee', eD']
    show (if D = 0 then _ else fit _ _) = _
    rw [if_neg hD0.ne', ← ew]
    exact fit32 (by linarith) (by linarith)
  · exact abs_le.2 ⟨by linarith, by linarith⟩

/-- `sigmoid(logit(b))` in float32 is close to `b`. -/
theorem sigmoid_logit_close {d : Bool} {b : ℝ} (h0 : 1 / 2 ^ 17 ≤ b) (h1 : b ≤ 1 - 1 / 2 ^ 17) :
    ∃ w, ((Num.fin b).logit (float32 d)).sigmoid (float32 d) = .fin w ∧ |w - b| ≤ 1 / 2 ^ 18 := by
  obtain ⟨l, el, hl⟩ := logit_close (d := d) h0 h1
  have hb0 : 0 < b := lt_of_lt_of_le (by positivity) h0
  have hb1 : 0 < 1 - b := lt_of_lt_of_le (by positivity) (le_sub_comm.1 h1)
  obtain ⟨w, ew, hw⟩ := sigmoid_close (d := d) (z := b / (1 - b)) (by rw [le_div_iff₀ hb1]; nlinarith) (by rw [div_le_iff₀ hb1]; linarith) hl
  refine ⟨w, by rw [el, ew], ?_⟩
  rwa [show 1 / (1 + 1 / (b / (1 - b))) = b by field_simp; ring] at hw

end Fp
end Verif
