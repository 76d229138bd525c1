import Verif.Model.Ieee
import Verif.Proofs.FloatArith
/-
Rounding to nearest: to a number of the format, a nearest one, in order, with a small error; and float32 satisfies what the proofs about resampling assume.
-/
namespace Verif
namespace Fp

theorem nearbyint_nearest (x : ℝ) (k : ℤ) : |(nearbyint x : ℝ) - x| ≤ |(k : ℝ) - x| := by
  have h1 := Int.floor_le x
  have h2 := Int.lt_floor_add_one x
  have hk : (k : ℝ) ≤ ⌊x⌋ ∨ (⌊x⌋ : ℝ) + 1 ≤ k := by
    rcases lt_or_ge k (⌊x⌋ + 1) with h | h
    · left; exact_mod_cast Int.lt_add_one_iff.1 h
    · right; exact_mod_cast h
  have hd : min (x - ⌊x⌋) (⌊x⌋ + 1 - x) ≤ |(k : ℝ) - x| := by
    rcases hk with h | h
    · rw [abs_of_nonpos (by linarith)]
      exact (min_le_left _ _).trans (by linarith)
    · rw [abs_of_nonneg (by linarith)]
      exact (min_le_right _ _).trans (by linarith)
  refine le_trans ?_ hd
  have hlow : |((⌊x⌋ : ℤ) : ℝ) - x| = x - ⌊x⌋ := by rw [abs_of_nonpos (by linarith)]; ring
  have hup : |((⌊x⌋ + 1 : ℤ) : ℝ) - x| = ⌊x⌋ + 1 - x := by push_cast; rw [abs_of_nonneg (by linarith)]
  unfold nearbyint
  split_ifs with a b c
  · rw [hlow]; exact le_min le_rfl (by linarith)
  · rw [hup]; exact le_min (by linarith) le_rfl
  · rw [hlow]; exact le_min le_rfl (by linarith)
  · rw [hup]; exact le_min (by linarith) le_rfl

theorem nearbyint_le (x : ℝ) : |(nearbyint x : ℝ) - x| ≤ 1 / 2 := by
  have h1 := Int.floor_le x
  have h2 := Int.lt_floor_add_one x
  rcases le_total (x - ⌊x⌋) (1 / 2) with h | h
  · refine (nearbyint_nearest x ⌊x⌋).trans ?_
    rw [abs_of_nonpos (by linarith)]
    linarith
  · refine (nearbyint_nearest x (⌊x⌋ + 1)).trans ?_
    push_cast
    rw [abs_of_nonneg (by linarith)]
    linarith

section
variable (F : Format)

/-- Rounding gives the nearest multiple of the last place. -/
theorem round_multiple (x : ℝ) (k : ℤ) : |F.round x - x| ≤ |k * (2 : ℝ) ^ F.ulpExp x - x| := by
  have hq : (0 : ℝ) < (2 : ℝ) ^ F.ulpExp x := zpow_pos (by norm_num) _
  have h := nearbyint_nearest (x / (2 : ℝ) ^ F.ulpExp x) k
  have e : ∀ y : ℝ, y * (2 : ℝ) ^ F.ulpExp x - x = (y - x / (2 : ℝ) ^ F.ulpExp x) * (2 : ℝ) ^ F.ulpExp x := fun y => by
    field_simp
  unfold Format.round
  rw [e, e, abs_mul, abs_mul]
  exact mul_le_mul_of_nonneg_right h (abs_nonneg _)

theorem round_zero : F.round 0 = 0 := by
  have := round_multiple F 0 0
  simpa using this

/-- Rounding gives a number of the format. -/
theorem round_rep (x : ℝ) : F.Rep (F.round x) := by
  refine ⟨nearbyint (x / (2 : ℝ) ^ F.ulpExp x), F.ulpExp x, le_max_right _ _, ?_, rfl⟩
  have hq : (0 : ℝ) < (2 : ℝ) ^ F.ulpExp x := zpow_pos (by norm_num) _
  by_cases hx : x = 0
  · subst hx
    have : nearbyint (0 / (2 : ℝ) ^ F.ulpExp 0) = 0 := by simp [nearbyint]
    rw [this]
    simp
  have hlt : |x / (2 : ℝ) ^ F.ulpExp x| < 2 ^ F.p := by
    rw [abs_div, abs_of_pos hq, div_lt_iff₀ hq]
    refine lt_of_lt_of_le (Int.lt_zpow_succ_log_self (b := 2) (by norm_num) |x|) ?_
    rw [← zpow_natCast, ← zpow_add₀ (by norm_num)]
    refine zpow_le_zpow_right₀ (by norm_num) ?_
    have := le_max_left (Int.log 2 |x| + 1 - F.p) F.emin
    unfold Format.ulpExp
    omega
  have hb := abs_lt.1 hlt
  have hn := abs_le.1 (nearbyint_le (x / (2 : ℝ) ^ F.ulpExp x))
  rw [abs_le]
  constructor
  · by_contra hc
    have : nearbyint (x / (2 : ℝ) ^ F.ulpExp x) ≤ -2 ^ F.p - 1 := by omega
    have : (nearbyint (x / (2 : ℝ) ^ F.ulpExp x) : ℝ) ≤ -2 ^ F.p - 1 := by exact_mod_cast this
    linarith [hn.1, hn.2, hb.1]
  · by_contra hc
    have : 2 ^ F.p + 1 ≤ nearbyint (x / (2 : ℝ) ^ F.ulpExp x) := by omega
    have : (2 ^ F.p + 1 : ℝ) ≤ nearbyint (x / (2 : ℝ) ^ F.ulpExp x) := by exact_mod_cast this
    linarith [hn.1, hn.2, hb.2]

/-- Rounding gives a nearest number of the format. -/
theorem round_nearest (hp : 0 < F.p) (x r : ℝ) (hr : F.Rep r) : |F.round x - x| ≤ |r - x| := by
  obtain ⟨m, e, he, hm, rfl⟩ := hr
  have hm' : |(m : ℝ)| ≤ 2 ^ F.p := by exact_mod_cast hm
  by_cases hle : F.ulpExp x ≤ e
  · -- a multiple of the last place
    obtain ⟨d, hd⟩ := Int.eq_ofNat_of_zero_le (sub_nonneg.2 hle)
    have : (m : ℝ) * (2 : ℝ) ^ e = ((m * 2 ^ d : ℤ) : ℝ) * (2 : ℝ) ^ F.ulpExp x := by
      rw [show e = (d : ℤ) + F.ulpExp x by omega, zpow_add₀ (by norm_num), zpow_natCast]
      push_cast
      ring
    rw [this]
    exact round_multiple F x _
  · by_cases hx : x = 0
    · rw [hx, round_zero, sub_self, abs_zero]
      exact abs_nonneg _
    -- `r` is not farther from zero than the largest power of two below `x`
    have hul : F.ulpExp x = Int.log 2 |x| + 1 - F.p := by
      unfold Format.ulpExp at hle ⊢
      omega
    have hxpos : 0 < |x| := abs_pos.2 hx
    have hM : (2 : ℝ) ^ Int.log 2 |x| ≤ |x| := Int.zpow_log_le_self (by norm_num) hxpos
    have hrM : |(m : ℝ) * (2 : ℝ) ^ e| ≤ (2 : ℝ) ^ Int.log 2 |x| := by
      rw [abs_mul, abs_of_pos (zpow_pos (by norm_num) e : (0 : ℝ) < (2 : ℝ) ^ e)]
      refine (mul_le_mul_of_nonneg_right hm' (zpow_pos (by norm_num) e).le).trans ?_
      rw [← zpow_natCast, ← zpow_add₀ (by norm_num)]
      exact zpow_le_zpow_right₀ (by norm_num) (by omega)
    obtain ⟨p', hp'⟩ := Nat.exists_eq_succ_of_ne_zero hp.ne'
    have hmul : (2 : ℝ) ^ Int.log 2 |x| = ((2 ^ p' : ℤ) : ℝ) * (2 : ℝ) ^ F.ulpExp x := by
      rw [show Int.log 2 |x| = (p' : ℤ) + F.ulpExp x by rw [hul, hp']; push_cast; ring, zpow_add₀ (by norm_num), zpow_natCast]
      push_cast
      rfl
    rcases le_total 0 x with h | h
    · refine (round_multiple F x (2 ^ p')).trans ?_
      rw [← hmul]
      rw [abs_of_nonneg h] at hM hrM hxpos ⊢
      rw [abs_of_nonpos (by linarith), abs_of_nonpos (by linarith [(abs_le.1 hrM).2])]
      linarith [(abs_le.1 hrM).2]
    · refine (round_multiple F x (-2 ^ p')).trans ?_
      push_cast at hmul ⊢
      rw [neg_mul, ← hmul]
      rw [abs_of_nonpos h] at hM hrM hxpos ⊢
      rw [abs_of_nonneg (by linarith), abs_of_nonneg (by linarith [(abs_le.1 hrM).1])]
      linarith [(abs_le.1 hrM).1]

theorem round_of_rep (hp : 0 < F.p) {x : ℝ} (hx : F.Rep x) : F.round x = x := by
  have := round_nearest F hp x x hx
  rw [sub_self, abs_zero] at this
  exact sub_eq_zero.1 (abs_nonpos_iff.1 this)

theorem round_mono (hp : 0 < F.p) : Monotone F.round := by
  intro x y hxy
  by_contra hc
  have hlt := not_le.1 hc
  have h1 := round_nearest F hp x _ (round_rep F y)
  have h2 := round_nearest F hp y _ (round_rep F x)
  have hne : x ≠ y := fun h => by rw [h] at hlt; exact lt_irrefl _ hlt
  have hxy' := lt_of_le_of_ne hxy hne
  have a1 : F.round x + F.round y ≤ 2 * x := by
    rcases le_total (F.round y) x with h | h
    · rw [abs_of_nonpos (by linarith : F.round y - x ≤ 0)] at h1
      linarith [le_abs_self (F.round x - x)]
    · rw [abs_of_nonneg (by linarith : 0 ≤ F.round y - x)] at h1
      linarith [le_abs_self (F.round x - x)]
  have a2 : 2 * y ≤ F.round x + F.round y := by
    rcases le_total (F.round x) y with h | h
    · rw [abs_of_nonpos (by linarith : F.round x - y ≤ 0)] at h2
      linarith [neg_abs_le (F.round y - y)]
    · rw [abs_of_nonneg (by linarith : 0 ≤ F.round x - y)] at h2
      linarith [neg_abs_le (F.round y - y)]
  linarith

/-- The error of rounding numbers up to a power of two. -/
theorem round_error (hp : 0 < F.p) {x : ℝ} {k : Nat} (hx : |x| ≤ 2 ^ k) (hk : F.emin ≤ (k : ℤ) - F.p) : |F.round x - x| ≤ 2 ^ k / 2 ^ F.p / 2 := by
  have hbound : ∀ e : ℤ, e ≤ (k : ℤ) - F.p → (2 : ℝ) ^ e ≤ 2 ^ k / 2 ^ F.p := by
    intro e he
    rw [← zpow_natCast, ← zpow_natCast, ← zpow_sub₀ (by norm_num)]
    exact zpow_le_zpow_right₀ (by norm_num) he
  by_cases hlt : |x| = 2 ^ k
  · have hrep : F.Rep x := by
      rcases abs_choice x with h | h
      · refine ⟨2 ^ F.p, (k : ℤ) - F.p, hk, by simp, ?_⟩
        rw [← h, hlt]
        push_cast
        rw [← zpow_natCast, ← zpow_natCast, ← zpow_add₀ (by norm_num)]
        congr 1
        ring
      · refine ⟨-2 ^ F.p, (k : ℤ) - F.p, hk, by simp, ?_⟩
        rw [← neg_neg x, ← h, hlt]
        push_cast
        rw [neg_mul, ← zpow_natCast, ← zpow_natCast, ← zpow_add₀ (by norm_num)]
        congr 2
        ring
    rw [round_of_rep F hp hrep, sub_self, abs_zero]
    positivity
  have hlt' := lt_of_le_of_ne hx hlt
  have hq : (0 : ℝ) < (2 : ℝ) ^ F.ulpExp x := zpow_pos (by norm_num) _
  have h1 : |F.round x - x| ≤ (2 : ℝ) ^ F.ulpExp x / 2 := by
    have h := nearbyint_le (x / (2 : ℝ) ^ F.ulpExp x)
    have e : F.round x - x = (nearbyint (x / (2 : ℝ) ^ F.ulpExp x) - x / (2 : ℝ) ^ F.ulpExp x) * (2 : ℝ) ^ F.ulpExp x := by
      unfold Format.round
      field_simp
    rw [e, abs_mul, abs_of_pos hq]
    calc _ ≤ 1 / 2 * (2 : ℝ) ^ F.ulpExp x := mul_le_mul_of_nonneg_right h hq.le
      _ = _ := by ring
  by_cases hx0 : x = 0
  · rw [hx0, round_zero, sub_self, abs_zero]
    positivity
  have h2 : F.ulpExp x ≤ (k : ℤ) - F.p := by
    refine max_le ?_ hk
    have := Int.zpow_log_le_self (b := 2) (by norm_num) (abs_pos.2 hx0)
    have h3 : (2 : ℝ) ^ Int.log 2 |x| < (2 : ℝ) ^ (k : ℤ) := by
      rw [zpow_natCast]
      exact lt_of_le_of_lt (by exact_mod_cast this) hlt'
    have := (zpow_lt_zpow_iff_right₀ (by norm_num : (1 : ℝ) < 2)).1 h3
    omega
  linarith [hbound _ h2]

end

theorem rep_nat (F : Format) (he : F.emin ≤ 0) {k : Nat} (h : k ≤ 2 ^ F.p) : F.Rep k :=
  ⟨k, 0, he, by rw [Nat.abs_cast]; exact_mod_cast h, by simp⟩

/-- float32 is such an arithmetic for up to 2^24 particles. -/
theorem float32_ok {d : Bool} {n : Nat} (hn : 0 < n) (h : n ≤ 2 ^ 24) : (float32 d).Ok n := by
  have hz : b32.round 0 = 0 := round_zero b32
  have h1 : b32.round 1 = 1 := by simpa using round_of_rep b32 (by decide) (rep_nat b32 (by decide) (k := 1) (by decide))
  have hmono : Monotone b32.round := round_mono b32 (by decide)
  have hn' : (n : ℝ) ≤ 2 ^ 24 := by exact_mod_cast h
  have hn0 : (0 : ℝ) < n := by exact_mod_cast hn
  refine ⟨hmono, fun x => round_of_rep b32 (by decide) (round_rep b32 x), fun k hk => round_of_rep b32 (by decide) (rep_nat b32 (by decide) (hk.trans h)),
    ?_, ?_, ?_, ?_, ?_,
    fun x => ?_, fun x hx => ?_, fun x => round_of_rep b32 (by decide) (round_rep b32 _), ?_, ?_, ?_⟩
  · cases d
    · exact hmono
    · exact round_mono b64 (by decide)
  · cases d
    · exact fun x => round_of_rep b32 (by decide) (round_rep b32 x)
    · exact fun x => round_of_rep b64 (by decide) (round_rep b64 x)
  · cases d
    · exact fun k hk => round_of_rep b32 (by decide) (rep_nat b32 (by decide) (hk.trans h))
    · exact fun k hk => round_of_rep b64 (by decide) (rep_nat b64 (by decide) ((hk.trans h).trans (by decide)))
  · cases d
    · exact fun x => round_of_rep b32 (by decide) (round_rep b32 x)
    refine fun x => round_of_rep b64 (by decide) ?_
    obtain ⟨m, e, he, hm, hx⟩ := round_rep b32 x
    exact ⟨m, e, le_trans (by decide) he, hm.trans (by simp only [b32, b64]; norm_num), hx⟩
  · show b32.round (Real.exp 0) = 1
    rw [Real.exp_zero, h1]
  · show 0 ≤ b32.round (Real.exp x)
    rw [← hz]
    exact hmono (Real.exp_pos x).le
  · show b32.round (Real.exp x) ≤ 1
    rw [← h1]
    refine hmono ?_
    rw [← Real.exp_zero]
    exact Real.exp_le_exp.2 hx
  · have hrep : b32.Rep (1 / 2 ^ 24) := ⟨1, -24, by decide, by rw [abs_one]; exact one_le_pow₀ (by norm_num), by norm_num [zpow_neg]⟩
    have : (1 : ℝ) / 2 ^ 24 ≤ (float32 d).rd (1 / n) := by
      rw [← round_of_rep b32 (by decide) hrep]
      exact hmono (one_div_le_one_div_of_le hn0 hn')
    exact lt_of_lt_of_le (by positivity) this
  · show (n : ℝ) ≤ (2 ^ 24 - 1) * 2 ^ 104
    exact hn'.trans (by norm_num)
  · cases d
    · show (n : ℝ) ≤ (2 ^ 24 - 1) * 2 ^ 104
      exact hn'.trans (by norm_num)
    show (n : ℝ) ≤ (2 ^ 53 - 1) * 2 ^ 971
    refine hn'.trans ?_
    have : (1 : ℝ) ≤ 2 ^ 971 := one_le_pow₀ (by norm_num)
    calc (2 : ℝ) ^ 24 ≤ (2 ^ 53 - 1) * 1 := by norm_num
      _ ≤ _ := mul_le_mul_of_nonneg_left this (by norm_num)

end Fp
end Verif
