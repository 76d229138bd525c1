import Verif.Model.FloatPixels
import Verif.Props.FloatEvidence
import Verif.Props.FloatSim
import Verif.Spec.ApgNets
/-
C106: pixel probabilities in floating point.
-/
namespace Verif
namespace Fp

theorem nearbyint_unique {x : ℝ} {m : ℤ} (h : |x - m| < 1 / 2) : nearbyint x = m := by
  have h1 := nearbyint_le x
  have h2 : |((nearbyint x - m : ℤ) : ℝ)| < 1 := by
    push_cast
    have := abs_add_le ((nearbyint x : ℝ) - x) (x - m)
    rw [show (nearbyint x : ℝ) - x + (x - m) = nearbyint x - m by ring] at this
    linarith
  have h3 : |nearbyint x - m| < 1 := by exact_mod_cast h2
  have := Int.abs_lt_one_iff.1 h3
  omega

/-- Adding less than half of the last place changes nothing. -/
theorem round_absorb (F : Format) (hp : 0 < F.p) {x δ : ℝ} (hx : F.Rep x) (h0 : 0 < x) (hn : F.emin ≤ Int.log 2 x + 1 - F.p) (hδ : 0 ≤ δ)
    (h : δ < (2 : ℝ) ^ (Int.log 2 x + 1 - F.p) / 2) : F.round (x + δ) = x := by
  set l := Int.log 2 x with hl
  set e : ℤ := l + 1 - F.p with he
  have hue : F.ulpExp x = e := by
    unfold Format.ulpExp
    rw [abs_of_pos h0]
    exact max_eq_left hn
  have hq : (0 : ℝ) < (2 : ℝ) ^ e := zpow_pos (by norm_num) _
  set m := nearbyint (x / (2 : ℝ) ^ e) with hm
  have hxm : x = m * (2 : ℝ) ^ e := by
    have := round_of_rep F hp hx
    unfold Format.round at this
    rw [hue] at this
    exact this.symm
  have hlow : (2 : ℝ) ^ l ≤ x := by exact_mod_cast Int.zpow_log_le_self (b := 2) (by norm_num) h0
  have hup : x < (2 : ℝ) ^ (l + 1) := by exact_mod_cast Int.lt_zpow_succ_log_self (b := 2) (by norm_num) x
  have hpow : (2 : ℝ) ^ (l + 1) = ((2 ^ F.p : ℤ) : ℝ) * (2 : ℝ) ^ e := by
    push_cast
    rw [← zpow_natCast, ← zpow_add₀ (by norm_num)]
    congr 1
    omega
  have hmlt : m + 1 ≤ 2 ^ F.p := by
    rw [hxm, hpow] at hup
    have := lt_of_mul_lt_mul_right hup hq.le
    exact_mod_cast this
  have hup' : x + δ < (2 : ℝ) ^ (l + 1) := by
    have h1 : ((m + 1 : ℤ) : ℝ) * (2 : ℝ) ^ e ≤ ((2 ^ F.p : ℤ) : ℝ) * (2 : ℝ) ^ e := mul_le_mul_of_nonneg_right (by exact_mod_cast hmlt) hq.le
    rw [hpow]
    push_cast at h1 ⊢
    rw [hxm]
    linarith
  have hpos : 0 < x + δ := by linarith
  have hlog : Int.log 2 (x + δ) = l := by
    apply le_antisymm
    · have := (Int.lt_zpow_iff_log_lt (b := 2) (x := l + 1) (by norm_num) hpos).1 (by exact_mod_cast hup')
      omega
    · exact (Int.zpow_le_iff_le_log (b := 2) (by norm_num) hpos).1 (by push_cast; linarith)
  have hue' : F.ulpExp (x + δ) = e := by
    unfold Format.ulpExp
    rw [abs_of_pos hpos, hlog]
    exact max_eq_left hn
  unfold Format.round
  rw [hue', nearbyint_unique (m := m), ← hxm]
  have : (x + δ) / (2 : ℝ) ^ e - m = δ / (2 : ℝ) ^ e := by
    rw [add_div, hxm, mul_div_cancel_right₀ _ hq.ne']
    ring
  rw [this, abs_of_nonneg (by positivity), div_lt_iff₀ hq]
  linarith

theorem rep_dyadic (F : Format) (m : ℤ) (k : Nat) (hm : |m| ≤ 2 ^ F.p) (hk : F.emin ≤ -(k : ℤ)) : F.Rep (m / 2 ^ k) :=
  ⟨m, -k, hk, hm, by rw [zpow_neg, zpow_natCast, div_eq_mul_inv]⟩

theorem eps_bounds (F : Format) (hp : 4 ≤ F.p) (hk : F.emin ≤ -33) : 1 / 2 ^ 30 ≤ F.round (1 / 10 ^ 9) ∧ F.round (1 / 10 ^ 9) ≤ 9 / 2 ^ 33 := by
  have m := round_mono F (by omega)
  have h16 : (16 : ℤ) ≤ 2 ^ F.p := by
    calc (16 : ℤ) = 2 ^ 4 := by norm_num
      _ ≤ 2 ^ F.p := pow_le_pow_right₀ (by norm_num) hp
  have r1 := round_of_rep F (by omega) (rep_dyadic F 1 30 (by norm_num; omega) (by push_cast; omega))
  have r2 := round_of_rep F (by omega) (rep_dyadic F 9 33 (by norm_num; omega) (by push_cast; omega))
  push_cast at r1 r2
  exact ⟨by rw [← r1]; exact m (by norm_num), by rw [← r2]; exact m (by norm_num)⟩

/-- A relative error survives clamping. -/
theorem clamp_rel {a b r c d : ℝ} (hr : 0 ≤ r) (hr1 : r ≤ 1) (hc : 0 < c) (hcd : c ≤ d) (hb : 0 ≤ b) (h : |a - b| ≤ r * b) :
    |min (max a c) d - max c (min b d)| ≤ r * max c (min b d) := by
  obtain ⟨h1, h2⟩ := abs_le.1 h
  rw [abs_le]
  rcases le_total a c with p | p <;> rcases le_total b d with q | q
  · rw [max_eq_right p, min_eq_left hcd, min_eq_left q]
    rcases le_total c b with s | s
    · rw [max_eq_right s]; constructor <;> nlinarith
    · rw [max_eq_left s]; constructor <;> nlinarith
  · rw [max_eq_right p, min_eq_left hcd, min_eq_right q, max_eq_right hcd]
    constructor <;> nlinarith
  · rw [max_eq_left p, min_eq_left q]
    rcases le_total c b with s | s <;> rcases le_total a d with t | t
    · rw [max_eq_right s, min_eq_left t]; constructor <;> nlinarith
    · rw [max_eq_right s, min_eq_right t]; constructor <;> nlinarith
    · rw [max_eq_left s, min_eq_left t]; constructor <;> nlinarith
    · rw [max_eq_left s, min_eq_right t]; constructor <;> nlinarith
  · rw [max_eq_left p, min_eq_right q, max_eq_right hcd]
    rcases le_total a d with t | t
    · rw [min_eq_left t]; constructor <;> nlinarith
    · rw [min_eq_right t]; constructor <;> nlinarith

theorem lit_clamp (s : ℝ) : Spec.Bouncing.lit (max 0 (min s 1)) = Spec.Bouncing.lit s := by
  unfold Spec.Bouncing.lit
  rcases le_total s 0 with h | h
  · rw [min_eq_left (by linarith : s ≤ 1), max_eq_left h, min_eq_left (by norm_num), min_eq_left (by norm_num; linarith), max_eq_left (by norm_num),
      max_eq_left (by norm_num; linarith)]
  · rcases le_total s 1 with h' | h'
    · rw [min_eq_left h', max_eq_right h]
    · rw [min_eq_right h', max_eq_right zero_le_one, min_eq_right (by norm_num), min_eq_right (by norm_num; linarith)]

/-- The brightness after `torch.clamp` is a number of the format if the sum is. -/
theorem clamp_rep (s : ℝ) (hs : b32.Rep s) : b32.Rep (max 0 (min s 1)) := by
  rcases min_choice s 1 with h | h <;> rw [h]
  · rcases max_choice 0 s with h | h <;> rw [h]
    · exact_mod_cast rep_nat b32 (by decide) (k := 0) (by decide)
    · exact hs
  · rw [max_eq_right zero_le_one]
    exact_mod_cast rep_nat b32 (by decide) (k := 1) (by decide)

theorem eps_absorbed {x : ℝ} (hx : b32.Rep x) (h : 1 / 32 ≤ x) : b32.round (x + b32.round (1 / 10 ^ 9)) = x := by
  obtain ⟨e0, e1⟩ := eps_bounds b32 (by decide) (by decide)
  have hl : -5 ≤ Int.log 2 x := (Int.zpow_le_iff_le_log (b := 2) (by norm_num) (by linarith)).1 (by norm_num; linarith)
  have hp : (2 : ℝ) ^ (-28 : ℤ) ≤ (2 : ℝ) ^ (Int.log 2 x + 1 - (b32.p : ℤ)) := zpow_le_zpow_right₀ (by norm_num) (by simp only [b32]; push_cast; omega)
  refine round_absorb b32 (by decide) hx (by linarith) (by simp only [b32]; push_cast; omega) (by linarith [show (0 : ℝ) < 1 / 2 ^ 30 by norm_num]) ?_
  have : (9 : ℝ) / 2 ^ 33 < (2 : ℝ) ^ (-28 : ℤ) / 2 := by norm_num
  exact lt_of_le_of_lt e1 (lt_of_lt_of_le this (div_le_div_of_nonneg_right hp (by norm_num)))

theorem probs32_pos (s : ℝ) : 0 ≤ pixelProbs b32 s := by
  have m := round_mono b32 (by decide)
  have e0 := (eps_bounds b32 (by decide) (by decide)).1
  unfold pixelProbs
  exact (round_zero b32).symm.le.trans (m <| by have := le_max_left 0 (min s 1); linarith [show (0 : ℝ) < 1 / 2 ^ 30 by norm_num])

theorem probs32_le (s : ℝ) : pixelProbs b32 s ≤ 1 := by
  have m := round_mono b32 (by decide)
  have h : b32.round (1 + b32.round (1 / 10 ^ 9)) = 1 := eps_absorbed (by exact_mod_cast rep_nat b32 (by decide) (k := 1) (by decide)) (by norm_num)
  rw [← h]
  exact m (by have := max_le (zero_le_one (α := ℝ)) (min_le_right s 1); linarith)

theorem probs32_rel (s : ℝ) : |pixelProbs b32 s - (max 0 (min s 1) + 1 / 10 ^ 9)| ≤ 1 / 2 ^ 22 * (max 0 (min s 1) + 1 / 10 ^ 9) := by
  obtain ⟨e0, e1⟩ := eps_bounds b32 (by decide) (by decide)
  set x := max 0 (min s 1) with hx
  have hx0 : 0 ≤ x := le_max_left _ _
  have tiny : (2 : ℝ) ^ (b32.emin + b32.p - 1) ≤ 1 / 2 ^ 30 := by
    rw [show (1 : ℝ) / 2 ^ 30 = 2 ^ (-30 : ℤ) by norm_num [zpow_neg]]
    exact zpow_le_zpow_right₀ (by norm_num) (by decide)
  have p30 : (0 : ℝ) < 1 / 2 ^ 30 := by norm_num
  have a := round_rel b32 (1 / 10 ^ 9) (by rw [abs_of_pos (by norm_num)]; exact tiny.trans (by norm_num))
  have b := round_rel b32 (x + b32.round (1 / 10 ^ 9)) (by rw [abs_of_pos (by linarith)]; linarith)
  rw [abs_of_pos (by linarith : 0 < x + b32.round (1 / 10 ^ 9))] at b
  rw [abs_of_pos (by norm_num : (0 : ℝ) < 1 / 10 ^ 9)] at a
  have hp : ((2 : ℝ) ^ b32.p) = 2 ^ 24 := rfl
  rw [hp] at a b
  unfold pixelProbs
  rw [← hx]
  obtain ⟨a1, a2⟩ := abs_le.1 a
  obtain ⟨b1, b2⟩ := abs_le.1 b
  rw [abs_le]
  constructor <;> linarith

theorem clamp32_eq (p : ℝ) : clampArg b32 p = min (max p (1 / 2 ^ 23)) (1 - 1 / 2 ^ 23) := by
  have h : b32.round (1 - 1 / 2 ^ 23) = 1 - 1 / 2 ^ 23 := by
    have := round_of_rep b32 (by decide) (rep_dyadic b32 (2 ^ 23 - 1) 23 (by decide) (by decide))
    push_cast at this
    rwa [show (8388607 : ℝ) / 2 ^ 23 = 1 - 1 / 2 ^ 23 by norm_num] at this
  have e : (2 : ℝ) / 2 ^ b32.p = 1 / 2 ^ 23 := by simp only [b32]; norm_num
  unfold clampArg
  simp only [e, h]

theorem log_floor {p : ℝ} (h : 1 / 2 ^ 23 ≤ p) (h1 : p ≤ 1) : -16 ≤ Real.log p ∧ Real.log p ≤ 0 := by
  have hp : 0 < p := lt_of_lt_of_le (by norm_num) h
  refine ⟨?_, Real.log_nonpos hp.le h1⟩
  have := Real.log_le_log (by norm_num) h
  rw [Real.log_div (by norm_num) (by norm_num), Real.log_one, Real.log_pow] at this
  have h2 := Real.log_two_lt_d9
  push_cast at this
  linarith

/-- C106: in float32 the probabilities are always accepted; EPS is lost for brightness from 1/32 on; what the frames are scored with is, up to a relative error of 2⁻²², the
probability of the exact model, and its logits are finite. -/
theorem C106_float32 (s : ℝ) (hs : b32.Rep s) :
    bernoulliArg (pixelProbs b32 s) = .ok (pixelProbs b32 s) ∧ (1 / 32 ≤ s → pixelProbs b32 s = min s 1) ∧
    |clampArg b32 (pixelProbs b32 s) - Spec.Bouncing.lit s| ≤ 1 / 2 ^ 22 * Spec.Bouncing.lit s ∧ |pixelLogits b32 (pixelProbs b32 s)| ≤ 16 := by
  refine ⟨if_pos ⟨probs32_pos s, probs32_le s⟩, fun h => ?_, ?_, ?_⟩
  · have e : max 0 (min s 1) = min s 1 := max_eq_right (le_min (by linarith) zero_le_one)
    have := eps_absorbed (clamp_rep s hs) (by rw [e]; exact le_min h (by norm_num))
    unfold pixelProbs
    rw [this, e]
  · rw [← lit_clamp, clamp32_eq]
    exact clamp_rel (by norm_num) (by norm_num) (by norm_num) (by norm_num) (by have := le_max_left 0 (min s 1); linarith [show (0 : ℝ) < 1 / 10 ^ 9 by norm_num]) (probs32_rel s)
  · have c := clamp32_eq (pixelProbs b32 s)
    set q := clampArg b32 (pixelProbs b32 s) with hq
    have q0 : 1 / 2 ^ 23 ≤ q := by rw [c]; exact le_min (le_max_right _ _) (by norm_num)
    have q1 : q ≤ 1 - 1 / 2 ^ 23 := by rw [c]; exact min_le_right _ _
    have p23 : (0 : ℝ) < 1 / 2 ^ 23 := by norm_num
    obtain ⟨a0, a1⟩ := log_floor q0 (by linarith)
    obtain ⟨b0, b1⟩ := log_floor (p := 1 - q) (by linarith) (by linarith)
    have A := round32_between (a := -16) (b := 0) (by decide) (by decide) (by push_cast; exact a0) (by push_cast; exact a1)
    have B := round32_between (a := -16) (b := 0) (by decide) (by decide) (by push_cast; exact b0) (by push_cast; exact b1)
    push_cast at A B
    have C := round32_between (a := -16) (b := 16) (x := b32.round (Real.log q) - b32.round (Real.log (1 - q))) (by decide) (by decide) (by push_cast; linarith [A.1, B.2])
      (by push_cast; linarith [A.2, B.1])
    push_cast at C
    unfold pixelLogits
    rw [← hq]
    exact abs_le.2 C

/-- C106: with float64 tensors a saturated pixel has a probability above 1, and `Bernoulli` raises ValueError; a pixel of brightness up to 1 - 10⁻⁸ is accepted. -/
theorem C106_float64 (s : ℝ) : (1 ≤ s → 1 < pixelProbs b64 s ∧ bernoulliArg (pixelProbs b64 s) = .error .value) ∧
    (s ≤ 1 - 1 / 10 ^ 8 → bernoulliArg (pixelProbs b64 s) = .ok (pixelProbs b64 s)) := by
  have m := round_mono b64 (by decide)
  obtain ⟨e0, e1⟩ := eps_bounds b64 (by decide) (by decide)
  constructor
  · intro h
    have r := round_of_rep b64 (by decide) (rep_dyadic b64 (2 ^ 30 + 1) 30 (by decide) (by decide))
    push_cast at r
    have gt : 1 < pixelProbs b64 s := by
      unfold pixelProbs
      rw [min_eq_right h, max_eq_right zero_le_one]
      refine lt_of_lt_of_le ?_ (r.symm.le.trans (m ?_))
      · norm_num
      · have : ((2 : ℝ) ^ 30 + 1) / 2 ^ 30 = 1 + 1 / 2 ^ 30 := by norm_num
        linarith
    exact ⟨gt, if_neg fun h => absurd h.2 (not_le.2 gt)⟩
  · intro h
    have r : b64.round 1 = 1 := round_of_rep b64 (by decide) (by exact_mod_cast rep_nat b64 (by decide) (k := 1) (by decide))
    refine if_pos ⟨?_, ?_⟩
    · unfold pixelProbs
      exact (round_zero b64).symm.le.trans (m <| by have := le_max_left 0 (min s 1); linarith [show (0 : ℝ) < 1 / 2 ^ 30 by norm_num])
    · unfold pixelProbs
      rw [← r]
      refine m ?_
      have h8 : (9 : ℝ) / 2 ^ 33 ≤ 1 / 10 ^ 8 := by norm_num
      have : max 0 (min s 1) ≤ 1 - 1 / 10 ^ 8 := max_le (by norm_num) ((min_le_left _ _).trans h)
      rw [r]
      linarith

/-- Two overlapping shapes of full brightness: accepted in float32, rejected in float64. -/
example : bernoulliArg (pixelProbs b32 2) = .ok 1 ∧ bernoulliArg (pixelProbs b64 2) = .error .value := by
  obtain ⟨h1, h2, -, -⟩ := C106_float32 2 (by exact_mod_cast rep_nat b32 (by decide) (k := 2) (by decide))
  refine ⟨?_, ((C106_float64 2).1 (by norm_num)).2⟩
  rw [h1, h2 (by norm_num)]
  norm_num

end Fp
end Verif
