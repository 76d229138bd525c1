import Mathlib.Tactic.Linarith
import Mathlib.Tactic.FieldSimp
import Mathlib.Tactic.Ring
import Mathlib.Tactic.NormNum
import Mathlib.Tactic.Positivity
import Mathlib.Data.Real.Basic
import Verif.Model.Affine
/-
C43: the affine transformer pastes and crops consistently.
-/
namespace Verif

/-- C43: for positive pixel sizes the two coordinate maps are mutually inverse, for every position. -/
theorem C43_inverse (fp dp : Nat) (hf : 0 < fp) (hd : 0 < dp) (z p : ℝ × ℝ) :
    (thetaDtoF fp dp z).apply ((thetaFtoD fp dp z).apply p) = p ∧
      (thetaFtoD fp dp z).apply ((thetaDtoF fp dp z).apply p) = p := by
  have h1 : (fp : ℝ) ≠ 0 := by positivity
  have h2 : (dp : ℝ) ≠ 0 := by positivity
  obtain ⟨x, y⟩ := p
  constructor <;> simp only [Theta.apply, thetaDtoF, thetaFtoD, Prod.mk.injEq] <;> constructor <;> field_simp <;> ring

/-- The two axes are flipped differently: the frame's point at the digit's centre is `(z₁, -z₂) (1 - dp/fp)`. -/
example : (thetaFtoD 96 28 (1 / 2, 1 / 3)).apply (0, 0) = (17 / 48, -(17 / 72)) := by
  norm_num [Theta.apply, thetaFtoD]

theorem nearbyint_of_lt {x : ℝ} {k : ℤ} (h : |x - k| < 1 / 2) : nearbyint x = k := by
  rw [abs_lt] at h
  unfold nearbyint
  by_cases hk : (k : ℝ) ≤ x
  · have : ⌊x⌋ = k := by rw [Int.floor_eq_iff]; constructor <;> linarith
    rw [this, if_pos (by linarith)]
  · have : ⌊x⌋ = k - 1 := by
      rw [Int.floor_eq_iff]; push_cast; constructor <;> linarith
    rw [this]; push_cast
    rw [if_neg (by linarith), if_pos (by linarith)]; ring

theorem nearbyint_dist (x : ℝ) : |x - nearbyint x| ≤ 1 / 2 := by
  have h1 := Int.floor_le x
  have h2 := Int.lt_floor_add_one x
  unfold nearbyint
  rw [abs_le]
  split
  · constructor <;> linarith
  · split
    · push_cast; constructor <;> linarith
    · have : x - ⌊x⌋ = 1 / 2 := by linarith
      split
      · constructor <;> linarith
      · push_cast; constructor <;> linarith

theorem pixelCoord_mem {n : Nat} (i : Fin n) : -1 ≤ pixelCoord n i ∧ pixelCoord n i ≤ 1 := by
  unfold pixelCoord
  split
  · norm_num
  · rename_i h
    have h1 : (0 : ℝ) < (n : ℝ) - 1 := by
      have : (1 : ℝ) < n := by exact_mod_cast Nat.lt_of_not_le h
      linarith
    have h2 : (i : ℝ) ≤ (n : ℝ) - 1 := by
      have : ((i : ℕ) : ℝ) + 1 ≤ n := by exact_mod_cast i.2
      linarith
    have h3 : (0 : ℝ) ≤ i := by positivity
    have h4 : 0 ≤ 2 * (i : ℝ) / ((n : ℝ) - 1) := by positivity
    have h5 : 2 * (i : ℝ) / ((n : ℝ) - 1) ≤ 2 := by rw [div_le_iff₀ h1]; linarith
    constructor <;> linarith

/-- Coordinates in [-1, 1] have pixels. -/
theorem pixelIndex_mem {n : Nat} (hn : 0 < n) {x : ℝ} (h : -1 ≤ x ∧ x ≤ 1) :
    0 ≤ pixelIndex n x ∧ pixelIndex n x < n := by
  have hn1 : (1 : ℝ) ≤ n := by exact_mod_cast hn
  have hd := nearbyint_dist ((x + 1) / 2 * ((n : ℝ) - 1))
  rw [abs_le] at hd
  have h0 : 0 ≤ (x + 1) / 2 * ((n : ℝ) - 1) := mul_nonneg (by linarith) (by linarith)
  have h1 : (x + 1) / 2 * ((n : ℝ) - 1) ≤ (n : ℝ) - 1 := by nlinarith
  unfold pixelIndex
  constructor
  · have : (-1 : ℝ) < nearbyint ((x + 1) / 2 * ((n : ℝ) - 1)) := by linarith
    have : (-1 : ℤ) < nearbyint ((x + 1) / 2 * ((n : ℝ) - 1)) := by exact_mod_cast this
    omega
  · have : (nearbyint ((x + 1) / 2 * ((n : ℝ) - 1)) : ℝ) < n := by linarith
    exact_mod_cast this

theorem pixelIndex_coord {n : Nat} (i : Fin n) : pixelIndex n (pixelCoord n i) = (i : ℕ) := by
  apply nearbyint_of_lt
  unfold pixelCoord
  split
  · rename_i h
    have : n = 1 := by have := i.2; omega
    subst this
    have : i = 0 := Subsingleton.elim _ _
    simp [this]
  · rename_i h
    have h1 : (n : ℝ) - 1 ≠ 0 := by
      have : (1 : ℝ) < n := by exact_mod_cast Nat.lt_of_not_le h
      intro h; linarith
    have : (-1 + 2 * ((i : ℕ) : ℝ) / ((n : ℝ) - 1) + 1) / 2 * ((n : ℝ) - 1) - ((i : ℕ) : ℤ) = 0 := by
      push_cast; field_simp; ring
    rw [this]; norm_num

/-- The crop of a digit whose position is in the unit box reads inside of the frame. -/
theorem crop_mem {fp dp : Nat} (hd : 0 < dp) (hle : dp ≤ fp) {z u : ℝ} (hz : -1 ≤ z ∧ z ≤ 1) (hu : -1 ≤ u ∧ u ≤ 1) :
    -1 ≤ (dp : ℝ) / fp * u + z * (((fp : ℝ) - dp) / fp) ∧ (dp : ℝ) / fp * u + z * (((fp : ℝ) - dp) / fp) ≤ 1 := by
  have h0 : (0 : ℝ) < dp := by exact_mod_cast hd
  have h1 : (dp : ℝ) ≤ fp := by exact_mod_cast hle
  have h2 : (0 : ℝ) < fp := by linarith
  have e : (dp : ℝ) / fp * u + z * (((fp : ℝ) - dp) / fp) = (dp * u + z * (fp - dp)) / fp := by ring
  rw [e, le_div_iff₀ h2, div_le_iff₀ h2]
  constructor <;> nlinarith

/-- One axis: the frame pixel read for digit pixel `j` is in the frame, and pasting wrote digit pixel `j` there. -/
theorem axis_roundtrip {fp dp : Nat} (hd : 0 < dp) (hle : dp ≤ fp) {z : ℝ} (hz : -1 ≤ z ∧ z ≤ 1) (j : Fin dp) :
    ∃ i : Fin fp, pixelIndex fp ((dp : ℝ) / fp * pixelCoord dp j + z * (((fp : ℝ) - dp) / fp)) = (i : ℕ) ∧
      pixelIndex dp ((fp : ℝ) / dp * pixelCoord fp i - z * (((fp : ℝ) - dp) / dp)) = (j : ℕ) := by
  have hf : 0 < fp := by omega
  have h0 : (0 : ℝ) < dp := by exact_mod_cast hd
  have h1 : (dp : ℝ) ≤ fp := by exact_mod_cast hle
  have h2 : (0 : ℝ) < fp := by linarith
  obtain ⟨hi0, hi1⟩ := pixelIndex_mem hf (crop_mem hd hle hz (pixelCoord_mem j))
  set x := (dp : ℝ) / fp * pixelCoord dp j + z * (((fp : ℝ) - dp) / fp) with hx
  refine ⟨⟨(pixelIndex fp x).toNat, by omega⟩, (Int.toNat_of_nonneg hi0).symm, ?_⟩
  set i : Fin fp := ⟨(pixelIndex fp x).toNat, by omega⟩ with hi
  have hiv : ((i : ℕ) : ℤ) = pixelIndex fp x := Int.toNat_of_nonneg hi0
  rcases Nat.eq_or_lt_of_le hle with heq | hlt
  · -- equal sizes: both maps are the identity
    subst heq
    have hxe : x = pixelCoord dp j := by rw [hx]; field_simp; ring
    have hij : i = j := by
      apply Fin.ext
      have := hiv
      rw [hxe, pixelIndex_coord] at this
      exact_mod_cast this
    have : (dp : ℝ) / dp * pixelCoord dp i - z * (((dp : ℝ) - dp) / dp) = pixelCoord dp j := by
      rw [hij]; field_simp; ring
    rw [this, pixelIndex_coord]
  · -- the rounding error of the frame pixel is less than half a digit pixel
    have hfp : ¬ fp ≤ 1 := by omega
    have hf1 : (0 : ℝ) < (fp : ℝ) - 1 := by
      have : (1 : ℝ) < fp := by exact_mod_cast Nat.lt_of_not_le hfp
      linarith
    have hlt' : (dp : ℝ) < fp := by exact_mod_cast hlt
    apply nearbyint_of_lt
    have hd1 : (0 : ℝ) ≤ (dp : ℝ) - 1 := by
      have : (1 : ℝ) ≤ dp := by exact_mod_cast hd
      linarith
    have hdist := nearbyint_dist ((x + 1) / 2 * ((fp : ℝ) - 1))
    have hiv' : ((i : ℕ) : ℝ) = (nearbyint ((x + 1) / 2 * ((fp : ℝ) - 1)) : ℝ) := by
      have : (((i : ℕ) : ℤ) : ℝ) = (pixelIndex fp x : ℝ) := by rw [hiv]
      simpa [pixelIndex] using this
    rw [← hiv'] at hdist
    have hc : pixelCoord fp i = -1 + 2 * ((i : ℕ) : ℝ) / ((fp : ℝ) - 1) := by rw [pixelCoord, if_neg hfp]
    have hj : (pixelCoord dp j + 1) / 2 * ((dp : ℝ) - 1) = ((j : ℕ) : ℝ) := by
      unfold pixelCoord
      split
      · rename_i h
        have : dp = 1 := by omega
        subst this
        have : j = 0 := Subsingleton.elim _ _
        simp [this]
      · rename_i h
        have h1 : (dp : ℝ) - 1 ≠ 0 := by
          have : (1 : ℝ) < dp := by exact_mod_cast Nat.lt_of_not_le h
          intro h; linarith
        field_simp; ring
    have hu : pixelCoord dp j = (fp : ℝ) / dp * x - z * (((fp : ℝ) - dp) / dp) := by
      rw [hx]; field_simp; ring
    -- the digit coordinate of frame pixel `i`, in digit pixels
    have key : ((fp : ℝ) / dp * pixelCoord fp i - z * (((fp : ℝ) - dp) / dp) + 1) / 2 * ((dp : ℝ) - 1) -
        (((j : ℕ) : ℤ) : ℝ) =
        (fp * (dp - 1)) / (dp * (fp - 1)) * (((i : ℕ) : ℝ) - (x + 1) / 2 * ((fp : ℝ) - 1)) := by
      have e1 : (((j : ℕ) : ℤ) : ℝ) = ((j : ℕ) : ℝ) := by push_cast; rfl
      rw [e1, ← hj, hu, hc]
      field_simp
      ring
    rw [key, abs_mul, abs_of_nonneg (by positivity)]
    have hr : (fp * (dp - 1)) / (dp * (fp - 1)) < (1 : ℝ) := by
      rw [div_lt_one (by positivity)]; nlinarith
    have hr0 : (0 : ℝ) ≤ (fp * (dp - 1)) / (dp * (fp - 1)) := by positivity
    rw [abs_sub_comm] at hdist
    nlinarith [abs_nonneg (((i : ℕ) : ℝ) - (x + 1) / 2 * ((fp : ℝ) - 1))]

theorem pixelAt_fin {n : Nat} (img : Img n) (i j : Fin n) : pixelAt img (i : ℕ) (j : ℕ) = img i j := by
  have h : (0 ≤ ((i : ℕ) : ℤ) ∧ ((i : ℕ) : ℤ) < n) ∧ (0 ≤ ((j : ℕ) : ℤ) ∧ ((j : ℕ) : ℤ) < n) := by
    have := i.2; have := j.2; omega
  rw [pixelAt, dif_pos h]
  rfl

/-- C43, for whole images: when the position is in the unit box and the digit is no larger than the frame, cropping at
the position where a digit was pasted gives back exactly this digit, pixel by pixel. -/
theorem C43_crop_of_paste {S B T K : Type} (fp dp : Nat) (hd : 0 < dp) (hle : dp ≤ fp) (digit : S → B → K → Img dp)
    (z : S → B → T → K → ℝ × ℝ) (frames : S → B → T → Img fp) (s : S) (b : B) (t : T) (k : K)
    (hz : (-1 ≤ (z s b t k).1 ∧ (z s b t k).1 ≤ 1) ∧ (-1 ≤ (z s b t k).2 ∧ (z s b t k).2 ≤ 1))
    (hp : frames s b t = digitToFrame fp dp digit z s b t k) :
    frameToDigit fp dp frames z s b t k = digit s b k := by
  funext r c
  obtain ⟨⟨hx0, hx1⟩, hy0, hy1⟩ := hz
  obtain ⟨i, hi, hi'⟩ := axis_roundtrip hd hle ⟨hx0, hx1⟩ c
  obtain ⟨j, hj, hj'⟩ := axis_roundtrip (z := -(z s b t k).2) hd hle ⟨by linarith, by linarith⟩ r
  simp only [frameToDigit, warp, Theta.apply, thetaFtoD]
  have ex : (dp : ℝ) / fp * pixelCoord dp r + -1 * ((z s b t k).2 * (((fp : ℝ) - dp) / fp)) =
      (dp : ℝ) / fp * pixelCoord dp r + -(z s b t k).2 * (((fp : ℝ) - dp) / fp) := by ring
  rw [ex, hi, hj, hp, pixelAt_fin]
  simp only [digitToFrame, warp, Theta.apply, thetaDtoF]
  have e1 : (fp : ℝ) / dp * pixelCoord fp i + -1 * ((z s b t k).1 * (((fp : ℝ) - dp) / dp)) =
      (fp : ℝ) / dp * pixelCoord fp i - (z s b t k).1 * (((fp : ℝ) - dp) / dp) := by ring
  have e2 : (fp : ℝ) / dp * pixelCoord fp j + (z s b t k).2 * (((fp : ℝ) - dp) / dp) =
      (fp : ℝ) / dp * pixelCoord fp j - -(z s b t k).2 * (((fp : ℝ) - dp) / dp) := by ring
  rw [e1, e2, hi', hj', pixelAt_fin]

/-- Rounding to the nearest pixel: what is within the image's coordinates gets a pixel at most half a step away, what is more than half a
step outside gets none. -/
theorem pixelIndex_near {n : Nat} (hn : 1 < n) (x : ℝ) :
    ((-1 ≤ x ∧ x ≤ 1) → ∃ k : Fin n, pixelIndex n x = (k : ℕ) ∧ |x - pixelCoord n k| ≤ 1 / ((n : ℝ) - 1)) ∧
      (1 + 1 / ((n : ℝ) - 1) < |x| → pixelIndex n x < 0 ∨ (n : ℤ) ≤ pixelIndex n x) := by
  have h1 : (0 : ℝ) < (n : ℝ) - 1 := by
    have : (1 : ℝ) < n := by exact_mod_cast hn
    linarith
  have hdist := nearbyint_dist ((x + 1) / 2 * ((n : ℝ) - 1))
  constructor
  · intro hx
    obtain ⟨h2, h3⟩ := pixelIndex_mem (by omega : 0 < n) hx
    refine ⟨⟨(pixelIndex n x).toNat, by omega⟩, (Int.toNat_of_nonneg h2).symm, ?_⟩
    have hk : (((pixelIndex n x).toNat : ℕ) : ℝ) = (pixelIndex n x : ℝ) := by
      have := Int.toNat_of_nonneg h2
      exact_mod_cast congrArg (Int.cast (R := ℝ)) this
    rw [pixelCoord, if_neg (by omega)]
    dsimp only
    rw [hk]
    have e : x - (-1 + 2 * (pixelIndex n x : ℝ) / ((n : ℝ) - 1)) =
        2 / ((n : ℝ) - 1) * ((x + 1) / 2 * ((n : ℝ) - 1) - (pixelIndex n x : ℝ)) := by
      field_simp
      ring
    rw [e, abs_mul, abs_of_pos (by positivity)]
    calc 2 / ((n : ℝ) - 1) * |(x + 1) / 2 * ((n : ℝ) - 1) - (pixelIndex n x : ℝ)| ≤ 2 / ((n : ℝ) - 1) * (1 / 2) :=
          mul_le_mul_of_nonneg_left hdist (by positivity)
      _ = 1 / ((n : ℝ) - 1) := by ring
  · intro hx
    have hm : ((n : ℝ) - 1) + 1 < |x| * ((n : ℝ) - 1) := by
      have := mul_lt_mul_of_pos_right hx h1
      rwa [add_mul, one_mul, div_mul_cancel₀ _ h1.ne'] at this
    rw [abs_le] at hdist
    rcases abs_cases x with ⟨ha, -⟩ | ⟨ha, -⟩
    · right
      rw [ha] at hm
      have : (n : ℝ) - 1 < (pixelIndex n x : ℝ) := by
        have h := hdist.2
        unfold pixelIndex
        nlinarith
      have : ((n : ℤ) : ℝ) < ((pixelIndex n x + 1 : ℤ) : ℝ) := by push_cast; linarith
      have := Int.cast_lt.1 this
      omega
    · left
      rw [ha] at hm
      have : (pixelIndex n x : ℝ) < 0 := by
        have h := hdist.1
        unfold pixelIndex
        nlinarith
      exact_mod_cast this

/-- C43. A pasted digit, pixel by pixel: where the point of the frame lies within the digit there is the nearest pixel of the digit, at most
half a pixel away on each axis; where it lies outside by more than half a pixel on one axis there is 0. `x`, `y` are the point's coordinates
in the digit, whose middle is at `z` (with the vertical axis upwards) in the part of the frame where the digit fits. -/
theorem C43_paste {S B T K : Type} (fp dp : Nat) (hd : 1 < dp) (digit : S → B → K → Img dp) (z : S → B → T → K → ℝ × ℝ) (s : S) (b : B) (t : T)
    (k : K) (row col : Fin fp) (x y : ℝ) (hx : x = (fp * pixelCoord fp col - (z s b t k).1 * (fp - dp)) / dp)
    (hy : y = (fp * pixelCoord fp row + (z s b t k).2 * (fp - dp)) / dp) :
    (|x| ≤ 1 → |y| ≤ 1 → ∃ r c, digitToFrame fp dp digit z s b t k row col = digit s b k r c ∧
      |x - pixelCoord dp c| ≤ 1 / ((dp : ℝ) - 1) ∧ |y - pixelCoord dp r| ≤ 1 / ((dp : ℝ) - 1)) ∧
    (1 + 1 / ((dp : ℝ) - 1) < |x| ∨ 1 + 1 / ((dp : ℝ) - 1) < |y| → digitToFrame fp dp digit z s b t k row col = 0) := by
  have e : digitToFrame fp dp digit z s b t k row col = pixelAt (digit s b k) (pixelIndex dp y) (pixelIndex dp x) := by
    simp only [digitToFrame, warp, Theta.apply, thetaDtoF]
    rw [hx, hy]
    congr 2 <;> ring
  rw [e]
  constructor
  · intro h1 h2
    obtain ⟨c, hc, hc'⟩ := (pixelIndex_near hd x).1 (abs_le.1 h1)
    obtain ⟨r, hr, hr'⟩ := (pixelIndex_near hd y).1 (abs_le.1 h2)
    exact ⟨r, c, by rw [hc, hr, pixelAt_fin], hc', hr'⟩
  · intro h
    unfold pixelAt
    rw [dif_neg]
    rintro ⟨⟨h1, h2⟩, h3, h4⟩
    rcases h with h | h
    · have := (pixelIndex_near hd x).2 h; omega
    · have := (pixelIndex_near hd y).2 h; omega

/-- In the experiment's sizes, a digit in the middle of the frame leaves the corner of the frame black. -/
example (digit : Img 28) :
    digitToFrame 96 28 (fun (_ _ _ : Unit) => digit) (fun _ _ _ _ => (0, 0)) () () () () (0 : Fin 96) (0 : Fin 96) = 0 := by
  refine (C43_paste 96 28 (by norm_num) (fun (_ _ _ : Unit) => digit) (fun _ _ _ _ => (0, 0)) () () () () 0 0 _ _ rfl rfl).2 (.inl ?_)
  norm_num [pixelCoord, abs_of_neg]

/-- The sizes of the experiment (experiments/apgs/main.py: 96 and 28 pixels) and a position in the box. -/
example (digit : Img 28) (frames : Unit → Unit → Unit → Img 96)
    (h : frames () () () = digitToFrame 96 28 (fun (_ _ _ : Unit) => digit) (fun _ _ _ _ => (1 / 2, -1)) () () () ()) :
    frameToDigit 96 28 frames (fun (_ _ _ _ : Unit) => (1 / 2, -1)) () () () () = digit :=
  C43_crop_of_paste 96 28 (by norm_num) (by norm_num) (fun _ _ _ => digit) (fun _ _ _ _ => (1 / 2, -1)) frames
    () () () () (by norm_num) h

end Verif
