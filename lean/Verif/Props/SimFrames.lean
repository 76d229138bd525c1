import Mathlib.Tactic.Linarith
import Mathlib.Tactic.FieldSimp
import Mathlib.Tactic.Ring
import Mathlib.Tactic.NormNum
import Mathlib.Tactic.Positivity
import Verif.Model.SimFrames
import Verif.Props.Affine
import Verif.Props.Simulator
import Verif.Props.Viz
/-
C101: what the frames of the simulated videos show, and how the decoder's frames compare.
-/
namespace Verif

namespace Spec

/-- Where the upper or left edge of a patch of `P` pixels lies in a frame of `F` pixels for the coordinate `x`: at the far
end for -1, at the origin for 1. -/
noncomputable def offset (F P : Nat) (x : ℝ) : ℝ := ((F : ℝ) - P) * (1 - x) / 2

/-- The offset is not exactly between two pixels. -/
def NoTie (o : ℝ) : Prop := ∀ k : ℤ, o ≠ k + 1 / 2

/-- The frame is zero but for one exact copy of the image, whose upper left pixel is at row `a`, column `b`. -/
def CopyAt {F P : Nat} (frame : Img F) (img : Img P) (a b : Nat) : Prop :=
  (a + P ≤ F ∧ b + P ≤ F) ∧
    (∀ (r c : Fin P) (i j : Fin F), (i : Nat) = a + r → (j : Nat) = b + c → frame i j = img r c) ∧
    ∀ i j : Fin F, ¬ ((a ≤ i ∧ (i : Nat) < a + P) ∧ b ≤ j ∧ (j : Nat) < b + P) → frame i j = 0

end Spec

/-- One axis: reading a pixel of the frame is a shift by the offset. -/
theorem simIndex_eq {F S p : Nat} (hS : 0 < S) (x : ℝ) (i : Fin F) :
    pixelIndexF (S + p * 2) ((F : ℝ) / ((S : ℝ) + p * 2) * pixelCoordF F i + x * (((F : ℝ) - ((S : ℝ) + p * 2)) / ((S : ℝ) + p * 2))) =
      nearbyint ((i : ℝ) - Spec.offset F (S + p * 2) x) := by
  have hF : (F : ℝ) ≠ 0 := by have : 0 < F := i.pos; positivity
  have hP : (S : ℝ) + p * 2 ≠ 0 := by positivity
  unfold pixelIndexF pixelCoordF Spec.offset
  congr 1
  push_cast
  field_simp
  ring

/-- C101: every pixel of the frame shows the pixel of the shape that is moved there: the shape is neither scaled nor
mirrored, and it moves left and up as the coordinates grow. -/
theorem C101_shift (F S p : Nat) (hS : 0 < S) (img : Img (S + p * 2)) (x : ℝ × ℝ) (i j : Fin F) :
    simObject F S p img x i j =
      pixelAt img (nearbyint ((i : ℝ) - Spec.offset F (S + p * 2) x.2)) (nearbyint ((j : ℝ) - Spec.offset F (S + p * 2) x.1)) := by
  unfold simObject simSample
  simp only [simIndex_eq hS]

theorem offset_mem {F P : Nat} (h : P ≤ F) {x : ℝ} (hx : -1 ≤ x ∧ x ≤ 1) :
    0 ≤ Spec.offset F P x ∧ Spec.offset F P x ≤ (F : ℝ) - P := by
  have : (P : ℝ) ≤ F := by exact_mod_cast h
  unfold Spec.offset
  constructor <;> nlinarith

theorem exists_near {F P : Nat} (h : P ≤ F) {o : ℝ} (ho : 0 ≤ o ∧ o ≤ (F : ℝ) - P) (ht : Spec.NoTie o) :
    ∃ a : Nat, a + P ≤ F ∧ |(a : ℝ) - o| < 1 / 2 ∧ ∀ i : Nat, nearbyint ((i : ℝ) - o) = (i : ℤ) - a := by
  have hd := nearbyint_dist o
  have hne : |o - nearbyint o| ≠ 1 / 2 := by
    intro e
    rcases (abs_eq (by norm_num)).mp e with e | e
    · exact ht (nearbyint o) (by linarith)
    · exact ht (nearbyint o - 1) (by push_cast; linarith)
  have hlt := lt_of_le_of_ne hd hne
  rw [abs_lt] at hlt
  have h0 : 0 ≤ nearbyint o := by
    have : (-1 : ℝ) < nearbyint o := by linarith
    have : (-1 : ℤ) < nearbyint o := by exact_mod_cast this
    omega
  have h1 : nearbyint o + P ≤ F := by
    have : (nearbyint o : ℝ) + P < F + 1 := by linarith
    have : nearbyint o + P < (F : ℤ) + 1 := by exact_mod_cast this
    omega
  have e : ((nearbyint o).toNat : ℤ) = nearbyint o := Int.toNat_of_nonneg h0
  have e' : ((nearbyint o).toNat : ℝ) = (nearbyint o : ℝ) := by exact_mod_cast congrArg (Int.cast : ℤ → ℝ) e
  refine ⟨(nearbyint o).toNat, by omega, ?_, fun i => ?_⟩
  · rw [e', abs_lt]; constructor <;> linarith
  · apply nearbyint_of_lt
    push_cast
    rw [e', abs_lt]
    constructor <;> linarith

/-- C101: a shape whose position is in the box is shown completely, once and unchanged, within half a pixel of the offset
that belongs to its position; the rest of its frame is empty. The offset must not lie exactly between two pixels. -/
theorem C101_copy (F S p : Nat) (hS : 0 < S) (hF : S + p * 2 ≤ F) (img : Img (S + p * 2)) (x : ℝ × ℝ)
    (hx : (-1 ≤ x.1 ∧ x.1 ≤ 1) ∧ (-1 ≤ x.2 ∧ x.2 ≤ 1))
    (h1 : Spec.NoTie (Spec.offset F (S + p * 2) x.1)) (h2 : Spec.NoTie (Spec.offset F (S + p * 2) x.2)) :
    ∃ a b : Nat, |(a : ℝ) - Spec.offset F (S + p * 2) x.2| < 1 / 2 ∧ |(b : ℝ) - Spec.offset F (S + p * 2) x.1| < 1 / 2 ∧
      Spec.CopyAt (simObject F S p img x) img a b := by
  obtain ⟨a, ha, ha1, ha2⟩ := exists_near hF (offset_mem hF hx.2) h2
  obtain ⟨b, hb, hb1, hb2⟩ := exists_near hF (offset_mem hF hx.1) h1
  refine ⟨a, b, ha1, hb1, ⟨ha, hb⟩, fun r c i j hi hj => ?_, fun i j hij => ?_⟩
  · rw [C101_shift F S p hS, ha2, hb2]
    have e1 : ((i : Nat) : ℤ) - a = (r : Nat) := by omega
    have e2 : ((j : Nat) : ℤ) - b = (c : Nat) := by omega
    rw [e1, e2]
    unfold pixelAt
    rw [dif_pos (by have := r.2; have := c.2; omega)]
    simp
  · rw [C101_shift F S p hS, ha2, hb2]
    unfold pixelAt
    rw [dif_neg (by omega)]

theorem nearbyint_tie (m : ℤ) : nearbyint ((m : ℝ) + 1 / 2) % 2 = 0 := by
  have hf : ⌊(m : ℝ) + 1 / 2⌋ = m := by
    rw [Int.floor_eq_iff]; constructor <;> linarith
  unfold nearbyint
  rw [hf, if_neg (by linarith), if_neg (by linarith)]
  split <;> omega

theorem pixelAt_congr {n : Nat} (img img' : Img n) (row col : ℤ)
    (h : ∀ r c : Fin n, (r : ℤ) = row → (c : ℤ) = col → img r c = img' r c) : pixelAt img row col = pixelAt img' row col := by
  unfold pixelAt
  split
  · rename_i hh
    exact h _ _ (by simp; omega) (by simp; omega)
  · rfl

theorem tie_even {o : ℝ} (h : ¬ Spec.NoTie o) (i : Nat) : nearbyint ((i : ℝ) - o) % 2 = 0 := by
  unfold Spec.NoTie at h
  push Not at h
  obtain ⟨k, rfl⟩ := h
  have : (i : ℝ) - ((k : ℝ) + 1 / 2) = (((i : ℤ) - k - 1 : ℤ) : ℝ) + 1 / 2 := by push_cast; ring
  rw [this]
  exact nearbyint_tie _

/-- C101: when the vertical offset lies exactly between two pixels, the rows of the shape with an odd index are not shown at
all: shapes that differ there only have the same frame. -/
theorem C101_tie_rows (F S p : Nat) (hS : 0 < S) (img img' : Img (S + p * 2)) (x : ℝ × ℝ)
    (ht : ¬ Spec.NoTie (Spec.offset F (S + p * 2) x.2)) (h : ∀ r c : Fin (S + p * 2), (r : Nat) % 2 = 0 → img r c = img' r c) :
    simObject F S p img x = simObject F S p img' x := by
  funext i j
  rw [C101_shift F S p hS, C101_shift F S p hS]
  refine pixelAt_congr _ _ _ _ fun r c hr _ => h r c ?_
  have := tie_even ht i
  omega

/-- C101: likewise for the columns. -/
theorem C101_tie_columns (F S p : Nat) (hS : 0 < S) (img img' : Img (S + p * 2)) (x : ℝ × ℝ)
    (ht : ¬ Spec.NoTie (Spec.offset F (S + p * 2) x.1)) (h : ∀ r c : Fin (S + p * 2), (c : Nat) % 2 = 0 → img r c = img' r c) :
    simObject F S p img x = simObject F S p img' x := by
  funext i j
  rw [C101_shift F S p hS, C101_shift F S p hS]
  refine pixelAt_congr _ _ _ _ fun r c _ hc => h r c ?_
  have := tie_even ht j
  omega

/-- The default sizes: frames of 96 pixels, shapes of 20 with a padding of 4. At the centre the copy is at row 34; a tie is at
`x = 1/68`. -/
example : Spec.NoTie (Spec.offset 96 (20 + 4 * 2) 0) ∧ ¬ Spec.NoTie (Spec.offset 96 (20 + 4 * 2) (1 / 68)) := by
  constructor
  · intro k hk
    have : (34 : ℝ) - k = 1 / 2 := by unfold Spec.offset at hk; push_cast at hk; linarith
    have h2 : ((2 * (34 - k) : ℤ) : ℝ) = (1 : ℤ) := by push_cast; linarith
    have : 2 * (34 - k) = (1 : ℤ) := by exact_mod_cast h2
    omega
  · intro h
    exact h 33 (by unfold Spec.offset; norm_num)

/-! ### The decoder's frames -/

/-- One axis of `digit_to_frame`: where it reads. `x` is the position in the simulator's sense. -/
noncomputable def decoderReads (F P : Nat) (x : ℝ) (i : Nat) : ℝ :=
  ((P : ℝ) - 1) / 2 + ((P : ℝ) - 1) / P * ((F : ℝ) / (F - 1) * ((i : ℝ) - ((F : ℝ) - 1) / 2) + x * ((F : ℝ) - P) / 2)

theorem decoderReads_eq {F P : Nat} (hP : 2 ≤ P) (hF : P ≤ F) (x : ℝ) (i : Fin F) :
    pixelIndex P ((F : ℝ) / P * pixelCoord F i + x * (((F : ℝ) - P) / P)) = nearbyint (decoderReads F P x i) := by
  have hP' : (2 : ℝ) ≤ P := by exact_mod_cast hP
  have hF' : (P : ℝ) ≤ F := by exact_mod_cast hF
  have h0 : (P : ℝ) ≠ 0 := by positivity
  have h1 : (F : ℝ) - 1 ≠ 0 := by intro h; linarith
  unfold pixelIndex pixelCoord decoderReads
  rw [if_neg (by omega)]
  congr 1
  field_simp
  ring

theorem decoder_pixel {S B T K : Type} {F P : Nat} (hP : 2 ≤ P) (hF : P ≤ F) (digit : S → B → K → Img P) (z : S → B → T → K → ℝ × ℝ)
    (s : S) (b : B) (t : T) (k : K) (x : ℝ × ℝ) (hz : z s b t k = (-x.1, x.2)) (i j : Fin F) :
    digitToFrame F P digit z s b t k i j =
      pixelAt (digit s b k) (nearbyint (decoderReads F P x.2 i)) (nearbyint (decoderReads F P x.1 j)) := by
  unfold digitToFrame warp
  simp only [hz, Theta.apply, thetaDtoF]
  rw [← decoderReads_eq hP hF, ← decoderReads_eq hP hF]
  congr 3
  ring

theorem decoderReads_near {F P : Nat} (hP : 2 ≤ P) (hF : P ≤ F) (x : ℝ) (i : Fin F)
    (h : |(i : ℝ) - Spec.offset F P x - ((P : ℝ) - 1) / 2| ≤ (P : ℝ) / 2) :
    |decoderReads F P x i - ((i : ℝ) - Spec.offset F P x)| < 1 := by
  have hP' : (2 : ℝ) ≤ P := by exact_mod_cast hP
  have hF' : (P : ℝ) ≤ F := by exact_mod_cast hF
  have h0 : (0 : ℝ) < P := by linarith
  have h1 : (0 : ℝ) < (F : ℝ) - 1 := by linarith
  have hi : ((i : ℕ) : ℝ) + 1 ≤ F := by exact_mod_cast i.2
  have hi0 : (0 : ℝ) ≤ (i : ℕ) := by positivity
  have e : decoderReads F P x i - ((i : ℝ) - Spec.offset F P x) =
      ((P : ℝ) - 1) / P * (((i : ℝ) - ((F : ℝ) - 1) / 2) / (F - 1)) - ((i : ℝ) - Spec.offset F P x - ((P : ℝ) - 1) / 2) / P := by
    unfold decoderReads Spec.offset
    field_simp
    ring
  have h2 : |((i : ℝ) - ((F : ℝ) - 1) / 2) / (F - 1)| ≤ 1 / 2 := by
    rw [abs_div, abs_of_pos h1, div_le_iff₀ h1, abs_le]
    constructor <;> linarith
  have h3 : |((i : ℝ) - Spec.offset F P x - ((P : ℝ) - 1) / 2) / P| ≤ 1 / 2 := by
    rw [abs_div, abs_of_pos h0, div_le_iff₀ h0]
    linarith
  have h4 : 0 < ((P : ℝ) - 1) / P ∧ ((P : ℝ) - 1) / P < 1 := by
    constructor
    · apply div_pos <;> linarith
    · rw [div_lt_one h0]; linarith
  rw [e, abs_lt]
  rw [abs_le] at h2 h3
  constructor <;> nlinarith

theorem nearbyint_within {y : ℝ} {r : ℤ} (h : |y - r| < 3 / 2) : |nearbyint y - r| ≤ 1 := by
  have hd := nearbyint_dist y
  rw [abs_le] at hd
  rw [abs_lt] at h
  have h1 : ((nearbyint y - r : ℤ) : ℝ) < 2 := by push_cast; linarith
  have h2 : (-2 : ℝ) < ((nearbyint y - r : ℤ) : ℝ) := by push_cast; linarith
  have h1' : nearbyint y - r < 2 := by exact_mod_cast h1
  have h2' : -2 < nearbyint y - r := by exact_mod_cast h2
  rw [abs_le]
  omega

/-- C101: given the true shape and the true position with its first coordinate mirrored, the decoder shows the shape at the
same place: each pixel of the copy is one of the nine pixels of the shape around the one that the simulator shows. -/
theorem C101_decoder_near {S B T K : Type} (F N p : Nat) (hN : 2 ≤ N) (hF : N + p * 2 ≤ F) (digit : S → B → K → Img (N + p * 2))
    (z : S → B → T → K → ℝ × ℝ) (s : S) (b : B) (t : T) (k : K) (x : ℝ × ℝ) (hz : z s b t k = (-x.1, x.2))
    (hx : (-1 ≤ x.1 ∧ x.1 ≤ 1) ∧ (-1 ≤ x.2 ∧ x.2 ≤ 1))
    (h1 : Spec.NoTie (Spec.offset F (N + p * 2) x.1)) (h2 : Spec.NoTie (Spec.offset F (N + p * 2) x.2)) :
    ∃ u v : Nat, Spec.CopyAt (simObject F N p (digit s b k) x) (digit s b k) u v ∧
      ∀ (r c : Fin (N + p * 2)) (i j : Fin F), (i : Nat) = u + r → (j : Nat) = v + c →
        ∃ r' c' : ℤ, |r' - (r : ℕ)| ≤ 1 ∧ |c' - (c : ℕ)| ≤ 1 ∧
          digitToFrame F (N + p * 2) digit z s b t k i j = pixelAt (digit s b k) r' c' := by
  obtain ⟨u, v, hu, hv, hc⟩ := C101_copy F N p (by omega) hF (digit s b k) x hx h1 h2
  refine ⟨u, v, hc, fun r c i j hi hj => ?_⟩
  rw [decoder_pixel (by omega) hF digit z s b t k x hz]
  have key : ∀ (y : ℝ) (w : Nat) (q : Fin (N + p * 2)) (l : Fin F), |(w : ℝ) - Spec.offset F (N + p * 2) y| < 1 / 2 →
      (l : Nat) = w + q → |nearbyint (decoderReads F (N + p * 2) y l) - (q : ℕ)| ≤ 1 := by
    intro y w q l hw hl
    apply nearbyint_within
    have e : ((l : ℕ) : ℝ) = w + (q : ℕ) := by exact_mod_cast hl
    have hq : ((q : ℕ) : ℝ) + 1 ≤ ((N + p * 2 : ℕ) : ℝ) := by exact_mod_cast q.2
    have hq0 : (0 : ℝ) ≤ (q : ℕ) := by positivity
    rw [abs_lt] at hw
    have hn := decoderReads_near (by omega) hF y l (by rw [abs_le]; constructor <;> linarith)
    rw [abs_lt] at hn ⊢
    push_cast
    constructor <;> linarith
  exact ⟨_, _, key _ _ _ _ hu hi, key _ _ _ _ hv hj, rfl⟩

/-- C101: in the centre of the frame the decoder's frame is the simulator's. (The margins are whole pixels, and the frame is
smaller than the square of the shape's width.) -/
theorem C101_decoder_centre {S B T K : Type} (F N p h : Nat) (hN : 2 ≤ N) (hF : F = N + p * 2 + h * 2) (hF2 : F < (N + p * 2) ^ 2)
    (digit : S → B → K → Img (N + p * 2)) (z : S → B → T → K → ℝ × ℝ) (s : S) (b : B) (t : T) (k : K) (hz : z s b t k = (0, 0)) :
    digitToFrame F (N + p * 2) digit z s b t k = simObject F N p (digit s b k) (0, 0) := by
  funext i j
  rw [decoder_pixel (by omega) (by omega) digit z s b t k (0, 0) (by rw [hz]; simp), C101_shift F N p (by omega)]
  generalize hP : N + p * 2 = P at *
  have hP2 : (2 : ℝ) ≤ P := by exact_mod_cast (by omega : 2 ≤ P)
  have hF' : (F : ℝ) = P + h * 2 := by exact_mod_cast hF
  have hF2' : (F : ℝ) < (P : ℝ) ^ 2 := by exact_mod_cast hF2
  have hh : (0 : ℝ) ≤ h := by positivity
  have hs : ∀ l : Fin F, nearbyint ((l : ℝ) - Spec.offset F P 0) = (l : ℕ) - (h : ℤ) := by
    intro l
    apply nearbyint_of_lt
    unfold Spec.offset
    push_cast
    rw [hF']
    rw [show (l : ℝ) - ((P : ℝ) + h * 2 - P) * (1 - 0) / 2 - ((l : ℝ) - h) = 0 by ring]
    norm_num
  have hf1 : (0 : ℝ) < (F : ℝ) - 1 := by linarith
  have hp0 : (0 : ℝ) < P := by linarith
  have hd : ∀ l : Fin F, decoderReads F P 0 l = ((P : ℝ) - 1) / 2 + ((P : ℝ) - 1) * F / (P * (F - 1)) * ((((l : ℕ) : ℝ) - h) - ((P : ℝ) - 1) / 2) := by
    intro l
    have : ((P : ℝ) + h * 2) - 1 ≠ 0 := by rw [← hF']; exact hf1.ne'
    unfold decoderReads
    rw [hF']
    field_simp
    ring
  have hρ1 : ((P : ℝ) - 1) * F / (P * (F - 1)) ≤ 1 := by
    rw [div_le_one (by positivity)]; nlinarith
  have hρ0 : ((P : ℝ) - 1) < P * (((P : ℝ) - 1) * F / (P * (F - 1))) := by
    rw [mul_div_assoc', lt_div_iff₀ (by positivity)]
    nlinarith [mul_pos (by linarith : (0 : ℝ) < P - 1) hp0]
  have hρ2 : (P : ℝ) < ((P : ℝ) + 1) * (((P : ℝ) - 1) * F / (P * (F - 1))) := by
    rw [mul_div_assoc', lt_div_iff₀ (by positivity)]
    nlinarith
  generalize ((P : ℝ) - 1) * F / (P * (F - 1)) = ρ at hd hρ0 hρ1 hρ2
  have key : ∀ l : Fin F, nearbyint (decoderReads F P 0 l) = (l : ℕ) - (h : ℤ) ∨
      (¬ (0 ≤ nearbyint (decoderReads F P 0 l) ∧ nearbyint (decoderReads F P 0 l) < P) ∧ ¬ (0 ≤ (l : ℕ) - (h : ℤ) ∧ (l : ℕ) - (h : ℤ) < P)) := by
    intro l
    rw [hd]
    have hdist := nearbyint_dist (((P : ℝ) - 1) / 2 + ρ * ((((l : ℕ) : ℝ) - h) - ((P : ℝ) - 1) / 2))
    rw [abs_le] at hdist
    rcases lt_or_ge ((l : ℕ) : ℤ) h with hl | hl
    · right
      have : (((l : ℕ) : ℝ) - h) ≤ -1 := by
        have : ((l : ℕ) : ℤ) - h ≤ -1 := by omega
        exact_mod_cast this
      have : (nearbyint (((P : ℝ) - 1) / 2 + ρ * ((((l : ℕ) : ℝ) - h) - ((P : ℝ) - 1) / 2)) : ℝ) < 0 := by nlinarith
      have : nearbyint (((P : ℝ) - 1) / 2 + ρ * ((((l : ℕ) : ℝ) - h) - ((P : ℝ) - 1) / 2)) < 0 := by exact_mod_cast this
      omega
    · rcases lt_or_ge (((l : ℕ) : ℤ) - h) P with hl' | hl'
      · left
        apply nearbyint_of_lt
        have h1 : (0 : ℝ) ≤ (((l : ℕ) : ℝ) - h) := by
          have : (0 : ℤ) ≤ ((l : ℕ) : ℤ) - h := by omega
          exact_mod_cast this
        have h2 : (((l : ℕ) : ℝ) - h) ≤ (P : ℝ) - 1 := by
          have : ((l : ℕ) : ℤ) - h ≤ (P : ℤ) - 1 := by omega
          exact_mod_cast this
        push_cast
        rw [abs_lt]
        constructor <;> nlinarith
      · right
        have : (P : ℝ) ≤ (((l : ℕ) : ℝ) - h) := by exact_mod_cast hl'
        have : (P : ℝ) - 1 < (nearbyint (((P : ℝ) - 1) / 2 + ρ * ((((l : ℕ) : ℝ) - h) - ((P : ℝ) - 1) / 2)) : ℝ) := by nlinarith
        have : (P : ℤ) - 1 < nearbyint (((P : ℝ) - 1) / 2 + ρ * ((((l : ℕ) : ℝ) - h) - ((P : ℝ) - 1) / 2)) := by exact_mod_cast this
        omega
  simp only [hs]
  unfold pixelAt
  rcases key i with ki | ki
  · rcases key j with kj | kj
    · simp only [ki, kj]
    · rw [dif_neg (by tauto), dif_neg (by tauto)]
  · rw [dif_neg (by tauto), dif_neg (by tauto)]

/-- C101: in the corner the two differ. With the default sizes and position (1, 1) the simulator's copy begins at the first pixel;
the decoder shows row and column 19 of the shape twice, and everything after them one pixel too far. -/
theorem C101_decoder_corner {S B T K : Type} (digit : S → B → K → Img (20 + 4 * 2)) (z : S → B → T → K → ℝ × ℝ) (s : S) (b : B) (t : T)
    (k : K) (hz : z s b t k = (-1, 1)) (i j : Fin 96) (hi : (i : Nat) ≤ 28) (hj : (j : Nat) ≤ 28) :
    simObject 96 20 4 (digit s b k) (1, 1) i j = pixelAt (digit s b k) i j ∧
      digitToFrame 96 (20 + 4 * 2) digit z s b t k i j =
        pixelAt (digit s b k) (if (i : Nat) < 20 then (i : ℤ) else i - 1) (if (j : Nat) < 20 then (j : ℤ) else j - 1) := by
  constructor
  · rw [C101_shift 96 20 4 (by norm_num)]
    have h : ∀ l : Fin 96, nearbyint ((l : ℝ) - Spec.offset 96 (20 + 4 * 2) 1) = (l : ℕ) := by
      intro l
      apply nearbyint_of_lt
      unfold Spec.offset
      norm_num
    rw [h, h]
  · rw [decoder_pixel (by norm_num) (by norm_num) digit z s b t k (1, 1) (by rw [hz])]
    have h : ∀ l : Fin 96, (l : Nat) ≤ 28 → nearbyint (decoderReads 96 (20 + 4 * 2) 1 l) = if (l : Nat) < 20 then (l : ℤ) else l - 1 := by
      intro l hl
      have hl0 : (0 : ℝ) ≤ (l : ℕ) := by positivity
      apply nearbyint_of_lt
      unfold decoderReads
      split
      · rename_i h
        have h' : ((l : ℕ) : ℝ) ≤ 19 := by exact_mod_cast (by omega : (l : ℕ) ≤ 19)
        push_cast
        rw [abs_lt]
        constructor <;> norm_num <;> linarith
      · rename_i h
        have h' : (20 : ℝ) ≤ ((l : ℕ) : ℝ) := by exact_mod_cast (by omega : 20 ≤ (l : ℕ))
        have h'' : ((l : ℕ) : ℝ) ≤ 28 := by exact_mod_cast hl
        push_cast
        rw [abs_lt]
        constructor <;> norm_num <;> linarith
    rw [h i hi, h j hj]

/-- A shape whose frames differ there: one dot in row and column 20. -/
example : ∃ digit : Unit → Unit → Unit → Img (20 + 4 * 2),
    digitToFrame 96 (20 + 4 * 2) digit (fun _ _ (_ : Unit) _ => (-1, 1)) () () () () ≠ simObject 96 20 4 (digit () () ()) (1, 1) := by
  refine ⟨fun _ _ _ r c => if (r : Nat) = 20 ∧ (c : Nat) = 20 then 1 else 0, fun h => ?_⟩
  have h := congrFun (congrFun h (20 : Fin 96)) (20 : Fin 96)
  obtain ⟨h1, h2⟩ := C101_decoder_corner (fun (_ _ _ : Unit) r c => if (r : Nat) = 20 ∧ (c : Nat) = 20 then 1 else 0)
    (fun _ _ (_ : Unit) _ => (-1, 1)) () () () () rfl (20 : Fin 96) (20 : Fin 96) (by decide) (by decide)
  rw [h1, h2] at h
  norm_num [pixelAt] at h
  rw [if_neg (by decide), if_pos (by decide)] at h
  norm_num at h

/-! ### Whole videos -/

theorem mapM_raises {α β : Type} (f : α → Except Err β) (e : Err) : ∀ l : List α,
    (∀ x ∈ l, (∃ y, f x = .ok y) ∨ f x = .error e) → (∃ x ∈ l, f x = .error e) → l.mapM f = .error e
  | [], _, h => by obtain ⟨x, hx, -⟩ := h; cases hx
  | x :: l, h, he => by
    rw [List.mapM_cons]
    rcases h x (by simp) with ⟨y, hy⟩ | hy
    · rw [hy]
      have : ∃ z ∈ l, f z = .error e := by
        obtain ⟨z, hz, hez⟩ := he
        rcases List.mem_cons.1 hz with rfl | hz
        · rw [hy] at hez; cases hez
        · exact ⟨z, hz, hez⟩
      show (do let ys ← l.mapM f; pure (y :: ys)) = _
      rw [mapM_raises f e l (fun z hz => h z (by simp [hz])) this]
      rfl
    · rw [hy]
      rfl

theorem mapM_len {α β : Type} {f : α → Except Err β} : ∀ {l : List α} {ys : List β}, l.mapM f = .ok ys → ys.length = l.length
  | [], ys, h => by
    cases h
    rfl
  | x :: l, ys, h => by
    rw [List.mapM_cons] at h
    cases hx : f x with
    | error e => rw [hx] at h; cases h
    | ok y =>
      rw [hx] at h
      cases hl : l.mapM f with
      | error e => simp only [hl] at h; cases h
      | ok zs =>
        simp only [hl] at h
        cases h
        simp [mapM_len hl]

/-- C101: `sim_one_sequence` with enough shapes: in every frame each pixel is the clamped sum over the objects of the shifted shapes,
each at the position that its reflected free flight has reached; all these positions are in the box. -/
theorem C101_video (T n F S p : Nat) (dv : ℝ) (objects : List (Img (S + p * 2))) (x0 : List (ℝ × ℝ)) (u : Nat → ℝ)
    (hT : 0 < T) (hn : 0 < n) (ho : n ≤ objects.length) (hl : n ≤ x0.length)
    (hx : ∀ x ∈ x0, (-1 ≤ x.1 ∧ x.1 ≤ 1) ∧ (-1 ≤ x.2 ∧ x.2 ≤ 1)) (hv : |dv| ≤ 2) :
    ∃ (video : Nat → Img F) (pos : Fin n → Nat → ℝ × ℝ), simOneSequence T n F S p dv objects x0 u = .ok video ∧
      ∀ t < T,
        (∀ k : Fin n, ((-1 ≤ (pos k t).1 ∧ (pos k t).1 ≤ 1) ∧ (-1 ≤ (pos k t).2 ∧ (pos k t).2 ≤ 1)) ∧
          pos k t = (Spec.fold (x0[k].1 + t * (Real.cos (u k * 2 * Real.pi) * dv)),
            Spec.fold (x0[k].2 + t * (Real.sin (u k * 2 * Real.pi) * dv)))) ∧
        ∀ i j, video t i j = min (max (∑ k : Fin n, simObject F S p objects[k] (pos k t) i j) 0) 1 := by
  have hpath : ∀ k : Fin n, ∃ X V, simTrajectory T dv x0[k] (u k) = .ok (X, V) ∧ ∀ t < T,
      ((-1 ≤ (X t).1 ∧ (X t).1 ≤ 1) ∧ (-1 ≤ (X t).2 ∧ (X t).2 ≤ 1)) ∧
        X t = (Spec.fold (x0[k].1 + t * (Real.cos (u k * 2 * Real.pi) * dv)),
            Spec.fold (x0[k].2 + t * (Real.sin (u k * 2 * Real.pi) * dv))) := by
    intro k
    have hb := hx x0[k] (List.getElem_mem _)
    obtain ⟨X, V, h1, h2⟩ := C44_in_box T dv x0[k] (u k) hT hb hv
    obtain ⟨X', V', h3, h4⟩ := C44_reflection T dv x0[k] (u k) hT hb hv
    rw [h1] at h3
    cases h3
    exact ⟨X, V, h1, fun t ht => ⟨⟨(h2 t ht).1, (h2 t ht).2.1⟩, h4 t ht⟩⟩
  choose X V h1 h2 using hpath
  have hXs : simTrajectories T n dv x0 u = .ok (List.ofFn X) := by
    have e : List.ofFn X = (List.range n).map fun k => if h : k < n then X ⟨k, h⟩ else fun _ => 0 := by
      apply List.ext_getElem
      · simp
      · intro k hk _
        have hk' : k < n := by simpa using hk
        simp [hk']
    rw [e]
    unfold simTrajectories
    apply mapM_all_ok
    intro k hk
    have hk' : k < n := by simpa using hk
    have hr : rowAt x0 k = .ok x0[k] := by unfold rowAt; rw [List.getElem?_eq_getElem (by omega)]
    have := h1 ⟨k, hk'⟩
    simp only [Fin.getElem_fin] at this
    simp only [hr, bind, Except.bind, this, dif_pos hk']
    rfl
  have hB : ((List.ofFn X).zipIdx.mapM fun Xk => do
      let o ← objectAt objects Xk.2
      return fun t : Nat => simObject F S p o (Xk.1 t)) =
      (Except.ok (List.ofFn fun (k : Fin n) (t : Nat) => simObject F S p objects[k] (X k t)) : Except Err _) := by
    have e : (List.ofFn fun (k : Fin n) (t : Nat) => simObject F S p objects[k] (X k t)) =
        (List.ofFn X).zipIdx.map fun Xk => fun t : Nat =>
          simObject F S p (if h : Xk.2 < objects.length then objects[Xk.2] else fun _ _ => 0) (Xk.1 t) := by
      apply List.ext_getElem
      · simp
      · intro k hk _
        have hk' : k < n := by simpa using hk
        have : k < objects.length := by omega
        simp [this]
    rw [e]
    apply mapM_all_ok
    rintro ⟨Y, k⟩ hk
    have hk' : k < n := by
      have := (List.mem_zipIdx hk).2.1
      simpa using this
    have hlt : k < objects.length := by omega
    have hr : objectAt objects k = .ok objects[k] := by unfold objectAt; rw [List.getElem?_eq_getElem hlt]
    simp only [hr, bind, Except.bind, dif_pos hlt]
    rfl
  refine ⟨fun t i j => simPixel ((List.ofFn fun (k : Fin n) (t : Nat) => simObject F S p objects[k] (X k t)).map fun b => b t i j), X, ?_, ?_⟩
  · unfold simOneSequence
    simp only [hXs, bind, Except.bind]
    have hB' := hB
    simp only [bind, Except.bind] at hB'
    rw [hB']
    have hne : (List.ofFn fun (k : Fin n) (t : Nat) => simObject F S p objects[k] (X k t)).isEmpty = false := by
      rw [List.isEmpty_eq_false_iff]
      intro h
      have := congrArg List.length h
      simp at this
      omega
    simp only [hne]
    rfl
  · intro t ht
    refine ⟨fun k => h2 k t ht, fun i j => ?_⟩
    show simPixel _ = _
    unfold simPixel
    rw [List.map_ofFn, List.sum_ofFn]
    rfl

/-- The hypotheses hold for the simulator's defaults and three shapes. -/
example (objects : List (Img (20 + 4 * 2))) (h : 3 ≤ objects.length) (u : Nat → ℝ) :
    ∃ video : Nat → Img 96, simOneSequence 10 3 96 20 4 0.1 objects [(-1, -1), (1, -1), (0, 1)] u = .ok video := by
  obtain ⟨video, -, h, -⟩ := C101_video 10 3 96 20 4 0.1 objects [(-1, -1), (1, -1), (0, 1)] u (by norm_num) (by norm_num) h (by simp)
    (by intro x hx; fin_cases hx <;> norm_num) (by rw [abs_of_nonneg] <;> norm_num)
  exact ⟨video, h⟩

/-- C101: with fewer shapes than objects every sequence raises IndexError. -/
theorem C101_few_shapes (T n F S p : Nat) (dv : ℝ) (objects : List (Img (S + p * 2))) (x0 : List (ℝ × ℝ)) (u : Nat → ℝ)
    (ho : objects.length < n) : simOneSequence T n F S p dv objects x0 u = .error .index := by
  have hrow : ∀ k, (∃ q, rowAt x0 k = .ok q) ∨ rowAt x0 k = .error .index := by
    intro k; unfold rowAt; split
    · exact .inl ⟨_, rfl⟩
    · exact .inr rfl
  have htr : ∀ q v, (∃ XV, simTrajectory T dv q v = .ok XV) ∨ simTrajectory T dv q v = .error .index := by
    intro q v; unfold simTrajectory; split
    · exact .inr rfl
    · exact .inl ⟨_, rfl⟩
  have hone : ∀ k, (∃ X, (do let p ← rowAt x0 k; let XV ← simTrajectory T dv p (u k); return XV.1 : Except Err (Nat → ℝ × ℝ)) = .ok X) ∨
      (do let p ← rowAt x0 k; let XV ← simTrajectory T dv p (u k); return XV.1 : Except Err (Nat → ℝ × ℝ)) = .error .index := by
    intro k
    rcases hrow k with ⟨q, hq⟩ | hq
    · rcases htr q (u k) with ⟨XV, h⟩ | h
      · exact .inl ⟨XV.1, by simp only [hq, h, bind, Except.bind]; rfl⟩
      · exact .inr (by simp only [hq, h, bind, Except.bind])
    · exact .inr (by simp only [hq, bind, Except.bind])
  unfold simOneSequence
  have hobj : ∀ Xk : (Nat → ℝ × ℝ) × Nat, (∃ y, (do
      let o ← objectAt objects Xk.2
      return fun t : Nat => simObject F S p o (Xk.1 t) : Except Err (Nat → Img F)) = .ok y) ∨ (do
      let o ← objectAt objects Xk.2
      return fun t : Nat => simObject F S p o (Xk.1 t) : Except Err (Nat → Img F)) = .error .index := by
    intro Xk
    unfold objectAt
    split
    · exact .inl ⟨_, rfl⟩
    · exact .inr rfl
  cases hXs : simTrajectories T n dv x0 u with
  | error e =>
    unfold simTrajectories at hXs
    by_cases hall : ∃ k ∈ List.range n, (do let p ← rowAt x0 k; let XV ← simTrajectory T dv p (u k); return XV.1 : Except Err (Nat → ℝ × ℝ)) = .error .index
    · rw [mapM_raises _ .index _ (fun k _ => hone k) hall] at hXs
      cases hXs
      rfl
    · exfalso
      push Not at hall
      have hok : ∀ k, ∃ X, k ∈ List.range n → (do let p ← rowAt x0 k; let XV ← simTrajectory T dv p (u k); return XV.1 : Except Err (Nat → ℝ × ℝ)) = .ok X := by
        intro k
        rcases hone k with ⟨X, h⟩ | h
        · exact ⟨X, fun _ => h⟩
        · exact ⟨fun _ => 0, fun hk => absurd h (hall k hk)⟩
      choose X hX using hok
      rw [mapM_all_ok _ X _ fun k hk => hX k hk] at hXs
      cases hXs
  | ok Xs =>
    have hlen : Xs.length = n := by
      have := mapM_len hXs
      simpa using this
    simp only [bind, Except.bind]
    have := mapM_raises (fun Xk : (Nat → ℝ × ℝ) × Nat => (do
      let o ← objectAt objects Xk.2
      return fun t : Nat => simObject F S p o (Xk.1 t) : Except Err (Nat → Img F))) .index Xs.zipIdx (fun Xk _ => hobj Xk)
      ⟨(Xs[objects.length], objects.length), by
        rw [List.mem_iff_getElem]
        exact ⟨objects.length, by simp; omega, by simp⟩, by
        simp only [objectAt, bind, Except.bind]
        rw [List.getElem?_eq_none (le_refl _)]⟩
    simp only [bind, Except.bind] at this
    rw [this]

/-- C101: the shapes of one sequence: as many as asked for, or all there are. -/
theorem C101_choice {n : Nat} (shapes : List (Img n)) (perm : List Nat) (hp : perm.Perm (List.range shapes.length)) (m : Nat) :
    (chosenShapes shapes perm m).length = min m shapes.length ∧
      ∃ is : List Nat, is.Nodup ∧ is.map (fun i => shapes[i]?) = (chosenShapes shapes perm m).map some := by
  have hlt : ∀ i ∈ perm.take m, i < shapes.length := by
    intro i hi
    have := hp.mem_iff.mp (List.mem_of_mem_take hi)
    simpa using this
  have key : ∀ l : List Nat, (∀ i ∈ l, i < shapes.length) → l.map (fun i => shapes[i]?) = (l.filterMap fun i => shapes[i]?).map some := by
    intro l hl
    induction l with
    | nil => rfl
    | cons a l ih =>
      have ha := hl a (by simp)
      have := ih fun i hi => hl i (by simp [hi])
      rw [List.map_cons, List.filterMap_cons, List.getElem?_eq_getElem ha, this]
      rfl
  have h := key _ hlt
  refine ⟨?_, perm.take m, ((hp.nodup_iff.mpr List.nodup_range).sublist (List.take_sublist _ _)), h⟩
  have := congrArg List.length h
  simp only [List.length_map, List.length_take] at this
  have hl := hp.length_eq
  rw [List.length_range] at hl
  unfold chosenShapes
  omega

/-- C101: a new simulator loads the PNG files that are not blacklisted, in the order of the directory, with a margin of zeros around
each; without any it raises ValueError. -/
theorem C101_load (S p : Nat) (read : String → Img S) (files blacklist : List String) :
    let names := files.filter fun f => f.endsWith ".png" && !blacklist.contains f
    (names = [] → loadShapes S p read files blacklist (.list []) = .error .value) ∧
      (names ≠ [] → loadShapes S p read files blacklist (.list []) = .ok (.tensor (names.map fun f => padShape S p (read f)))) := by
  intro names
  have e : (files.filter fun f => f.endsWith ".png").filter (fun f => !blacklist.contains f) = names := by
    rw [List.filter_filter]
    congr 1
    funext f
    exact Bool.and_comm _ _
  constructor
  · intro h
    simp only [loadShapes, e, h]
    rfl
  · intro h
    simp only [loadShapes, e]
    rw [if_neg (by simpa using h)]
    simp

/-- C101: the padded image: the shape in the middle, zeros around it. -/
theorem C101_padding (S p : Nat) (img : Img S) : Spec.CopyAt (padShape S p img) img p p := by
  refine ⟨⟨by omega, by omega⟩, fun r c i j hi hj => ?_, fun i j h => ?_⟩
  · unfold padShape
    have e1 : ((i : Nat) : ℤ) - p = (r : Nat) := by omega
    have e2 : ((j : Nat) : ℤ) - p = (c : Nat) := by omega
    rw [e1, e2]
    unfold pixelAt
    rw [dif_pos (by have := r.2; have := c.2; omega)]
    simp
  · unfold padShape pixelAt
    rw [dif_neg (by omega)]

/-- C101: `sim_save_data` (or `viz_data`) can be called once per simulator: loading the shapes again raises AttributeError, whenever
loading them the first time succeeded. -/
theorem C101_load_again (S p : Nat) (read : String → Img S) (files blacklist : List String) (s : Shapes (S + p * 2))
    (h : loadShapes S p read files blacklist (.list []) = .ok s) : loadShapes S p read files blacklist s = .error .attribute := by
  unfold loadShapes at h
  simp only at h
  split at h
  · cases h
  · rename_i hne
    cases h
    unfold loadShapes
    simp only
    rw [if_neg]
    intro h
    apply hne
    simp only [List.isEmpty_iff] at h
    rw [h]
    rfl

/-- Two files of which one is blacklisted. -/
example (read : String → Img 20) : loadShapes 20 4 read ["a.png", "b.png", "c.txt"] ["b.png"] (.list []) =
    .ok (.tensor [padShape 20 4 (read "a.png")]) := by
  have h := (C101_load 20 4 read ["a.png", "b.png", "c.txt"] ["b.png"]).2
  have e : (["a.png", "b.png", "c.txt"].filter fun f => f.endsWith ".png" && !List.contains ["b.png"] f) = ["a.png"] := by decide +kernel
  rw [e] at h
  exact h (by simp)

end Verif
