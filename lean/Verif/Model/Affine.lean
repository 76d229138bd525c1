import Mathlib.Algebra.Order.Floor.Ring
import Mathlib.Algebra.Order.Archimedean.Real.Basic
/-
experiments/apgs/affine_transformer.py, exact reals.
-/
namespace Verif

/-- A square image of `n` by `n` pixels: row, column. -/
abbrev Img (n : Nat) := Fin n → Fin n → ℝ

/-- A 2 by 3 affine matrix `((sx, 0, tx), (0, sy, ty))`; the code builds no other (affine_transformer.py:77-85,106-114). -/
structure Theta where
  sx : ℝ
  tx : ℝ
  sy : ℝ
  ty : ℝ

/-- Applying the affine matrix to `(x, y, 1)`. -/
noncomputable def Theta.apply (θ : Theta) (p : ℝ × ℝ) : ℝ × ℝ := (θ.sx * p.1 + θ.tx, θ.sy * p.2 + θ.ty)

/-- Normalised coordinate of pixel `i` of `n` with `align_corners=True`: `linspace(-1, 1, n)`, and `0` for one pixel
(torch's `affine_grid`, assumed). -/
noncomputable def pixelCoord (n : Nat) (i : Fin n) : ℝ := if n ≤ 1 then 0 else -1 + 2 * (i : ℝ) / ((n : ℝ) - 1)

/-- `nearbyint`: to the nearest integer, halves to even (torch's `grid_sample(mode="nearest")`, assumed). -/
noncomputable def nearbyint (x : ℝ) : ℤ :=
  if x - ⌊x⌋ < 1 / 2 then ⌊x⌋
  else if 1 / 2 < x - ⌊x⌋ then ⌊x⌋ + 1
  else if ⌊x⌋ % 2 = 0 then ⌊x⌋ else ⌊x⌋ + 1

/-- The pixel index of a normalised coordinate with `align_corners=True` (torch's `grid_sample`, assumed). -/
noncomputable def pixelIndex (n : Nat) (x : ℝ) : ℤ := nearbyint ((x + 1) / 2 * ((n : ℝ) - 1))

/-- Reading a pixel, zero outside of the image (`padding_mode="zeros"`, the default). -/
noncomputable def pixelAt {n : Nat} (img : Img n) (row col : ℤ) : ℝ :=
  if h : (0 ≤ row ∧ row < n) ∧ (0 ≤ col ∧ col < n) then
    img ⟨row.toNat, by omega⟩ ⟨col.toNat, by omega⟩
  else 0

/-- `grid_sample(img, affine_grid(θ, (.., m, m), align_corners=True), mode="nearest", align_corners=True)` for one image
(affine_transformer.py:84-97,113-126): the output pixel (row `i`, column `j`) reads the input at the affine image of its
own coordinates. -/
noncomputable def warp {n m : Nat} (θ : Theta) (img : Img n) : Img m := fun i j =>
  let p := θ.apply (pixelCoord m j, pixelCoord m i)
  pixelAt img (pixelIndex n p.2) (pixelIndex n p.1)

/-- `scale_dtof`, `translation_dtof` and the flipped x-axis (affine_transformer.py:48-50,54-61,77-85).
`fp`, `dp` are `frame_pixels`, `digit_pixels`. -/
noncomputable def thetaDtoF (fp dp : Nat) (z : ℝ × ℝ) : Theta where
  sx := (fp : ℝ) / dp
  tx := -1 * (z.1 * (((fp : ℝ) - dp) / dp))
  sy := (fp : ℝ) / dp
  ty := z.2 * (((fp : ℝ) - dp) / dp)

/-- `scale_ftod`, `translation_ftod` and the flipped y-axis (affine_transformer.py:51-53,62-69,106-114). -/
noncomputable def thetaFtoD (fp dp : Nat) (z : ℝ × ℝ) : Theta where
  sx := (dp : ℝ) / fp
  tx := z.1 * (((fp : ℝ) - dp) / fp)
  sy := (dp : ℝ) / fp
  ty := -1 * (z.2 * (((fp : ℝ) - dp) / fp))

/-- `digit_to_frame` (affine_transformer.py:71-98). The flattening of the leading dimensions and its inverse are indexing
by (sample, batch, time, object); the digit is repeated over time. -/
noncomputable def digitToFrame {S B T K : Type} (fp dp : Nat) (digit : S → B → K → Img dp)
    (z : S → B → T → K → ℝ × ℝ) : S → B → T → K → Img fp :=
  fun s b t k => warp (thetaDtoF fp dp (z s b t k)) (digit s b k)

/-- `frame_to_digit` (affine_transformer.py:100-127). The frame is repeated over the objects. -/
noncomputable def frameToDigit {S B T K : Type} (fp dp : Nat) (frames : S → B → T → Img fp)
    (z : S → B → T → K → ℝ × ℝ) : S → B → T → K → Img dp :=
  fun s b t k => warp (thetaFtoD fp dp (z s b t k)) (frames s b t)

end Verif
