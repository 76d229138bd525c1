import Verif.Model.Affine
import Verif.Model.Core
/-
experiments/apgs/plotting.py: the rectangles that `viz_samples` draws.
-/
namespace Verif

/-- A rectangle of matplotlib: corner of smallest coordinates (x: column, y: row, as the y axis of `imshow` points down), width, height, and the index of its colour. -/
structure Rect where
  x : ℝ
  y : ℝ
  w : ℝ
  h : ℝ
  color : Nat

/-- The number of default colours (plotting.py:28-36). -/
def vizColors : Nat := 7

/-- Entry `d` of `c_pixels_last` (plotting.py:41-44): the y coordinate with the other sign, then shifted and scaled. -/
noncomputable def vizCorner (fp os : Nat) (z : ℝ × ℝ) : ℝ × ℝ :=
  ((z.1 + 1) * ((fp : ℝ) - os) / 2, (z.2 * (-1) + 1) * ((fp : ℝ) - os) / 2)

/-- The rectangles in one image of `viz_samples` (plotting.py:58-67): one per object; IndexError without a colour left. `z k` is the position of object `k`. -/
noncomputable def vizRects (fp os colors : Nat) (z : Nat → ℝ × ℝ) : Nat → Except Err (List Rect)
  | 0 => .ok []
  | k + 1 => do
    let rs ← vizRects fp os colors z k
    if k < colors then
      .ok (rs ++ [⟨(vizCorner fp os (z k)).1, (vizCorner fp os (z k)).2, os, os, k⟩])
    else .error .index

/-- All images of `viz_samples` (plotting.py:40-67) by batch element and time: `ws s b t k` are the positions of all particles; only those of particle 0 are shown. -/
noncomputable def vizSamples (fp os colors objects : Nat) (ws : Nat → Nat → Nat → Nat → ℝ × ℝ) (B T : Nat) : Except Err (List (List (List Rect))) :=
  (List.range B).mapM fun b => (List.range T).mapM fun t => vizRects fp os colors (ws 0 b t) objects

end Verif
