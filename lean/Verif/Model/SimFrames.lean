import Verif.Model.Simulator
import Verif.Model.Affine
/-
experiments/apgs/dataset/simulator.py: loading the shapes and drawing the frames of a video, exact reals.
-/
namespace Verif

/-- Normalised coordinate of pixel `i` of `n` with `align_corners=False`: `linspace(-1, 1, n) * (n - 1) / n` (torch's
`affine_grid`, assumed; simulator.py:156-160). -/
noncomputable def pixelCoordF (n : Nat) (i : Fin n) : ℝ := (2 * (i : ℝ) + 1) / n - 1

/-- The pixel index of a normalised coordinate with `align_corners=False`: `((x + 1) * n - 1) / 2`, rounded (torch's
`grid_sample`, assumed; simulator.py:162-167). -/
noncomputable def pixelIndexF (n : Nat) (x : ℝ) : ℤ := nearbyint (((x + 1) * n - 1) / 2)

/-- One object at one time: `grid_sample(object_k, affine_grid(Thetas, ..))` for position `x` (simulator.py:152-168). -/
noncomputable def simObject (frameSize shapeSize paddingSize : Nat) (img : Img (shapeSize + paddingSize * 2)) (x : ℝ × ℝ) :
    Img frameSize := fun i j =>
  let p := simSample frameSize shapeSize paddingSize x (pixelCoordF frameSize j, pixelCoordF frameSize i)
  pixelAt img (pixelIndexF (shapeSize + paddingSize * 2) p.2) (pixelIndexF (shapeSize + paddingSize * 2) p.1)

/-- The padding of `load_resize_shapes` (simulator.py:74-82). `padding_size` is a natural number here. -/
noncomputable def padShape (shapeSize paddingSize : Nat) (img : Img shapeSize) : Img (shapeSize + paddingSize * 2) := fun i j =>
  pixelAt img ((i : ℤ) - paddingSize) ((j : ℤ) - paddingSize)

/-- `self.shapes`: a list at first, a tensor after `load_resize_shapes` (simulator.py:58,84). -/
inductive Shapes (n : Nat) where
  | list (l : List (Img n))
  | tensor (l : List (Img n))

/-- `load_resize_shapes` (simulator.py:61-86). `read` stands for reading and resizing a file and taking its alpha channel,
which is assumed to succeed; `files` is what `os.listdir` gives. A tensor has no `append`: AttributeError.
`np.concatenate` of an empty list: ValueError. Loading again when no file is left concatenates the shapes of the tensor into
one high image; this is not modelled and stands as `other`. The mean is written to a file, not modelled. -/
noncomputable def loadShapes (shapeSize paddingSize : Nat) (read : String → Img shapeSize) (files blacklist : List String) :
    Shapes (shapeSize + paddingSize * 2) → Except Err (Shapes (shapeSize + paddingSize * 2)) := fun s =>
  let paths := (files.filter fun f => f.endsWith ".png").filter fun f => !blacklist.contains f
  match s with
  | .list l =>
    let l := l ++ paths.map fun p => padShape shapeSize paddingSize (read p)
    if l.isEmpty then .error .value else .ok (.tensor l)
  | .tensor _ => if paths.isEmpty then .error (.other 0) else .error .attribute

/-- `objects[k]` (simulator.py:151): IndexError past the end. -/
def objectAt {n : Nat} (objects : List (Img n)) (k : Nat) : Except Err (Img n) :=
  match objects[k]? with
  | some o => .ok o
  | none => .error .index

/-- The loop of `sim_trajectories` after the rejection (simulator.py:132-139), for the accepted positions `x0` and the
angles `u` drawn by the calls of `sim_trajectory`. -/
noncomputable def simTrajectories (timesteps numTjs : Nat) (dv : ℝ) (x0 : List (ℝ × ℝ)) (u : Nat → ℝ) :
    Except Err (List (Nat → ℝ × ℝ)) :=
  (List.range numTjs).mapM fun k => do
    let p ← rowAt x0 k
    let XV ← simTrajectory timesteps dv p (u k)
    return XV.1

/-- `sim_one_sequence(objects)` after the rejection (simulator.py:141-172): the pixel of frame `t` in row `i`, column `j`. -/
noncomputable def simOneSequence (timesteps numObjects frameSize shapeSize paddingSize : Nat) (dv : ℝ)
    (objects : List (Img (shapeSize + paddingSize * 2))) (x0 : List (ℝ × ℝ)) (u : Nat → ℝ) :
    Except Err (Nat → Img frameSize) := do
  let Xs ← simTrajectories timesteps numObjects dv x0 u
  let bshape ← Xs.zipIdx.mapM fun Xk => do
    let o ← objectAt objects Xk.2
    return fun t : Nat => simObject frameSize shapeSize paddingSize o (Xk.1 t)
  if bshape.isEmpty then .error .runtime
  else return fun t i j => simPixel (bshape.map fun b => b t i j)

/-- `self.shapes[np.random.permutation(len(self.shapes))[: self.num_objects]]` for the drawn permutation
(simulator.py:193-194). -/
def chosenShapes {n : Nat} (shapes : List (Img n)) (perm : List Nat) (numObjects : Nat) : List (Img n) :=
  (perm.take numObjects).filterMap fun i => shapes[i]?

end Verif
