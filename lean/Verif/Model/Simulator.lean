import Mathlib.Analysis.SpecialFunctions.Trigonometric.Basic
import Verif.Model.Core
/-
experiments/apgs/dataset/simulator.py, the bouncing shapes, exact reals.
-/
namespace Verif

/-- A bounce of one coordinate: the two `if`s in program order; the second sees what the first did
(simulator.py:103-108, 109-114). -/
noncomputable def bounce (x v : ℝ) : ℝ × ℝ :=
  let (x, v) := if x < -1 then (-1 + |-1 - x|, -v) else (x, v)
  if x > 1 then (1 - |x - 1|, -v) else (x, v)

/-- One loop iteration (simulator.py:99-116). `V_new = V[t]` is a view, so a bounce also changes `V[t]` itself;
`X_new = X[t] + V[t]` is a new tensor. -/
noncomputable def trajStep (XV : (Nat → ℝ × ℝ) × (Nat → ℝ × ℝ)) (t : Nat) : (Nat → ℝ × ℝ) × (Nat → ℝ × ℝ) :=
  let X := XV.1
  let V := XV.2
  let a := bounce ((X t).1 + (V t).1) (V t).1
  let b := bounce ((X t).2 + (V t).2) (V t).2
  let V := Function.update V t (a.2, b.2)
  let V := Function.update V (t + 1) (V t)
  let X := Function.update X (t + 1) (a.1, b.1)
  (X, V)

/-- `sim_trajectory(init_xs)` (simulator.py:88-117) for the drawn `u = Uniform(0, 1).sample()`. The results are tensors
with `timesteps` rows; with no row, `X[0] = ..` raises IndexError. -/
noncomputable def simTrajectory (timesteps : Nat) (dv : ℝ) (init : ℝ × ℝ) (u : ℝ) :
    Except Err ((Nat → ℝ × ℝ) × (Nat → ℝ × ℝ)) :=
  if timesteps = 0 then .error .index
  else
    let θ := u * 2 * Real.pi
    let V0 := (Real.cos θ * dv, Real.sin θ * dv)
    .ok ((List.range (timesteps - 1)).foldl trajStep
      (Function.update (fun _ => 0) 0 init, Function.update (fun _ => 0) 0 V0))

/-- `((a - b) ** 2).sum()` -/
noncomputable def sqDist (a b : ℝ × ℝ) : ℝ := (a.1 - b.1) ^ 2 + (a.2 - b.2) ^ 2

/-- Indexing the drawn positions: IndexError past the end. -/
def rowAt (x : List (ℝ × ℝ)) (i : Nat) : Except Err (ℝ × ℝ) :=
  match x[i]? with
  | some p => .ok p
  | none => .error .index

/-- The condition of the rejection loop, evaluated left to right with short-circuit `and` (simulator.py:125-129). -/
noncomputable def farApart (x : List (ℝ × ℝ)) : Except Err Bool := do
  let x0 ← rowAt x 0
  let x1 ← rowAt x 1
  if sqDist x0 x1 > 0.5 then
    let x2 ← rowAt x 2
    if sqDist x2 x1 > 0.5 then
      return sqDist x0 x2 > 0.5
    else return false
  else return false

/-- The rejection loop over a sequence of draws of `num_tjs` positions (simulator.py:122-131), as a big-step relation:
`none` is IndexError, `some x` the accepted positions. A sequence that is rejected forever has no result. -/
inductive Rejection : (Nat → List (ℝ × ℝ)) → Option (List (ℝ × ℝ)) → Prop where
  | accept {xs} : farApart (xs 0) = .ok true → Rejection xs (some (xs 0))
  | reject {xs r} : farApart (xs 0) = .ok false → Rejection (fun i => xs (i + 1)) r → Rejection xs r
  | raise {xs e} : farApart (xs 0) = .error e → Rejection xs none

/-- The affine map of one object at one time (simulator.py:145-147,152-155): where in the patch a point of the frame
reads. -/
noncomputable def simSample (frameSize shapeSize paddingSize : Nat) (x p : ℝ × ℝ) : ℝ × ℝ :=
  let patch : ℝ := shapeSize + paddingSize * 2
  let s := frameSize / patch
  let t := (frameSize - patch) / patch
  (s * p.1 + x.1 * t, s * p.2 + x.2 * t)

/-- `.sum(1).clamp(min=0.0, max=1.0)` over the objects, for one pixel (simulator.py:171). -/
noncomputable def simPixel (vals : List ℝ) : ℝ := min (max vals.sum 0) 1

/-- One saved file: its number in the name and how many sequences it holds (simulator.py:203-208). -/
structure Chunk where
  counter : Nat
  size : Int
deriving DecidableEq

/-- `PATH + "seq-timesteps=%d-objects=%d-p%d" % (..) + ".pt"`, without the directory (simulator.py:203-208). -/
def chunkFile (timesteps objects counter : Nat) : String :=
  "seq-timesteps=" ++ toString timesteps ++ "-objects=" ++ toString objects ++ "-p" ++ toString counter ++ ".pt"

/-- The loop of `sim_save_data` (simulator.py:188-211): `torch.cat` of an empty list raises RuntimeError, which happens
exactly when `num_this_round <= 0`. Files written so far are returned also then. Simulating a sequence and saving are
assumed to succeed. -/
def saveLoop (chunkSize : Int) (left : Int) (counter : Nat) : List Chunk × Except Err Unit :=
  if left > 0 then
    let round := min chunkSize left
    if round ≤ 0 then ([], .error .runtime)
    else
      let r := saveLoop chunkSize (max (left - round) 0) (counter + 1)
      ({ counter := counter, size := round } :: r.1, r.2)
  else ([], .ok ())
termination_by left.toNat
decreasing_by omega

/-- `sim_save_data(num_seqs, PATH)` (simulator.py:174-218). -/
def simSaveData (chunkSize numSeqs : Int) : List Chunk × Except Err Unit := saveLoop chunkSize numSeqs 1

end Verif
