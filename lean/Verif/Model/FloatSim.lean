import Mathlib.Analysis.SpecialFunctions.Trigonometric.Basic
import Verif.Model.Ieee
/-
`sim_trajectory` (experiments/apgs/dataset/simulator.py:88-117) with float32 tensors.
-/
namespace Verif
namespace Fp

/-- A bounce of one coordinate in float32 (simulator.py:103-108, 109-114). -/
noncomputable def bounce (x v : ℝ) : ℝ × ℝ :=
  let (x, v) := if x < -1 then (b32.round (-1 + |b32.round (-1 - x)|), -v) else (x, v)
  if x > 1 then (b32.round (1 - |b32.round (x - 1)|), -v) else (x, v)

/-- One loop iteration in float32 (simulator.py:99-116). As in `trajStep`, `V_new = V[t]` is a view. -/
noncomputable def trajStep (XV : (Nat → ℝ × ℝ) × (Nat → ℝ × ℝ)) (t : Nat) : (Nat → ℝ × ℝ) × (Nat → ℝ × ℝ) :=
  let X := XV.1
  let V := XV.2
  let a := bounce (b32.round ((X t).1 + (V t).1)) (V t).1
  let b := bounce (b32.round ((X t).2 + (V t).2)) (V t).2
  let V := Function.update V t (a.2, b.2)
  let V := Function.update V (t + 1) (V t)
  let X := Function.update X (t + 1) (a.1, b.1)
  (X, V)

/-- The angle (simulator.py:90): a float32 tensor times the Python numbers 2 and `math.pi`. -/
noncomputable def angle (u : ℝ) : ℝ := b32.round (b32.round (u * 2) * b32.round Real.pi)

/-- The first velocity (simulator.py:92-94), sine and cosine rounded to nearest. -/
noncomputable def firstVelocity (dv u : ℝ) : ℝ × ℝ :=
  (b32.round (b32.round (Real.cos (angle u)) * b32.round dv), b32.round (b32.round (Real.sin (angle u)) * b32.round dv))

/-- `sim_trajectory(init_xs)` in float32, for the drawn `u = Uniform(0, 1).sample()`; IndexError without time steps. -/
noncomputable def simTrajectory (timesteps : Nat) (dv : ℝ) (init : ℝ × ℝ) (u : ℝ) : Except Err ((Nat → ℝ × ℝ) × (Nat → ℝ × ℝ)) :=
  if timesteps = 0 then .error .index
  else
    .ok ((List.range (timesteps - 1)).foldl trajStep (Function.update (fun _ => 0) 0 init, Function.update (fun _ => 0) 0 (firstVelocity dv u)))

end Fp
end Verif
