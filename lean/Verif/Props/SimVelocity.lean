import Verif.Props.Simulator
/-
C44: which velocities sim_trajectory returns.
-/
namespace Verif
namespace Spec

/-- One coordinate of a move in the box: from x with velocity v to x', leaving with velocity v'. -/
structure Moves (x v x' v' : ℝ) : Prop where
  free : -1 ≤ x + v → x + v ≤ 1 → x' = x + v ∧ v' = v
  upper : 1 < x + v → x' = 2 - (x + v) ∧ v' = -v
  lower : x + v < -1 → x' = -2 - (x + v) ∧ v' = -v

end Spec
open Spec

theorem bounce_moves {x v : ℝ} (h0 : -1 ≤ x) (h1 : x ≤ 1) (hv : |v| ≤ 2) : Moves x v (bounce (x + v) v).1 (bounce (x + v) v).2 := by
  obtain ⟨hv1, hv2⟩ := abs_le.1 hv
  unfold bounce
  refine ⟨fun a b => ?_, fun a => ?_, fun a => ?_⟩
  · rw [if_neg (by linarith)]
    simp only [gt_iff_lt]
    rw [if_neg (by linarith)]
    exact ⟨rfl, rfl⟩
  · rw [if_neg (by linarith)]
    simp only [gt_iff_lt]
    rw [if_pos a, abs_of_nonneg (by linarith)]
    exact ⟨by ring, rfl⟩
  · rw [if_pos a, abs_of_nonneg (by linarith)]
    simp only [gt_iff_lt]
    rw [if_neg (by linarith)]
    exact ⟨by ring, rfl⟩

/-- After n iterations: the velocities with which each move begins. -/
theorem traj_moves (x0 v0 : ℝ × ℝ) (hx : (-1 ≤ x0.1 ∧ x0.1 ≤ 1) ∧ (-1 ≤ x0.2 ∧ x0.2 ≤ 1)) (hv : |v0.1| ≤ 2 ∧ |v0.2| ≤ 2) (n : Nat) :
    let r := (List.range n).foldl trajStep (Function.update (fun _ => 0) 0 x0, Function.update (fun _ => 0) 0 v0)
    r.1 0 = x0 ∧ ∃ W : Nat → ℝ × ℝ, W 0 = v0 ∧ W n = r.2 n ∧ ∀ t < n, W (t + 1) = r.2 t ∧
      Moves (r.1 t).1 (W t).1 (r.1 (t + 1)).1 (r.2 t).1 ∧ Moves (r.1 t).2 (W t).2 (r.1 (t + 1)).2 (r.2 t).2 := by
  induction n with
  | zero => exact ⟨by simp, fun _ => v0, rfl, by simp, fun t ht => absurd ht (by omega)⟩
  | succ n ih =>
    have inv := traj_inv x0 v0 hx hv n
    simp only [List.range_succ, List.foldl_append, List.foldl_cons, List.foldl_nil] at ih ⊢
    generalize (List.range n).foldl trajStep _ = r at ih inv
    obtain ⟨h0, W, w0, wn, hW⟩ := ih
    obtain ⟨inv, -, -⟩ := inv
    obtain ⟨a1, a2, -, -, a3, a4⟩ := inv n le_rfl
    have b1 : |(r.2 n).1| ≤ 2 := by rcases a3 with h | h <;> rw [h] <;> simpa using hv.1
    have b2 : |(r.2 n).2| ≤ 2 := by rcases a4 with h | h <;> rw [h] <;> simpa using hv.2
    have m1 := bounce_moves a1.1 a1.2 b1
    have m2 := bounce_moves a2.1 a2.2 b2
    have hne : n ≠ n + 1 := by omega
    have x1 : ∀ t ≤ n, (trajStep r n).1 t = r.1 t := fun t ht => by simp only [trajStep]; rw [Function.update_of_ne (by omega)]
    have x2 : (trajStep r n).1 (n + 1) = ((bounce ((r.1 n).1 + (r.2 n).1) (r.2 n).1).1, (bounce ((r.1 n).2 + (r.2 n).2) (r.2 n).2).1) := by simp [trajStep]
    have v1 : ∀ t < n, (trajStep r n).2 t = r.2 t := fun t ht => by
      simp only [trajStep]
      rw [Function.update_of_ne (by omega), Function.update_of_ne (by omega)]
    have v2 : (trajStep r n).2 n = ((bounce ((r.1 n).1 + (r.2 n).1) (r.2 n).1).2, (bounce ((r.1 n).2 + (r.2 n).2) (r.2 n).2).2) := by
      simp only [trajStep]
      rw [Function.update_of_ne hne, Function.update_self]
    have v3 : (trajStep r n).2 (n + 1) = (trajStep r n).2 n := by
      rw [v2]
      simp [trajStep]
    refine ⟨by rw [x1 0 (by omega), h0], Function.update W (n + 1) ((trajStep r n).2 n), ?_, ?_, fun t ht => ?_⟩
    · rw [Function.update_of_ne (by omega), w0]
    · rw [Function.update_self, v3]
    · by_cases e : t = n
      · subst e
        rw [Function.update_self, Function.update_of_ne hne, wn, x1 t le_rfl, x2, v2]
        exact ⟨rfl, m1, m2⟩
      · rw [Function.update_of_ne (by omega), Function.update_of_ne (by omega), x1 t (by omega), x1 (t + 1) (by omega), v1 t (by omega)]
        exact hW t (by omega)

/-- C44. Row t of the velocities is the velocity after the move from frame t to frame t + 1 (W t is the one with which that move begins), as
`V_new` is a view of `V[t]`; the last row repeats the one before. -/
theorem C44_velocity (timesteps : Nat) (dv : ℝ) (init : ℝ × ℝ) (u : ℝ) (hT : 0 < timesteps)
    (hx : (-1 ≤ init.1 ∧ init.1 ≤ 1) ∧ (-1 ≤ init.2 ∧ init.2 ≤ 1)) (hv : |dv| ≤ 2) :
    ∃ X V, simTrajectory timesteps dv init u = .ok (X, V) ∧ X 0 = init ∧
      ∃ W : Nat → ℝ × ℝ, W 0 = (Real.cos (u * 2 * Real.pi) * dv, Real.sin (u * 2 * Real.pi) * dv) ∧
        (∀ t, t + 1 < timesteps → W (t + 1) = V t ∧ Moves (X t).1 (W t).1 (X (t + 1)).1 (V t).1 ∧ Moves (X t).2 (W t).2 (X (t + 1)).2 (V t).2) ∧
        V (timesteps - 1) = W (timesteps - 1) := by
  have hne : timesteps ≠ 0 := by omega
  have h1 : |Real.cos (u * 2 * Real.pi) * dv| ≤ 2 := by
    rw [abs_mul]; nlinarith [Real.abs_cos_le_one (u * 2 * Real.pi), abs_nonneg dv, abs_nonneg (Real.cos (u * 2 * Real.pi))]
  have h2 : |Real.sin (u * 2 * Real.pi) * dv| ≤ 2 := by
    rw [abs_mul]; nlinarith [Real.abs_sin_le_one (u * 2 * Real.pi), abs_nonneg dv, abs_nonneg (Real.sin (u * 2 * Real.pi))]
  obtain ⟨a, W, w0, wn, hW⟩ := traj_moves init (Real.cos (u * 2 * Real.pi) * dv, Real.sin (u * 2 * Real.pi) * dv) hx ⟨h1, h2⟩ (timesteps - 1)
  exact ⟨_, _, if_neg hne, a, W, w0, fun t ht => hW t (by omega), wn.symm⟩

/-- C44: the velocities returned are not the displacements of the same row: an object that starts at 0.95 and flies to the right with 0.1
is at 0.95 in the next frame, while its first velocity is -0.1. -/
theorem C44_velocity_row : ∃ X V, simTrajectory 2 (1 / 10) (19 / 20, 0) 0 = .ok (X, V) ∧ V 0 = (-(1 / 10), 0) ∧ X 1 = (19 / 20, 0) ∧ (X 0).1 + (V 0).1 ≠ (X 1).1 := by
  obtain ⟨X, V, h, x0, W, w0, hW, -⟩ := C44_velocity 2 (1 / 10) (19 / 20, 0) 0 (by norm_num) (by norm_num) (by rw [abs_of_nonneg] <;> norm_num)
  obtain ⟨-, m1, m2⟩ := hW 0 (by norm_num)
  rw [x0, w0] at m1 m2
  simp only [zero_mul, Real.cos_zero, Real.sin_zero, one_mul] at m1 m2
  obtain ⟨a1, a2⟩ := m1.upper (by norm_num)
  obtain ⟨b1, b2⟩ := m2.free (by norm_num) (by norm_num)
  have e1 : X 1 = (19 / 20, 0) := Prod.ext (by rw [a1]; norm_num) (by rw [b1]; norm_num)
  have e2 : V 0 = (-(1 / 10), 0) := Prod.ext a2 b2
  refine ⟨X, V, h, e2, e1, ?_⟩
  rw [x0, e1, e2]
  norm_num

end Verif
