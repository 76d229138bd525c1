import Mathlib.Tactic.Linarith
import Mathlib.Tactic.NormNum
import Mathlib.Tactic.Positivity
import Mathlib.Tactic.FieldSimp
import Mathlib.Algebra.Order.Floor.Ring
import Verif.Model.Simulator
import Verif.Proofs.Strings
/-
C44, C45, C49: the simulator of bouncing shapes.
-/
namespace Verif
namespace Spec

/-- The triangle wave: the identity on [-1, 1], reflected at both ends, with period 4. -/
noncomputable def fold (y : ℝ) : ℝ := 1 - |(y + 1) - 4 * ⌊(y + 1) / 4⌋ - 2|

end Spec

theorem fold_add (y : ℝ) (k : ℤ) : Spec.fold (y + 4 * k) = Spec.fold y := by
  unfold Spec.fold
  have : (y + 4 * k + 1) / 4 = (y + 1) / 4 + k := by ring
  rw [this, Int.floor_add_intCast]
  push_cast
  congr 2; ring

theorem fold_id {y : ℝ} (h0 : -1 ≤ y) (h1 : y ≤ 1) : Spec.fold y = y := by
  unfold Spec.fold
  have : ⌊(y + 1) / 4⌋ = 0 := by rw [Int.floor_eq_iff]; constructor <;> push_cast <;> linarith
  rw [this, abs_of_nonpos (by push_cast; linarith)]
  push_cast; ring

theorem fold_reflect (y : ℝ) : Spec.fold (2 - y) = Spec.fold y := by
  -- reduce to y + 1 in [0, 4)
  obtain ⟨k, z, hz0, hz1, rfl⟩ : ∃ (k : ℤ) (z : ℝ), 0 ≤ z + 1 ∧ z + 1 < 4 ∧ y = z + 4 * k := by
    refine ⟨⌊(y + 1) / 4⌋, y - 4 * ⌊(y + 1) / 4⌋, ?_, ?_, by ring⟩
    · have := Int.floor_le ((y + 1) / 4); linarith
    · have := Int.lt_floor_add_one ((y + 1) / 4); linarith
  have e : 2 - (z + 4 * k) = (2 - z) + 4 * ((-k : ℤ) : ℝ) := by push_cast; ring
  rw [e, fold_add, fold_add]
  unfold Spec.fold
  have h1 : ⌊(z + 1) / 4⌋ = 0 := by rw [Int.floor_eq_iff]; constructor <;> push_cast <;> linarith
  rw [h1]
  by_cases h : z = -1
  · subst h
    have h2 : ⌊(2 - (-1 : ℝ) + 1) / 4⌋ = 1 := by rw [Int.floor_eq_iff]; norm_num
    rw [h2]; norm_num
  · have hz : 0 < z + 1 := lt_of_le_of_ne hz0 (fun e => h (by linarith))
    have h2 : ⌊(2 - z + 1) / 4⌋ = 0 := by rw [Int.floor_eq_iff]; constructor <;> push_cast <;> linarith
    rw [h2]
    have : (2 - z + 1) - 4 * ((0 : ℤ) : ℝ) - 2 = -((z + 1) - 4 * ((0 : ℤ) : ℝ) - 2) := by push_cast; ring
    rw [this, abs_neg]

/-- What one bounce does to a coordinate that was in the box, with a step of length at most 2. -/
theorem bounce_spec {x v : ℝ} (h0 : -1 ≤ x) (h1 : x ≤ 1) (hv : |v| ≤ 2) :
    (-1 ≤ (bounce (x + v) v).1 ∧ (bounce (x + v) v).1 ≤ 1) ∧
      (((bounce (x + v) v).1 = x + v ∧ (bounce (x + v) v).2 = v) ∨
        ((bounce (x + v) v).2 = -v ∧
          ((bounce (x + v) v).1 = 2 - (x + v) ∨ (bounce (x + v) v).1 = 2 - (x + v) + 4 * ((-1 : ℤ) : ℝ)))) := by
  rw [abs_le] at hv
  unfold bounce
  by_cases h : x + v < -1
  · have e : |-1 - (x + v)| = -1 - (x + v) := abs_of_nonneg (by linarith)
    simp only [h, if_true, e]
    rw [if_neg (by linarith)]
    refine ⟨⟨by linarith, by linarith⟩, Or.inr ⟨by trivial, Or.inr ?_⟩⟩
    push_cast; ring
  · simp only [h, if_false]
    by_cases h' : x + v > 1
    · have e : |x + v - 1| = x + v - 1 := abs_of_nonneg (by linarith)
      simp only [h', if_true, e]
      refine ⟨⟨by linarith, by linarith⟩, Or.inr ⟨by trivial, Or.inl ?_⟩⟩
      ring
    · simp only [h', if_false]
      exact ⟨⟨by linarith, by linarith⟩, Or.inl ⟨by trivial, by trivial⟩⟩

/-- The invariant of one coordinate at time `t`: the position is in the box and is, up to whole periods, the
free-flight position `y` with velocity `v0`, or its mirror image with the opposite velocity. -/
def Inv (y v0 x v : ℝ) : Prop :=
  (-1 ≤ x ∧ x ≤ 1) ∧ ∃ k : ℤ, (x = y + 4 * k ∧ v = v0) ∨ (x = 2 - y + 4 * k ∧ v = -v0)

theorem Inv.step {y v0 x v : ℝ} (hv : |v0| ≤ 2) (h : Inv y v0 x v) :
    Inv (y + v0) v0 (bounce (x + v) v).1 (bounce (x + v) v).2 := by
  obtain ⟨⟨h0, h1⟩, k, h⟩ := h
  have hv' : |v| ≤ 2 := by rcases h with ⟨_, rfl⟩ | ⟨_, rfl⟩ <;> simpa using hv
  obtain ⟨hb, hc⟩ := bounce_spec h0 h1 hv'
  refine ⟨hb, ?_⟩
  rcases h with ⟨hx, hv⟩ | ⟨hx, hv⟩
  · rcases hc with ⟨e1, e2⟩ | ⟨e2, e1 | e1⟩
    · exact ⟨k, Or.inl ⟨by rw [e1, hx, hv]; ring, by rw [e2, hv]⟩⟩
    · exact ⟨-k, Or.inr ⟨by rw [e1, hx, hv]; push_cast; ring, by rw [e2, hv]⟩⟩
    · exact ⟨-k - 1, Or.inr ⟨by rw [e1, hx, hv]; push_cast; ring, by rw [e2, hv]⟩⟩
  · rcases hc with ⟨e1, e2⟩ | ⟨e2, e1 | e1⟩
    · exact ⟨k, Or.inr ⟨by rw [e1, hx, hv]; ring, by rw [e2, hv]⟩⟩
    · exact ⟨-k, Or.inl ⟨by rw [e1, hx, hv]; push_cast; ring, by rw [e2, hv]; ring⟩⟩
    · exact ⟨-k - 1, Or.inl ⟨by rw [e1, hx, hv]; push_cast; ring, by rw [e2, hv]; ring⟩⟩

theorem Inv.fold {y v0 x v : ℝ} (h : Inv y v0 x v) : x = Spec.fold y := by
  obtain ⟨⟨h0, h1⟩, k, ⟨rfl, _⟩ | ⟨rfl, _⟩⟩ := h
  · rw [← fold_add y k, fold_id h0 h1]
  · rw [← fold_reflect y, ← fold_add (2 - y) k, fold_id h0 h1]

theorem Inv.abs {y v0 x v : ℝ} (h : Inv y v0 x v) : v = v0 ∨ v = -v0 := by
  obtain ⟨_, k, ⟨_, h⟩ | ⟨_, h⟩⟩ := h
  · exact Or.inl h
  · exact Or.inr h

theorem abs_of_signs {a b v : ℝ} (ha : a = v ∨ a = -v) (hb : b = v ∨ b = -v) : |a| = |b| := by
  rcases ha with rfl | rfl <;> rcases hb with rfl | rfl <;> simp

/-- After `n` iterations. -/
theorem traj_inv (x0 v0 : ℝ × ℝ) (hx : (-1 ≤ x0.1 ∧ x0.1 ≤ 1) ∧ (-1 ≤ x0.2 ∧ x0.2 ≤ 1))
    (hv : |v0.1| ≤ 2 ∧ |v0.2| ≤ 2) (n : Nat) :
    let r := (List.range n).foldl trajStep (Function.update (fun _ => 0) 0 x0, Function.update (fun _ => 0) 0 v0)
    (∀ t ≤ n, (-1 ≤ (r.1 t).1 ∧ (r.1 t).1 ≤ 1) ∧ (-1 ≤ (r.1 t).2 ∧ (r.1 t).2 ≤ 1) ∧
      (r.1 t).1 = Spec.fold (x0.1 + t * v0.1) ∧ (r.1 t).2 = Spec.fold (x0.2 + t * v0.2) ∧
      ((r.2 t).1 = v0.1 ∨ (r.2 t).1 = -v0.1) ∧ ((r.2 t).2 = v0.2 ∨ (r.2 t).2 = -v0.2)) ∧
    Inv (x0.1 + n * v0.1) v0.1 (r.1 n).1 (r.2 n).1 ∧ Inv (x0.2 + n * v0.2) v0.2 (r.1 n).2 (r.2 n).2 := by
  induction n with
  | zero =>
    have i1 : Inv (x0.1 + (0 : ℕ) * v0.1) v0.1 x0.1 v0.1 := ⟨hx.1, 0, Or.inl ⟨by push_cast; ring, rfl⟩⟩
    have i2 : Inv (x0.2 + (0 : ℕ) * v0.2) v0.2 x0.2 v0.2 := ⟨hx.2, 0, Or.inl ⟨by push_cast; ring, rfl⟩⟩
    refine ⟨?_, by simpa using i1, by simpa using i2⟩
    intro t ht
    obtain rfl : t = 0 := by omega
    simp only [List.range_zero, List.foldl_nil, Function.update_self]
    exact ⟨hx.1, hx.2, i1.fold, i2.fold, Or.inl (by trivial), Or.inl (by trivial)⟩
  | succ n ih =>
    simp only [List.range_succ, List.foldl_append, List.foldl_cons, List.foldl_nil] at ih ⊢
    generalize (List.range n).foldl trajStep _ = r at ih
    obtain ⟨ha, i1, i2⟩ := ih
    have j1 := i1.step hv.1
    have j2 := i2.step hv.2
    have e1 : x0.1 + (n : ℝ) * v0.1 + v0.1 = x0.1 + ((n + 1 : ℕ) : ℝ) * v0.1 := by push_cast; ring
    have e2 : x0.2 + (n : ℝ) * v0.2 + v0.2 = x0.2 + ((n + 1 : ℕ) : ℝ) * v0.2 := by push_cast; ring
    rw [e1] at j1
    rw [e2] at j2
    refine ⟨?_, by simpa [trajStep] using j1, by simpa [trajStep] using j2⟩
    intro t ht
    by_cases h1 : t = n + 1
    · subst h1
      simp only [trajStep, Function.update_self]
      exact ⟨j1.1, j2.1, j1.fold, j2.fold, j1.abs, j2.abs⟩
    · by_cases h2 : t = n
      · subst h2
        have hn : t ≠ t + 1 := by omega
        simp only [trajStep, Function.update_of_ne hn, Function.update_self]
        obtain ⟨a, b, c, d, _, _⟩ := ha t (by omega)
        exact ⟨a, b, c, d, j1.abs, j2.abs⟩
      · simp only [trajStep, Function.update_of_ne h1, Function.update_of_ne h2]
        exact ha t (by omega)

section
variable (timesteps : Nat) (dv : ℝ) (init : ℝ × ℝ) (u : ℝ)

/-- C44: with the start in the box and `|dv| ≤ 2`, every position is in the box, each velocity component only ever changes
its sign, and the speed is `|dv|` at all times. -/
theorem C44_in_box (hT : 0 < timesteps) (hx : (-1 ≤ init.1 ∧ init.1 ≤ 1) ∧ (-1 ≤ init.2 ∧ init.2 ≤ 1)) (hv : |dv| ≤ 2) :
    ∃ X V, simTrajectory timesteps dv init u = .ok (X, V) ∧ ∀ t < timesteps,
      (-1 ≤ (X t).1 ∧ (X t).1 ≤ 1) ∧ (-1 ≤ (X t).2 ∧ (X t).2 ≤ 1) ∧
        |(V t).1| = |(V 0).1| ∧ |(V t).2| = |(V 0).2| ∧ (V t).1 ^ 2 + (V t).2 ^ 2 = dv ^ 2 := by
  have hne : timesteps ≠ 0 := by omega
  set θ := u * 2 * Real.pi with hθ
  have h1 : |Real.cos θ * dv| ≤ 2 := by
    rw [abs_mul]; nlinarith [Real.abs_cos_le_one θ, abs_nonneg dv, abs_nonneg (Real.cos θ)]
  have h2 : |Real.sin θ * dv| ≤ 2 := by
    rw [abs_mul]; nlinarith [Real.abs_sin_le_one θ, abs_nonneg dv, abs_nonneg (Real.sin θ)]
  obtain ⟨ha, -, -⟩ := traj_inv init (Real.cos θ * dv, Real.sin θ * dv) hx ⟨h1, h2⟩ (timesteps - 1)
  refine ⟨_, _, if_neg hne, ?_⟩
  intro t ht
  obtain ⟨a, b, -, -, c, d⟩ := ha t (by omega)
  obtain ⟨-, -, -, -, c0, d0⟩ := ha 0 (by omega)
  refine ⟨a, b, ?_, ?_, ?_⟩
  · exact abs_of_signs c c0
  · exact abs_of_signs d d0
  · have hs := Real.sin_sq_add_cos_sq θ
    have ec : ((List.foldl trajStep (Function.update (fun _ => 0) 0 init, Function.update (fun _ => 0) 0
        (Real.cos θ * dv, Real.sin θ * dv)) (List.range (timesteps - 1))).2 t).1 ^ 2 = (Real.cos θ * dv) ^ 2 := by
      rcases c with c | c <;> rw [c]
      ring
    have ed : ((List.foldl trajStep (Function.update (fun _ => 0) 0 init, Function.update (fun _ => 0) 0
        (Real.cos θ * dv, Real.sin θ * dv)) (List.range (timesteps - 1))).2 t).2 ^ 2 = (Real.sin θ * dv) ^ 2 := by
      rcases d with d | d <;> rw [d]
      ring
    rw [ec, ed]
    calc (Real.cos θ * dv) ^ 2 + (Real.sin θ * dv) ^ 2 = (Real.sin θ ^ 2 + Real.cos θ ^ 2) * dv ^ 2 := by ring
      _ = dv ^ 2 := by rw [hs, one_mul]

/-- C44: the trajectory is exactly free flight folded into the box by reflections. -/
theorem C44_reflection (hT : 0 < timesteps) (hx : (-1 ≤ init.1 ∧ init.1 ≤ 1) ∧ (-1 ≤ init.2 ∧ init.2 ≤ 1))
    (hv : |dv| ≤ 2) :
    ∃ X V, simTrajectory timesteps dv init u = .ok (X, V) ∧ ∀ t < timesteps,
      X t = (Spec.fold (init.1 + t * (Real.cos (u * 2 * Real.pi) * dv)),
        Spec.fold (init.2 + t * (Real.sin (u * 2 * Real.pi) * dv))) := by
  have hne : timesteps ≠ 0 := by omega
  set θ := u * 2 * Real.pi with hθ
  have h1 : |Real.cos θ * dv| ≤ 2 := by
    rw [abs_mul]; nlinarith [Real.abs_cos_le_one θ, abs_nonneg dv, abs_nonneg (Real.cos θ)]
  have h2 : |Real.sin θ * dv| ≤ 2 := by
    rw [abs_mul]; nlinarith [Real.abs_sin_le_one θ, abs_nonneg dv, abs_nonneg (Real.sin θ)]
  obtain ⟨ha, -, -⟩ := traj_inv init (Real.cos θ * dv, Real.sin θ * dv) hx ⟨h1, h2⟩ (timesteps - 1)
  refine ⟨_, _, if_neg hne, ?_⟩
  intro t ht
  obtain ⟨-, -, a, b, -, -⟩ := ha t (by omega)
  exact Prod.ext a b

/-- C44: no timesteps, no trajectory. -/
theorem C44_no_timesteps : simTrajectory 0 dv init u = .error .index := rfl

end

/-- The hypotheses of C44 for the simulator's defaults: ten steps, `dv = 0.1`, a start at the edge. -/
example : (0 < 10) ∧ ((-1 ≤ ((1, -1 / 2) : ℝ × ℝ).1 ∧ ((1, -1 / 2) : ℝ × ℝ).1 ≤ 1) ∧
    (-1 ≤ ((1, -1 / 2) : ℝ × ℝ).2 ∧ ((1, -1 / 2) : ℝ × ℝ).2 ≤ 1)) ∧ |(0.1 : ℝ)| ≤ 2 := by
  refine ⟨by norm_num, by norm_num, ?_⟩
  rw [abs_of_nonneg] <;> norm_num

/-- A bounce at the right wall, and that the bound on `dv` is needed: with a step of 4.5 the point leaves the box. -/
example : bounce (0.9 + 0.3) 0.3 = (0.8, -0.3) ∧ (bounce (1 + 4.5) 4.5).1 < -1 := by
  constructor
  · simp only [bounce]; norm_num
  · simp only [bounce]; norm_num

/-- C44: a position in the box keeps the whole patch inside the frame: every point of the patch is read by a point of the
frame. (The patch is no larger than the frame.) -/
theorem C44_patch_inside (frameSize shapeSize paddingSize : Nat) (h0 : 0 < shapeSize)
    (h1 : shapeSize + paddingSize * 2 ≤ frameSize) (x : ℝ × ℝ) (hx : (-1 ≤ x.1 ∧ x.1 ≤ 1) ∧ (-1 ≤ x.2 ∧ x.2 ≤ 1))
    (q : ℝ × ℝ) (hq : (-1 ≤ q.1 ∧ q.1 ≤ 1) ∧ (-1 ≤ q.2 ∧ q.2 ≤ 1)) :
    ∃ p, simSample frameSize shapeSize paddingSize x p = q ∧
      (-1 ≤ p.1 ∧ p.1 ≤ 1) ∧ (-1 ≤ p.2 ∧ p.2 ≤ 1) := by
  have hc : (shapeSize : ℝ) + paddingSize * 2 ≤ frameSize := by exact_mod_cast h1
  have hp : (0 : ℝ) < (shapeSize : ℝ) + paddingSize * 2 := by positivity
  simp only [simSample]
  generalize (shapeSize : ℝ) + paddingSize * 2 = P at *
  have hf : (0 : ℝ) < frameSize := by linarith
  have key : ∀ a b : ℝ, -1 ≤ a → a ≤ 1 → -1 ≤ b → b ≤ 1 → ∃ c : ℝ,
      frameSize / P * c + a * ((frameSize - P) / P) = b ∧ -1 ≤ c ∧ c ≤ 1 := by
    intro a b ha0 ha1 hb0 hb1
    refine ⟨(P * b - a * (frameSize - P)) / frameSize, by field_simp; ring, ?_, ?_⟩
    · rw [le_div_iff₀ hf]; nlinarith
    · rw [div_le_iff₀ hf]; nlinarith
  obtain ⟨c, hc1, hc2⟩ := key x.1 q.1 hx.1.1 hx.1.2 hq.1.1 hq.1.2
  obtain ⟨d, hd1, hd2⟩ := key x.2 q.2 hx.2.1 hx.2.2 hq.2.1 hq.2.2
  exact ⟨(c, d), by rw [hc1, hd1], hc2, hd2⟩

/-- C44: pixel values are in [0, 1]; below saturation overlapping objects add up. -/
theorem C44_pixel (vals : List ℝ) :
    0 ≤ simPixel vals ∧ simPixel vals ≤ 1 ∧ (0 ≤ vals.sum → vals.sum ≤ 1 → simPixel vals = vals.sum) := by
  unfold simPixel
  refine ⟨le_min (le_max_right _ _) (by norm_num), min_le_right _ _, fun h0 h1 => ?_⟩
  rw [max_eq_left h0, min_eq_left h1]

/-! ### C49: the rejection loop for the initial positions -/

theorem rowAt_ok {x : List (ℝ × ℝ)} {i : Nat} {p : ℝ × ℝ} (h : rowAt x i = .ok p) : x[i]? = some p := by
  unfold rowAt at h
  split at h
  · rename_i q hq; cases h; exact hq
  · cases h

theorem farApart_true {x : List (ℝ × ℝ)} (h : farApart x = .ok true) :
    ∃ a b c, x[0]? = some a ∧ x[1]? = some b ∧ x[2]? = some c ∧
      sqDist a b > 0.5 ∧ sqDist c b > 0.5 ∧ sqDist a c > 0.5 := by
  unfold farApart at h
  simp only [bind, Except.bind, pure, Except.pure] at h
  cases ha : rowAt x 0 with
  | error e => simp [ha] at h
  | ok a =>
    cases hb : rowAt x 1 with
    | error e => simp [ha, hb] at h
    | ok b =>
      simp only [ha, hb] at h
      split at h
      · rename_i h1
        cases hc : rowAt x 2 with
        | error e => simp [hc] at h
        | ok c =>
          simp only [hc] at h
          split at h
          · rename_i h2
            exact ⟨a, b, c, rowAt_ok ha, rowAt_ok hb, rowAt_ok hc, h1, h2, by simpa using h⟩
          · simp at h
      · simp at h

/-- C49: when the loop ends normally, the positions are one of the drawn ones and the first three are pairwise more than
`sqrt 0.5` apart. -/
theorem C49_separated (xs : Nat → List (ℝ × ℝ)) (x : List (ℝ × ℝ)) (h : Rejection xs (some x)) :
    (∃ i, x = xs i) ∧ ∃ a b c, x[0]? = some a ∧ x[1]? = some b ∧ x[2]? = some c ∧
      sqDist a b > 0.5 ∧ sqDist c b > 0.5 ∧ sqDist a c > 0.5 := by
  generalize hr : some x = r at h
  induction h with
  | accept h => cases hr; exact ⟨⟨0, rfl⟩, farApart_true h⟩
  | reject _ _ ih =>
    obtain ⟨⟨i, hi⟩, h⟩ := ih hr
    exact ⟨⟨i + 1, hi⟩, h⟩
  | raise => cases hr

/-- C49: with fewer than three objects the loop never ends normally, whatever is drawn: it raises or does not end. -/
theorem C49_needs_three (xs : Nat → List (ℝ × ℝ)) (n : Nat) (hn : n < 3) (hl : ∀ i, (xs i).length = n)
    (x : List (ℝ × ℝ)) : ¬ Rejection xs (some x) := by
  intro h
  obtain ⟨⟨i, rfl⟩, a, b, c, -, -, hc, -⟩ := C49_separated xs _ h
  have := hl i
  rw [List.getElem?_eq_some_iff] at hc
  obtain ⟨hlt, -⟩ := hc
  omega

/-- Two objects far apart: IndexError. Three objects: accepted at the second draw. -/
example : Rejection (fun _ => [(-1, 0), (1, 0)]) none ∧
    Rejection (fun i => if i = 0 then [(0, 0), (0, 0), (0, 0)] else [(-1, 0), (1, 0), (0, 1)])
      (some [(-1, 0), (1, 0), (0, 1)]) := by
  constructor
  · refine Rejection.raise (e := .index) ?_
    simp only [farApart, rowAt, bind, Except.bind, sqDist]
    norm_num
  · refine Rejection.reject ?_ (Rejection.accept ?_)
    · simp only [farApart, rowAt, bind, Except.bind, sqDist, pure, Except.pure]
      norm_num
    · simp only [farApart, rowAt, bind, Except.bind, sqDist, pure, Except.pure]
      norm_num

/-! ### C45: saving in chunks -/

theorem saveLoop_pos (c : Int) (hc : 0 < c) (left : Int) (k : Nat) :
    (saveLoop c left k).2 = .ok () ∧
      ((saveLoop c left k).1.map Chunk.size).sum = max left 0 ∧
      (∀ ch ∈ (saveLoop c left k).1, 0 < ch.size ∧ ch.size ≤ c) ∧
      (saveLoop c left k).1.map Chunk.counter = List.range' k (saveLoop c left k).1.length := by
  induction hn : left.toNat using Nat.strong_induction_on generalizing left k with
  | _ n ih =>
    rw [saveLoop]
    by_cases h : left > 0
    · have hr : ¬ min c left ≤ 0 := by omega
      simp only [h, if_true, hr, if_false]
      obtain ⟨h1, h2, h3, h4⟩ := ih (max (left - min c left) 0).toNat (by omega) (max (left - min c left) 0) (k + 1) rfl
      refine ⟨h1, ?_, ?_, ?_⟩
      · simp only [List.map_cons, List.sum_cons, h2]; omega
      · intro ch hch
        simp only [List.mem_cons] at hch
        rcases hch with rfl | hch
        · simp only; omega
        · exact h3 ch hch
      · simp only [List.map_cons, List.length_cons, h4, List.range'_succ]
    · simp only [h, if_false]
      refine ⟨by trivial, ?_, by simp, by simp⟩
      simp; omega

/-- C45: with a positive chunk size exactly `num_seqs` sequences (none, if negative) are saved, in files of between 1 and
`chunk_size` sequences, numbered 1, 2, 3, .... -/
theorem C45_saves_all (chunkSize numSeqs : Int) (hc : 0 < chunkSize) :
    ∃ files, simSaveData chunkSize numSeqs = (files, .ok ()) ∧
      (files.map Chunk.size).sum = max numSeqs 0 ∧ (∀ f ∈ files, 0 < f.size ∧ f.size ≤ chunkSize) ∧
      files.map Chunk.counter = List.range' 1 files.length := by
  obtain ⟨h1, h2, h3, h4⟩ := saveLoop_pos chunkSize hc numSeqs 1
  exact ⟨(simSaveData chunkSize numSeqs).1, Prod.ext rfl h1, h2, h3, h4⟩

/-- C45: only the last file can be smaller than `chunk_size`. -/
theorem C45_full_chunks (chunkSize numSeqs : Int) (hc : 0 < chunkSize) :
    ∀ f ∈ (simSaveData chunkSize numSeqs).1.dropLast, f.size = chunkSize := by
  have key : ∀ n : Nat, ∀ left : Int, ∀ k : Nat, left.toNat = n →
      ∀ f ∈ (saveLoop chunkSize left k).1.dropLast, f.size = chunkSize := by
    intro n
    induction n using Nat.strong_induction_on with
    | _ n ih =>
      intro left k hn f hf
      rw [saveLoop] at hf
      by_cases h : left > 0
      · have hr : ¬ min chunkSize left ≤ 0 := by omega
        simp only [h, if_true, hr, if_false] at hf
        by_cases hle : left ≤ chunkSize
        · have e : max (left - min chunkSize left) 0 = 0 := by omega
          rw [e] at hf
          have e0 : saveLoop chunkSize 0 (k + 1) = ([], .ok ()) := by rw [saveLoop]; simp
          rw [e0] at hf
          simp at hf
        · have hm : min chunkSize left = chunkSize := by omega
          have hih := ih (max (left - min chunkSize left) 0).toNat (by omega) (max (left - min chunkSize left) 0) (k + 1) rfl
          cases hrest : (saveLoop chunkSize (max (left - min chunkSize left) 0) (k + 1)).1 with
          | nil => rw [hrest] at hf; simp at hf
          | cons g gs =>
            rw [hrest] at hf hih
            simp only [List.dropLast_cons₂, List.mem_cons] at hf
            rcases hf with rfl | hf
            · exact hm
            · exact hih f hf
      · simp only [h, if_false] at hf
        simp at hf
  exact key _ numSeqs 1 rfl

/-- C45: without a positive chunk size nothing is saved, and there is an exception iff something was to be saved. -/
theorem C45_bad_chunk_size (chunkSize numSeqs : Int) (hc : chunkSize ≤ 0) :
    simSaveData chunkSize numSeqs = ([], if numSeqs > 0 then .error .runtime else .ok ()) := by
  rw [simSaveData, saveLoop]
  by_cases h : numSeqs > 0
  · have : min chunkSize numSeqs ≤ 0 := by omega
    simp only [h, if_true, this]
  · simp only [h, if_false]

/-- Decimal numerals have no dash. -/
theorem dash_not_mem (n : Nat) : '-' ∉ (toString n).toList := by
  rw [Nat.toString_eq_repr, Nat.toList_repr]
  intro h
  have := Nat.isDigit_of_mem_toDigits (by omega) (by omega) h
  simp [Char.isDigit] at this

theorem chunk_lists {p q r s a b c a' b' c' q' r' : List Char} (hq : q' = '-' :: q) (hr : r' = '-' :: r) (ha : '-' ∉ a) (ha' : '-' ∉ a') (hb : '-' ∉ b) (hb' : '-' ∉ b')
    (h : p ++ a ++ q' ++ b ++ r' ++ c ++ s = p ++ a' ++ q' ++ b' ++ r' ++ c' ++ s) :
    a = a' ∧ b = b' ∧ c = c' := by
  subst hq hr
  simp only [List.append_assoc, List.cons_append, List.append_cancel_left_eq] at h
  obtain ⟨h2, h3⟩ := split_first ha ha' h
  rw [List.append_cancel_left_eq] at h3
  obtain ⟨h4, h5⟩ := split_first hb hb' h3
  rw [List.append_cancel_left_eq, List.append_cancel_right_eq] at h5
  exact ⟨h2, h4, h5⟩

/-- C45: different files have different names. -/
theorem C45_names_distinct (t k c t' k' c' : Nat) (h : chunkFile t k c = chunkFile t' k' c') :
    t = t' ∧ k = k' ∧ c = c' := by
  have h1 := congrArg String.toList h
  have e1 : ("-objects=" : String).toList = '-' :: ['o', 'b', 'j', 'e', 'c', 't', 's', '='] := by decide +kernel
  have e2 : ("-p" : String).toList = '-' :: ['p'] := by decide +kernel
  unfold chunkFile at h1
  simp only [String.toList_append] at h1
  obtain ⟨h2, h4, h5⟩ := chunk_lists e1 e2 (dash_not_mem t) (dash_not_mem t') (dash_not_mem k) (dash_not_mem k') h1
  exact ⟨toString_nat_inj (String.toList_injective h2), toString_nat_inj (String.toList_injective h4),
    toString_nat_inj (String.toList_injective h5)⟩

/-- 25 sequences in chunks of 10. -/
example : simSaveData 10 25 = ([⟨1, 10⟩, ⟨2, 10⟩, ⟨3, 5⟩], .ok ()) := by
  simp [simSaveData, saveLoop]

end Verif
