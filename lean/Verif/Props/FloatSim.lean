import Mathlib.Analysis.SpecialFunctions.Trigonometric.Bounds
import Verif.Model.FloatSim
import Verif.Proofs.Ieee
import Verif.Props.Simulator
/-
C105: the simulator's trajectories in float32.
-/
namespace Verif

/-- The triangle wave is the distance to the lower turning points, minus one. -/
theorem fold_le (y : ℝ) (k : ℤ) : Spec.fold y + 1 ≤ |y + 1 - 4 * k| := by
  unfold Spec.fold
  have h1 := Int.floor_le ((y + 1) / 4)
  have h2 := Int.lt_floor_add_one ((y + 1) / 4)
  set f := ⌊(y + 1) / 4⌋ with hf
  rcases le_or_gt k f with h | h
  · have hk : (k : ℝ) ≤ f := by exact_mod_cast h
    rcases abs_cases (y + 1 - 4 * (f : ℝ) - 2) with ⟨e, _⟩ | ⟨e, _⟩ <;> rcases abs_cases (y + 1 - 4 * (k : ℝ)) with ⟨e', _⟩ | ⟨e', _⟩ <;> linarith
  · have hk : (f : ℝ) + 1 ≤ k := by exact_mod_cast h
    rcases abs_cases (y + 1 - 4 * (f : ℝ) - 2) with ⟨e, _⟩ | ⟨e, _⟩ <;> rcases abs_cases (y + 1 - 4 * (k : ℝ)) with ⟨e', _⟩ | ⟨e', _⟩ <;> linarith

theorem fold_attained (y : ℝ) : ∃ k : ℤ, Spec.fold y + 1 = |y + 1 - 4 * k| := by
  unfold Spec.fold
  have h1 := Int.floor_le ((y + 1) / 4)
  have h2 := Int.lt_floor_add_one ((y + 1) / 4)
  set f := ⌊(y + 1) / 4⌋ with hf
  rcases le_total 0 (y + 1 - 4 * (f : ℝ) - 2) with h | h
  · refine ⟨f + 1, ?_⟩
    rw [abs_of_nonneg h, abs_of_nonpos (by push_cast; linarith)]
    push_cast
    ring
  · refine ⟨f, ?_⟩
    rw [abs_of_nonpos h, abs_of_nonneg (by linarith)]
    ring

theorem fold_lipschitz (a b : ℝ) : |Spec.fold a - Spec.fold b| ≤ |a - b| := by
  have key : ∀ a b : ℝ, Spec.fold a - Spec.fold b ≤ |a - b| := fun a b => by
    obtain ⟨k, hk⟩ := fold_attained b
    have h := fold_le a k
    have ht : |a + 1 - 4 * (k : ℝ)| ≤ |a - b| + |b + 1 - 4 * (k : ℝ)| := by
      have := abs_add_le (a - b) (b + 1 - 4 * (k : ℝ))
      rwa [show a - b + (b + 1 - 4 * (k : ℝ)) = a + 1 - 4 * k by ring] at this
    linarith
  exact abs_le.2 ⟨by have := key b a; rw [abs_sub_comm] at this; linarith, key a b⟩

namespace Fp

theorem round32_error (k : Nat) {x : ℝ} (hx : |x| ≤ 2 ^ k) : |b32.round x - x| ≤ 2 ^ k / 2 ^ 25 := by
  have := round_error b32 (by decide) hx (by simp only [b32]; omega)
  refine this.trans (le_of_eq ?_)
  simp only [b32]
  ring

theorem round32_int (k : ℤ) (hk : |k| ≤ 2 ^ 24) : b32.round k = k := round_of_rep b32 (by decide) ⟨k, 0, by decide, hk, by simp⟩

theorem round32_between {x : ℝ} {a b : ℤ} (ha : |a| ≤ 2 ^ 24) (hb : |b| ≤ 2 ^ 24) (h0 : (a : ℝ) ≤ x) (h1 : x ≤ b) : (a : ℝ) ≤ b32.round x ∧ b32.round x ≤ b := by
  have m := round_mono b32 (by decide)
  exact ⟨by rw [← round32_int a ha]; exact m h0, by rw [← round32_int b hb]; exact m h1⟩

/-- A bounce in float32: in the box, and the reflected position up to rounding. -/
theorem bounce_close {p v : ℝ} (h0 : -3 ≤ p) (h1 : p ≤ 3) :
    (-1 ≤ (bounce p v).1 ∧ (bounce p v).1 ≤ 1) ∧
      (((bounce p v).1 = p ∧ (bounce p v).2 = v) ∨ ((bounce p v).2 = -v ∧ ∃ k : ℤ, |(bounce p v).1 - (2 - p + 4 * k)| ≤ 1 / 2 ^ 24 + 1 / 2 ^ 25)) := by
  unfold bounce
  by_cases h : p < -1
  · have b1 := round32_between (x := -1 - p) (a := 0) (b := 2) (by decide) (by decide) (by push_cast; linarith) (by push_cast; linarith)
    push_cast at b1
    have e1 := abs_le.1 (round32_error 1 (x := -1 - p) (abs_le.2 ⟨by linarith, by linarith⟩))
    simp only [h, if_true, abs_of_nonneg b1.1]
    have b2 := round32_between (x := -1 + b32.round (-1 - p)) (a := -1) (b := 1) (by decide) (by decide) (by push_cast; linarith) (by push_cast; linarith)
    push_cast at b2
    have e2 := abs_le.1 (round32_error 0 (x := -1 + b32.round (-1 - p)) (abs_le.2 ⟨by linarith, by linarith⟩))
    rw [if_neg (by linarith)]
    refine ⟨b2, Or.inr ⟨by trivial, -1, abs_le.2 ⟨?_, ?_⟩⟩⟩ <;> push_cast <;> linarith
  · simp only [h, if_false]
    by_cases h' : p > 1
    · have b1 := round32_between (x := p - 1) (a := 0) (b := 2) (by decide) (by decide) (by push_cast; linarith) (by push_cast; linarith)
      push_cast at b1
      have e1 := abs_le.1 (round32_error 1 (x := p - 1) (abs_le.2 ⟨by linarith, by linarith⟩))
      simp only [h', if_true, abs_of_nonneg b1.1]
      have b2 := round32_between (x := 1 - b32.round (p - 1)) (a := -1) (b := 1) (by decide) (by decide) (by push_cast; linarith) (by push_cast; linarith)
      push_cast at b2
      have e2 := abs_le.1 (round32_error 0 (x := 1 - b32.round (p - 1)) (abs_le.2 ⟨by linarith, by linarith⟩))
      refine ⟨b2, Or.inr ⟨by trivial, 0, abs_le.2 ⟨?_, ?_⟩⟩⟩ <;> push_cast <;> linarith
    · simp only [h', if_false]
      exact ⟨⟨by linarith, by linarith⟩, Or.inl ⟨by trivial, by trivial⟩⟩

/-- The invariant of one coordinate: it is where a free flight would be that has strayed by at most `c`. -/
def Near (c y v0 x v : ℝ) : Prop := ∃ y', |y' - y| ≤ c ∧ Inv y' v0 x v

theorem Near.step {c y v0 x v : ℝ} (hv : |v0| ≤ 2) (h : Near c y v0 x v) :
    Near (c + 1 / 2 ^ 22) (y + v0) v0 (bounce (b32.round (x + v)) v).1 (bounce (b32.round (x + v)) v).2 := by
  obtain ⟨y', hy, ⟨h0, h1⟩, k, h⟩ := h
  have hv' : |v| ≤ 2 := by rcases h with ⟨_, rfl⟩ | ⟨_, rfl⟩ <;> simpa using hv
  have hv'' := abs_le.1 hv'
  have bp := round32_between (x := x + v) (a := -3) (b := 3) (by decide) (by decide) (by push_cast; linarith) (by push_cast; linarith)
  push_cast at bp
  have ep := abs_le.1 (round32_error 2 (x := x + v) (abs_le.2 ⟨by linarith, by linarith⟩))
  obtain ⟨hb, hc⟩ := bounce_close (v := v) bp.1 bp.2
  generalize b32.round (x + v) = p at *
  generalize bounce p v = r at *
  have hy' := abs_le.1 hy
  rcases h with ⟨hx, hw⟩ | ⟨hx, hw⟩
  · rcases hc with ⟨e1, e2⟩ | ⟨e2, j, e1⟩
    · exact ⟨r.1 - 4 * k, abs_le.2 ⟨by rw [e1]; linarith, by rw [e1]; linarith⟩, hb, k, Or.inl ⟨by ring, by rw [e2, hw]⟩⟩
    · have e1' := abs_le.1 e1
      exact ⟨2 - r.1 + 4 * (j - k : ℤ), abs_le.2 ⟨by push_cast; linarith, by push_cast; linarith⟩, hb, j - k, Or.inr ⟨by push_cast; ring, by rw [e2, hw]⟩⟩
  · rcases hc with ⟨e1, e2⟩ | ⟨e2, j, e1⟩
    · exact ⟨2 - r.1 + 4 * k, abs_le.2 ⟨by rw [e1]; linarith, by rw [e1]; linarith⟩, hb, k, Or.inr ⟨by ring, by rw [e2, hw]⟩⟩
    · have e1' := abs_le.1 e1
      exact ⟨r.1 - 4 * (j - k : ℤ), abs_le.2 ⟨by push_cast; linarith, by push_cast; linarith⟩, hb, j - k, Or.inl ⟨by push_cast; ring, by rw [e2, hw, neg_neg]⟩⟩

theorem Near.fold {c y v0 x v : ℝ} (h : Near c y v0 x v) : |x - Spec.fold y| ≤ c := by
  obtain ⟨y', hy, h⟩ := h
  rw [h.fold]
  exact (fold_lipschitz _ _).trans hy

theorem Near.box {c y v0 x v : ℝ} (h : Near c y v0 x v) : -1 ≤ x ∧ x ≤ 1 := by
  obtain ⟨y', hy, h⟩ := h
  exact h.1

theorem Near.signs {c y v0 x v : ℝ} (h : Near c y v0 x v) : v = v0 ∨ v = -v0 := by
  obtain ⟨y', hy, h⟩ := h
  exact h.abs

theorem Near.start {x v : ℝ} (h : -1 ≤ x ∧ x ≤ 1) : Near ((0 : ℕ) / 2 ^ 22) (x + (0 : ℕ) * v) v x v :=
  ⟨x, by simp, h, 0, Or.inl ⟨by simp, rfl⟩⟩

theorem Near.next {n : Nat} {x0 v0 x v : ℝ} (hv : |v0| ≤ 2) (h : Near ((n : ℝ) / 2 ^ 22) (x0 + n * v0) v0 x v) :
    Near (((n + 1 : ℕ) : ℝ) / 2 ^ 22) (x0 + ((n + 1 : ℕ) : ℝ) * v0) v0 (bounce (b32.round (x + v)) v).1 (bounce (b32.round (x + v)) v).2 := by
  have := h.step hv
  rwa [show (n : ℝ) / 2 ^ 22 + 1 / 2 ^ 22 = ((n + 1 : ℕ) : ℝ) / 2 ^ 22 by push_cast; ring,
    show x0 + (n : ℝ) * v0 + v0 = x0 + ((n + 1 : ℕ) : ℝ) * v0 by push_cast; ring] at this

/-- After `n` iterations in float32. -/
theorem traj_near (x0 v0 : ℝ × ℝ) (hx : (-1 ≤ x0.1 ∧ x0.1 ≤ 1) ∧ (-1 ≤ x0.2 ∧ x0.2 ≤ 1)) (hv : |v0.1| ≤ 2 ∧ |v0.2| ≤ 2) (n : Nat) :
    let r := (List.range n).foldl trajStep (Function.update (fun _ => 0) 0 x0, Function.update (fun _ => 0) 0 v0)
    (∀ t ≤ n, (-1 ≤ (r.1 t).1 ∧ (r.1 t).1 ≤ 1) ∧ (-1 ≤ (r.1 t).2 ∧ (r.1 t).2 ≤ 1) ∧
      |(r.1 t).1 - Spec.fold (x0.1 + t * v0.1)| ≤ t / 2 ^ 22 ∧ |(r.1 t).2 - Spec.fold (x0.2 + t * v0.2)| ≤ t / 2 ^ 22 ∧
      ((r.2 t).1 = v0.1 ∨ (r.2 t).1 = -v0.1) ∧ ((r.2 t).2 = v0.2 ∨ (r.2 t).2 = -v0.2)) ∧
    Near (n / 2 ^ 22) (x0.1 + n * v0.1) v0.1 (r.1 n).1 (r.2 n).1 ∧ Near (n / 2 ^ 22) (x0.2 + n * v0.2) v0.2 (r.1 n).2 (r.2 n).2 := by
  induction n with
  | zero =>
    have i1 := Near.start (v := v0.1) hx.1
    have i2 := Near.start (v := v0.2) hx.2
    refine ⟨?_, by simpa using i1, by simpa using i2⟩
    intro t ht
    obtain rfl : t = 0 := by omega
    simp only [List.range_zero, List.foldl_nil, Function.update_self]
    exact ⟨hx.1, hx.2, i1.fold, i2.fold, Or.inl (by trivial), Or.inl (by trivial)⟩
  | succ n ih =>
    simp only [List.range_succ, List.foldl_append, List.foldl_cons, List.foldl_nil] at ih ⊢
    generalize (List.range n).foldl trajStep _ = r at ih
    obtain ⟨ha, i1, i2⟩ := ih
    have j1 := i1.next hv.1
    have j2 := i2.next hv.2
    refine ⟨?_, by simpa [trajStep] using j1, by simpa [trajStep] using j2⟩
    intro t ht
    by_cases h1 : t = n + 1
    · subst h1
      simp only [trajStep, Function.update_self]
      exact ⟨j1.box, j2.box, j1.fold, j2.fold, j1.signs, j2.signs⟩
    · by_cases h2 : t = n
      · subst h2
        have hn : t ≠ t + 1 := by omega
        simp only [trajStep, Function.update_of_ne hn, Function.update_self]
        obtain ⟨a, b, c, d, _, _⟩ := ha t (by omega)
        exact ⟨a, b, c, d, j1.signs, j2.signs⟩
      · simp only [trajStep, Function.update_of_ne h1, Function.update_of_ne h2]
        exact ha t (by omega)

/-- One component of the first velocity. -/
theorem velocity_close {c dv : ℝ} (hc : |c| ≤ 1) (hd : |dv| ≤ 2) :
    |b32.round (b32.round c * b32.round dv)| ≤ 2 ∧ |b32.round (b32.round c * b32.round dv) - c * dv| ≤ 1 / 2 ^ 22 := by
  have hc' := abs_le.1 hc
  have hd' := abs_le.1 hd
  have bc := round32_between (x := c) (a := -1) (b := 1) (by decide) (by decide) (by push_cast; linarith) (by push_cast; linarith)
  have bd := round32_between (x := dv) (a := -2) (b := 2) (by decide) (by decide) (by push_cast; linarith) (by push_cast; linarith)
  push_cast at bc bd
  have ec := round32_error 0 (x := c) (by simpa using hc)
  have ed := round32_error 1 (x := dv) (by simpa using hd)
  have ac : |b32.round c| ≤ 1 := abs_le.2 bc
  have ad : |b32.round dv| ≤ 2 := abs_le.2 bd
  have hp : |b32.round c * b32.round dv| ≤ 2 := by
    rw [abs_mul]
    nlinarith [abs_nonneg (b32.round c), abs_nonneg (b32.round dv)]
  have hp' := abs_le.1 hp
  have bp := round32_between (x := b32.round c * b32.round dv) (a := -2) (b := 2) (by decide) (by decide) (by push_cast; linarith) (by push_cast; linarith)
  push_cast at bp
  have ep := abs_le.1 (round32_error 1 (x := b32.round c * b32.round dv) (by simpa using hp))
  refine ⟨abs_le.2 bp, ?_⟩
  have h1 : |b32.round c * b32.round dv - c * dv| ≤ 1 * (2 ^ 1 / 2 ^ 25) + 2 ^ 0 / 2 ^ 25 * 2 := by
    rw [show b32.round c * b32.round dv - c * dv = b32.round c * (b32.round dv - dv) + (b32.round c - c) * dv by ring]
    refine (abs_add_le _ _).trans (add_le_add ?_ ?_)
    · rw [abs_mul]
      exact mul_le_mul ac ed (abs_nonneg _) (by norm_num)
    · rw [abs_mul]
      exact mul_le_mul ec hd (abs_nonneg _) (by positivity)
  have h1' := abs_le.1 h1
  exact abs_le.2 ⟨by linarith, by linarith⟩

section
variable (timesteps : Nat) (dv : ℝ) (init : ℝ × ℝ) (u : ℝ)

/-- C105: in float32 every position is in the box, the components of the velocity only ever change their sign, and every position is, up to an error of 2^-22 for each
step, where the free flight with that velocity is after reflection at the walls. -/
theorem C105_box (hT : 0 < timesteps) (hx : (-1 ≤ init.1 ∧ init.1 ≤ 1) ∧ (-1 ≤ init.2 ∧ init.2 ≤ 1)) (hv : |dv| ≤ 2) :
    ∃ X V, simTrajectory timesteps dv init u = .ok (X, V) ∧ X 0 = init ∧ ∀ t < timesteps,
      (-1 ≤ (X t).1 ∧ (X t).1 ≤ 1) ∧ (-1 ≤ (X t).2 ∧ (X t).2 ≤ 1) ∧
        |(V t).1| = |(firstVelocity dv u).1| ∧ |(V t).2| = |(firstVelocity dv u).2| ∧
        |(X t).1 - Spec.fold (init.1 + t * (firstVelocity dv u).1)| ≤ t / 2 ^ 22 ∧ |(X t).2 - Spec.fold (init.2 + t * (firstVelocity dv u).2)| ≤ t / 2 ^ 22 := by
  have h1 := velocity_close (Real.abs_cos_le_one (angle u)) hv
  have h2 := velocity_close (Real.abs_sin_le_one (angle u)) hv
  obtain ⟨ha, -, -⟩ := traj_near init (firstVelocity dv u) hx ⟨h1.1, h2.1⟩ (timesteps - 1)
  refine ⟨_, _, by unfold simTrajectory; rw [if_neg (by omega)], ?_, fun t ht => ?_⟩
  · have : ∀ n, ((List.range n).foldl trajStep (Function.update (fun _ => 0) 0 init, Function.update (fun _ => 0) 0 (firstVelocity dv u))).1 0 = init := by
      intro n
      induction n with
      | zero => simp
      | succ n ih =>
        rw [List.range_succ, List.foldl_append, List.foldl_cons, List.foldl_nil]
        simp only [trajStep]
        rw [Function.update_of_ne (by omega), ih]
    exact this _
  · obtain ⟨a, b, c, d, e, f⟩ := ha t (by omega)
    exact ⟨a, b, abs_of_signs e (Or.inl rfl), abs_of_signs f (Or.inl rfl), c, d⟩

/-- The angle, for a draw in [0, 1]. -/
theorem angle_close (h0 : 0 ≤ u) (h1 : u ≤ 1) : |angle u - u * 2 * Real.pi| ≤ 1 / 2 ^ 20 := by
  have p1 := Real.two_le_pi
  have p2 := Real.pi_le_four
  have ba := round32_between (x := u * 2) (a := 0) (b := 2) (by decide) (by decide) (by push_cast; linarith) (by push_cast; linarith)
  have bp := round32_between (x := Real.pi) (a := 2) (b := 4) (by decide) (by decide) (by push_cast; linarith) (by push_cast; linarith)
  push_cast at ba bp
  have ea := round32_error 1 (x := u * 2) (abs_le.2 ⟨by linarith, by linarith⟩)
  have ep := round32_error 2 (x := Real.pi) (abs_le.2 ⟨by linarith, by linarith⟩)
  have hp : |b32.round (u * 2) * b32.round Real.pi| ≤ 2 ^ 3 := by
    rw [abs_mul, abs_of_nonneg ba.1, abs_of_nonneg (by linarith)]
    nlinarith
  have er := abs_le.1 (round32_error 3 hp)
  have h : |b32.round (u * 2) * b32.round Real.pi - u * 2 * Real.pi| ≤ 2 * (2 ^ 2 / 2 ^ 25) + 2 ^ 1 / 2 ^ 25 * 4 := by
    rw [show b32.round (u * 2) * b32.round Real.pi - u * 2 * Real.pi =
      b32.round (u * 2) * (b32.round Real.pi - Real.pi) + (b32.round (u * 2) - u * 2) * Real.pi by ring]
    refine (abs_add_le _ _).trans (add_le_add ?_ ?_)
    · rw [abs_mul, abs_of_nonneg ba.1]
      exact mul_le_mul ba.2 ep (abs_nonneg _) (by norm_num)
    · rw [abs_mul, abs_of_nonneg Real.pi_pos.le]
      exact mul_le_mul ea p2 Real.pi_pos.le (by positivity)
  have h' := abs_le.1 h
  unfold angle
  exact abs_le.2 ⟨by linarith, by linarith⟩

/-- The first velocity, for a draw in [0, 1]. -/
theorem firstVelocity_close (h0 : 0 ≤ u) (h1 : u ≤ 1) (hv : |dv| ≤ 2) :
    |(firstVelocity dv u).1 - Real.cos (u * 2 * Real.pi) * dv| ≤ 1 / 2 ^ 19 + 1 / 2 ^ 22 ∧ |(firstVelocity dv u).2 - Real.sin (u * 2 * Real.pi) * dv| ≤ 1 / 2 ^ 19 + 1 / 2 ^ 22 := by
  have ha := angle_close u h0 h1
  have key : ∀ w c c' : ℝ, |w - c * dv| ≤ 1 / 2 ^ 22 → |c - c'| ≤ |angle u - u * 2 * Real.pi| → |w - c' * dv| ≤ 1 / 2 ^ 19 + 1 / 2 ^ 22 := by
    intro w c c' a b
    have e : |c * dv - c' * dv| ≤ 1 / 2 ^ 20 * 2 := by
      rw [← sub_mul, abs_mul]
      exact mul_le_mul (b.trans ha) hv (abs_nonneg _) (by positivity)
    have := abs_sub_le w (c * dv) (c' * dv)
    linarith
  exact ⟨key _ _ _ (velocity_close (Real.abs_cos_le_one (angle u)) hv).2 (Real.abs_cos_sub_cos_le _ _),
    key _ _ _ (velocity_close (Real.abs_sin_le_one (angle u)) hv).2 (Real.abs_sin_sub_sin_le _ _)⟩

/-- C105: the trajectory in float32 and the exact one (C44) for the same start and draw differ by at most 2^-18 for each step. -/
theorem C105_exact (hT : 0 < timesteps) (hx : (-1 ≤ init.1 ∧ init.1 ≤ 1) ∧ (-1 ≤ init.2 ∧ init.2 ≤ 1)) (hv : |dv| ≤ 2) (h0 : 0 ≤ u) (h1 : u ≤ 1) :
    ∃ X V X' V', simTrajectory timesteps dv init u = .ok (X, V) ∧ Verif.simTrajectory timesteps dv init u = .ok (X', V') ∧
      ∀ t < timesteps, |(X t).1 - (X' t).1| ≤ t / 2 ^ 18 ∧ |(X t).2 - (X' t).2| ≤ t / 2 ^ 18 := by
  obtain ⟨X, V, e, -, h⟩ := C105_box timesteps dv init u hT hx hv
  obtain ⟨X', V', e', h'⟩ := C44_reflection timesteps dv init u hT hx hv
  refine ⟨X, V, X', V', e, e', fun t ht => ?_⟩
  obtain ⟨-, -, -, -, c1, c2⟩ := h t ht
  have ht0 : (0 : ℝ) ≤ t := Nat.cast_nonneg t
  have key : ∀ x0 x w c : ℝ, |x - Spec.fold (x0 + t * w)| ≤ t / 2 ^ 22 → |w - c| ≤ 1 / 2 ^ 19 + 1 / 2 ^ 22 → |x - Spec.fold (x0 + t * c)| ≤ t / 2 ^ 18 := by
    intro x0 x w c a b
    have l := fold_lipschitz (x0 + t * w) (x0 + t * c)
    rw [show x0 + t * w - (x0 + t * c) = t * (w - c) by ring, abs_mul, abs_of_nonneg ht0] at l
    have l' : (t : ℝ) * |w - c| ≤ t * (1 / 2 ^ 19 + 1 / 2 ^ 22) := mul_le_mul_of_nonneg_left b ht0
    have := abs_sub_le x (Spec.fold (x0 + t * w)) (Spec.fold (x0 + t * c))
    linarith
  have hw := firstVelocity_close dv u h0 h1 hv
  rw [h' t ht]
  exact ⟨key _ _ _ _ c1 hw.1, key _ _ _ _ c2 hw.2⟩

end

/-- The simulator's defaults: ten steps, `dv = 0.1`. -/
example (u : ℝ) : ∃ X V, simTrajectory 10 0.1 (1, -1 / 2) u = .ok (X, V) ∧ (X 9).1 ≤ 1 := by
  obtain ⟨X, V, e, -, h⟩ := C105_box 10 0.1 (1, -1 / 2) u (by decide) (by norm_num) (by rw [abs_of_nonneg] <;> norm_num)
  exact ⟨X, V, e, (h 9 (by decide)).1.2⟩

end Fp
end Verif
