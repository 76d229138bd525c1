import Verif.Model.Viz
import Verif.Props.Affine
/-
C91: the rectangles of `viz_samples`.
-/
namespace Verif

/-- One axis: where the pixels of a frame lie relative to a shape whose rectangle begins at `c`. -/
theorem viz_axis {fp dp : Nat} (hd : 1 < dp) (hle : dp ≤ fp) {z : ℝ} (hz : -1 ≤ z ∧ z ≤ 1) (i : Fin fp) (c x : ℝ) (hc : c = (z + 1) * ((fp : ℝ) - dp) / 2)
    (hx : x = (fp * pixelCoord fp i - z * (fp - dp)) / dp) :
    (c ≤ i → (i : ℝ) ≤ c + dp - 1 → |x| ≤ 1) ∧ ((i : ℝ) < c - 2 ∨ c + dp + 1 < i → 1 + 1 / ((dp : ℝ) - 1) < |x|) := by
  have h1 : (1 : ℝ) < dp := by exact_mod_cast hd
  have h1' : (2 : ℝ) ≤ dp := by exact_mod_cast hd
  have h2 : (dp : ℝ) ≤ fp := by exact_mod_cast hle
  have h3 : (0 : ℝ) < (fp : ℝ) - 1 := by linarith
  have hi0 : (0 : ℝ) ≤ i := Nat.cast_nonneg _
  have hi1 : (i : ℝ) ≤ fp - 1 := by
    have : ((i : Nat) : ℝ) + 1 ≤ fp := by exact_mod_cast i.2
    linarith
  -- the position in steps of the shape
  obtain ⟨q, hq⟩ : ∃ q : ℝ, q = i / ((fp : ℝ) - 1) := ⟨_, rfl⟩
  have hqi : q * ((fp : ℝ) - 1) = i := by rw [hq]; field_simp
  have hq0 : 0 ≤ q := by rw [hq]; positivity
  have hq1 : q ≤ 1 := by rw [hq, div_le_one h3]; exact hi1
  have hdx : dp * x = 2 * (i + q) - 2 * c - dp := by
    rw [hx, hc, pixelCoord, if_neg (by omega), ← hqi, show 2 * (q * ((fp : ℝ) - 1)) / (fp - 1) = 2 * q by field_simp]
    field_simp
    ring
  have hcf : c + dp ≤ fp := by
    rw [hc]
    nlinarith
  constructor
  · intro hl hr
    rw [abs_le]
    constructor
    · nlinarith
    · have : i + q ≤ c + dp := by linarith
      nlinarith
  · have hfrac : 1 / ((dp : ℝ) - 1) ≤ 2 / dp := by
      rw [div_le_div_iff₀ (by linarith) (by linarith)]
      linarith
    have h2d : (dp : ℝ) * (2 / dp) = 2 := by field_simp
    rintro (h | h)
    · have : dp * x < dp * (-(1 + 2 / dp)) := by
        rw [mul_neg, mul_add, h2d]
        linarith
      have := lt_of_mul_lt_mul_left this (by linarith : (0 : ℝ) ≤ dp)
      have hneg := neg_le_abs x
      linarith
    · have : dp * (1 + 2 / dp) < dp * x := by
        rw [mul_add, h2d]
        linarith
      have := lt_of_mul_lt_mul_left this (by linarith : (0 : ℝ) ≤ dp)
      have hle := le_abs_self x
      linarith

theorem vizRects_ok (fp os colors : Nat) (z : Nat → ℝ × ℝ) : ∀ n, n ≤ colors →
    vizRects fp os colors z n = .ok ((List.range n).map fun k => ⟨(vizCorner fp os (z k)).1, (vizCorner fp os (z k)).2, os, os, k⟩)
  | 0, _ => rfl
  | n + 1, h => by
    rw [vizRects, vizRects_ok fp os colors z n (by omega), List.range_succ, List.map_append]
    show (if n < colors then _ else _) = _
    rw [if_pos (by omega)]
    rfl

theorem vizRects_error (fp os colors : Nat) (z : Nat → ℝ × ℝ) : ∀ n, colors < n → vizRects fp os colors z n = .error .index
  | 0, h => absurd h (Nat.not_lt_zero _)
  | n + 1, h => by
    rw [vizRects]
    by_cases hn : colors < n
    · rw [vizRects_error fp os colors z n hn]
      rfl
    · rw [vizRects_ok fp os colors z n (by omega)]
      show (if n < colors then _ else _) = _
      rw [if_neg (by omega)]

theorem mapM_all_ok {α β : Type} (f : α → Except Err β) (g : α → β) : ∀ l : List α, (∀ a ∈ l, f a = .ok (g a)) → l.mapM f = .ok (l.map g)
  | [], _ => rfl
  | a :: l, h => by
    rw [List.mapM_cons, h a (by simp), mapM_all_ok f g l fun b hb => h b (by simp [hb])]
    rfl

/-- C91. `viz_samples` draws one rectangle per object of the first particle, of the shape's size, each in a colour of its own, as long as there are colours for them. -/
theorem C91_rectangles (fp os colors objects : Nat) (h : objects ≤ colors) (ws : Nat → Nat → Nat → Nat → ℝ × ℝ) (B T : Nat) :
    vizSamples fp os colors objects ws B T = .ok ((List.range B).map fun b => (List.range T).map fun t => (List.range objects).map fun k =>
      ⟨((ws 0 b t k).1 + 1) * ((fp : ℝ) - os) / 2, (1 - (ws 0 b t k).2) * ((fp : ℝ) - os) / 2, os, os, k⟩) := by
  refine mapM_all_ok _ _ _ fun b _ => mapM_all_ok _ _ _ fun t _ => ?_
  rw [vizRects_ok fp os colors _ objects h]
  refine congrArg Except.ok (List.map_congr_left fun k _ => ?_)
  simp only [vizCorner, Rect.mk.injEq, true_and, and_true]
  ring

/-- C91. With more objects than colours, seven by default, it raises IndexError. -/
theorem C91_colors (fp os colors objects : Nat) (h : colors < objects) (ws : Nat → Nat → Nat → Nat → ℝ × ℝ) (B T : Nat) (hB : 0 < B) (hT : 0 < T) :
    vizSamples fp os colors objects ws B T = .error .index := by
  obtain ⟨B, rfl⟩ : ∃ B', B = B' + 1 := ⟨B - 1, by omega⟩
  obtain ⟨T, rfl⟩ : ∃ T', T = T' + 1 := ⟨T - 1, by omega⟩
  have hT : ∀ b, ((List.range (T + 1)).mapM fun t => vizRects fp os colors (ws 0 b t) objects) = .error .index := by
    intro b
    rw [List.range_succ_eq_map, List.mapM_cons, vizRects_error fp os colors _ objects h]
    rfl
  unfold vizSamples
  rw [List.range_succ_eq_map (n := B), List.mapM_cons, hT]
  rfl

/-- C91. With the default colours the function returns if and only if there are at most seven objects. -/
theorem C91_default (fp os objects : Nat) (ws : Nat → Nat → Nat → Nat → ℝ × ℝ) (B T : Nat) (hB : 0 < B) (hT : 0 < T) :
    (∃ r, vizSamples fp os vizColors objects ws B T = .ok r) ↔ objects ≤ 7 := by
  constructor
  · rintro ⟨r, hr⟩
    by_contra h
    rw [C91_colors fp os vizColors objects (not_le.1 h) ws B T hB hT] at hr
    cases hr
  · exact fun h => ⟨_, C91_rectangles fp os vizColors objects h ws B T⟩

/-- C91. The rectangle lies where `digit_to_frame` pastes the shape: a pixel within it shows a pixel of the shape, and more than two pixels outside of it there is
nothing of the shape. -/
theorem C91_around_shape {S B T K : Type} (fp dp : Nat) (hd : 1 < dp) (hle : dp ≤ fp) (digit : S → B → K → Img dp) (z : S → B → T → K → ℝ × ℝ) (s : S) (b : B) (t : T)
    (k : K) (hz : |(z s b t k).1| ≤ 1 ∧ |(z s b t k).2| ≤ 1) (r : Rect) (hr : (r.x, r.y) = vizCorner fp dp (z s b t k)) (hw : r.w = dp ∧ r.h = dp) (row col : Fin fp) :
    ((r.x ≤ col ∧ (col : ℝ) + 1 ≤ r.x + r.w) → (r.y ≤ row ∧ (row : ℝ) + 1 ≤ r.y + r.h) → ∃ i j, digitToFrame fp dp digit z s b t k row col = digit s b k i j) ∧
      ((col : ℝ) < r.x - 2 ∨ r.x + r.w + 2 < col ∨ (row : ℝ) < r.y - 2 ∨ r.y + r.h + 2 < row → digitToFrame fp dp digit z s b t k row col = 0) := by
  obtain ⟨hx, hy⟩ := Prod.mk.inj hr
  obtain ⟨p1, p2⟩ := C43_paste fp dp hd digit z s b t k row col _ _ rfl rfl
  obtain ⟨a1, a2⟩ := viz_axis hd hle (abs_le.1 hz.1) col r.x _ hx rfl
  obtain ⟨b1, b2⟩ := viz_axis (z := -(z s b t k).2) hd hle (abs_le.1 (by rw [abs_neg]; exact hz.2)) row r.y
    ((fp * pixelCoord fp row + (z s b t k).2 * (fp - dp)) / dp) (by rw [hy]; ring) (by ring)
  rw [hw.1, hw.2]
  constructor
  · rintro ⟨h1, h2⟩ ⟨h3, h4⟩
    obtain ⟨i, j, h, -⟩ := p1 (a1 h1 (by linarith)) (b1 h3 (by linarith))
    exact ⟨i, j, h⟩
  · rintro (h | h | h | h)
    · exact p2 (.inl (a2 (.inl h)))
    · exact p2 (.inl (a2 (.inr (by linarith))))
    · exact p2 (.inr (b2 (.inl h)))
    · exact p2 (.inr (b2 (.inr (by linarith))))

/-- In a frame of 96 pixels a shape of 28 pixels in the middle has its rectangle at pixel 34. -/
example : vizSamples 96 28 vizColors 1 (fun _ _ _ _ => (0, 0)) 1 1 = .ok [[[⟨34, 34, 28, 28, 0⟩]]] := by
  rw [C91_rectangles 96 28 vizColors 1 (by decide)]
  norm_num [List.range_succ]

end Verif
