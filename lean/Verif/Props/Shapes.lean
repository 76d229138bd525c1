import Mathlib.Algebra.Group.Nat.Defs
import Mathlib.Algebra.Group.Int.Defs
import Mathlib.Data.List.Forall2
import Verif.Model.Shapes
/-
C26, C47: shapes of resampled weights.
-/
namespace Verif

theorem mapM_pick (rvs rvs' : List RVShape) (aidx : Shape)
    (h : rvs.mapM (fun rv => do
      let v ← Shape.pick rv.1 aidx
      let lp ← Shape.pick rv.2 aidx
      return (v, lp)) = (.ok rvs' : Except Err _)) :
    rvs' = rvs ∧ ∀ rv ∈ rvs, rv.1.take aidx.length = aidx ∧ rv.2.take aidx.length = aidx := by
  induction rvs generalizing rvs' with
  | nil => cases h; simp
  | cons rv rvs ih =>
    rw [List.mapM_cons] at h
    by_cases h1 : rv.1.take aidx.length = aidx
    · by_cases h2 : rv.2.take aidx.length = aidx
      · simp only [Shape.pick, if_pos h1, if_pos h2] at h
        cases hr : rvs.mapM (fun rv => do
          let v ← Shape.pick rv.1 aidx
          let lp ← Shape.pick rv.2 aidx
          return (v, lp)) with
        | error e => simp only [Shape.pick] at hr; rw [hr] at h; cases h
        | ok r =>
          obtain ⟨rfl, h3⟩ := ih r hr
          simp only [Shape.pick] at hr
          rw [hr] at h
          cases h
          exact ⟨rfl, by simpa using ⟨⟨h1, h2⟩, fun a b hab => h3 (a, b) hab⟩⟩
      · simp only [Shape.pick, if_pos h1, if_neg h2] at h; cases h
    · simp only [Shape.pick, if_neg h1] at h; cases h

theorem mapM_pick_total (rvs : List RVShape) (aidx : Shape)
    (h : ∀ rv ∈ rvs, rv.1.take aidx.length = aidx ∧ rv.2.take aidx.length = aidx) :
    rvs.mapM (fun rv => do
      let v ← Shape.pick rv.1 aidx
      let lp ← Shape.pick rv.2 aidx
      return (v, lp)) = (.ok rvs : Except Err _) := by
  induction rvs with
  | nil => rfl
  | cons rv rvs ih =>
    rw [List.mapM_cons, ih fun rv' h' => h rv' (List.mem_cons_of_mem _ h')]
    obtain ⟨h1, h2⟩ := h rv List.mem_cons_self
    simp only [Shape.pick, if_pos h1, if_pos h2]
    rfl

theorem systematic_split (lw : Shape) (bd : Option Int) (rvs : List RVShape) (r : List RVShape × Shape)
    (h : Shape.systematic lw bd rvs = .ok r) :
    ∃ aidx, (bd = none → lw.length = 1) ∧ Shape.ancestors (if bd.isNone then lw ++ [1] else lw) (bd.getD 1) = .ok aidx ∧
      r = (rvs, if bd.isNone then lw ++ [1] else lw) ∧ ∀ rv ∈ rvs,
        rv.1.take (if bd.isNone then aidx.take 1 else aidx).length = (if bd.isNone then aidx.take 1 else aidx) ∧
        rv.2.take (if bd.isNone then aidx.take 1 else aidx).length = (if bd.isNone then aidx.take 1 else aidx) := by
  unfold Shape.systematic at h
  have go : ∀ lw' : Shape, (do
      let aidx ← Shape.ancestors lw' (bd.getD 1)
      let aidx := if bd.isNone then aidx.take 1 else aidx
      let rvs' ← rvs.mapM fun rv => do
        let v ← Shape.pick rv.1 aidx
        let lp ← Shape.pick rv.2 aidx
        return (v, lp)
      return (rvs', lw') : Except Err (List RVShape × Shape)) = .ok r →
      ∃ aidx, Shape.ancestors lw' (bd.getD 1) = .ok aidx ∧ r = (rvs, lw') ∧ ∀ rv ∈ rvs,
        rv.1.take (if bd.isNone then aidx.take 1 else aidx).length = (if bd.isNone then aidx.take 1 else aidx) ∧
        rv.2.take (if bd.isNone then aidx.take 1 else aidx).length = (if bd.isNone then aidx.take 1 else aidx) := by
    intro lw' h
    cases ha : Shape.ancestors lw' (bd.getD 1) with
    | error e => rw [ha] at h; cases h
    | ok aidx =>
      rw [ha] at h
      cases hm : rvs.mapM (fun rv => do
          let v ← Shape.pick rv.1 (if bd.isNone then aidx.take 1 else aidx)
          let lp ← Shape.pick rv.2 (if bd.isNone then aidx.take 1 else aidx)
          return (v, lp)) with
      | error e => simp only [bind, Except.bind] at h hm; rw [hm] at h; cases h
      | ok rvs' =>
        obtain ⟨rfl, h2⟩ := mapM_pick _ _ _ hm
        simp only [bind, Except.bind] at h hm
        rw [hm] at h
        cases h
        exact ⟨aidx, rfl, rfl, h2⟩
  cases bd with
  | none =>
    by_cases hl : lw.length = 1
    · simp only [if_pos hl] at h
      obtain ⟨aidx, h1, h2, h3⟩ := go _ h
      exact ⟨aidx, fun _ => hl, h1, h2, h3⟩
    · simp only [if_neg hl] at h; cases h
  | some d =>
    obtain ⟨aidx, h1, h2, h3⟩ := go _ h
    exact ⟨aidx, by simp, h1, h2, h3⟩

/-- C26. With a batch dimension the weight comes back with the shape it had, for every shape that does not raise. -/
theorem C26_batch (lw : Shape) (d : Int) (rvs rvs' : List RVShape) (lw' : Shape)
    (h : Shape.systematic lw (some d) rvs = .ok (rvs', lw')) : lw' = lw ∧ rvs' = rvs := by
  obtain ⟨aidx, -, -, h, -⟩ := systematic_split _ _ _ _ h
  simp at h
  exact ⟨h.2, h.1⟩

theorem ancestors_2d (n b : Nat) (d : Int) (hd : d = 1 ∨ d = -1) (hn : 0 < n) : Shape.ancestors [n, b] d = .ok [n, b] := by
  have h0 : Shape.dim [n, b] 0 = .ok n := rfl
  have h1 : Shape.dim [n, b] d = .ok b := by rcases hd with rfl | rfl <;> rfl
  unfold Shape.ancestors
  rw [h0, h1]
  have hs : Shape.searchsorted [b, n] [b, n] = .ok [b, n] := by
    unfold Shape.searchsorted
    rw [if_pos (Or.inr ⟨rfl, rfl⟩)]
  have hne : n ≠ 0 := by omega
  simp only [bind, Except.bind, if_neg hne]
  rw [show Shape.swapEnds [n, b] = [b, n] from rfl, hs]
  rfl

/-- C26. With weights of shape `(n, b)`, batch dimension 1 and variables that start with these dimensions, nothing raises
and all shapes are kept. -/
theorem C26_batch_returns (n b : Nat) (hn : 0 < n) (d : Int) (hd : d = 1 ∨ d = -1) (rvs : List RVShape)
    (h : ∀ rv ∈ rvs, [n, b] <+: rv.1 ∧ [n, b] <+: rv.2) : Shape.systematic [n, b] (some d) rvs = .ok (rvs, [n, b]) := by
  unfold Shape.systematic
  simp only [bind, Except.bind, Option.getD_some, ancestors_2d n b d hd hn]
  have := mapM_pick_total rvs [n, b] fun rv hrv =>
    ⟨List.prefix_iff_eq_take.1 (h rv hrv).1 |>.symm, List.prefix_iff_eq_take.1 (h rv hrv).2 |>.symm⟩
  simp only [bind, Except.bind] at this
  simp only [Option.isNone_some, Bool.false_eq_true, if_false]
  rw [this]
  rfl

/-- C26. Without a batch dimension: exactly the `n`-vectors (`n > 0`) with variables of leading dimension `n` are
accepted, and the weight comes back as `n x 1`, which is another shape. -/
theorem C26_no_batch (lw : Shape) (rvs rvs' : List RVShape) (lw' : Shape) :
    Shape.systematic lw none rvs = .ok (rvs', lw') ↔
      ∃ n, 0 < n ∧ lw = [n] ∧ lw' = [n, 1] ∧ rvs' = rvs ∧ ∀ rv ∈ rvs, [n] <+: rv.1 ∧ [n] <+: rv.2 := by
  constructor
  · intro h
    obtain ⟨aidx, h1, h2, h3, h4⟩ := systematic_split _ _ _ _ h
    have h1 := h1 rfl
    match lw, h1 with
    | [n], _ =>
      simp only [Option.isNone_none, if_true, List.singleton_append, Option.getD_none, Prod.mk.injEq] at h2 h3 h4
      by_cases hn : n = 0
      · subst hn
        cases h2
      · have hn' : 0 < n := Nat.pos_of_ne_zero hn
        rw [ancestors_2d n 1 1 (Or.inl rfl) hn'] at h2
        cases h2
        refine ⟨n, hn', rfl, h3.2, h3.1, fun rv hrv => ?_⟩
        obtain ⟨h5, h6⟩ := h4 rv hrv
        exact ⟨List.prefix_iff_eq_take.2 h5.symm, List.prefix_iff_eq_take.2 h6.symm⟩
  · rintro ⟨n, hn, rfl, rfl, rfl, h⟩
    unfold Shape.systematic
    have := mapM_pick_total rvs' [n] fun rv hrv =>
      ⟨List.prefix_iff_eq_take.1 (h rv hrv).1 |>.symm, List.prefix_iff_eq_take.1 (h rv hrv).2 |>.symm⟩
    simp only [bind, Except.bind] at this
    simp only [bind, Except.bind, Option.getD_none, List.length_singleton, if_true, List.singleton_append,
      ancestors_2d n 1 1 (Or.inl rfl) hn, Option.isNone_none, List.take_succ_cons, List.take_zero]
    rw [this]
    rfl

theorem dim_one (x : Nat) (d : Int) (b : Nat) : Shape.dim [x] d = .ok b ↔ (d = 0 ∨ d = -1) ∧ b = x := by
  constructor
  · intro h
    have hd : d = 0 ∨ d = -1 := by
      by_contra hc
      have : Shape.dim [x] d = .error .index := by
        unfold Shape.dim
        by_cases h0 : d < 0
        · have : d + (([x] : Shape).length : Int) < 0 := by simp; omega
          simp only [if_pos h0, if_pos this]
        · have h1 : ([x] : List Nat)[d.toNat]? = none := List.getElem?_eq_none (by simp; omega)
          simp only [if_neg h0, h1]
      rw [this] at h
      cases h
    rcases hd with rfl | rfl <;> · cases h; exact ⟨by simp, rfl⟩
  · rintro ⟨rfl | rfl, rfl⟩ <;> rfl

theorem dim_two (x y : Nat) (d : Int) (b : Nat) :
    Shape.dim [x, y] d = .ok b ↔ ((d = 0 ∨ d = -2) ∧ b = x) ∨ ((d = 1 ∨ d = -1) ∧ b = y) := by
  constructor
  · intro h
    have hd : (d = 0 ∨ d = -2) ∨ d = 1 ∨ d = -1 := by
      by_contra hc
      have : Shape.dim [x, y] d = .error .index := by
        unfold Shape.dim
        by_cases h0 : d < 0
        · have : d + (([x, y] : Shape).length : Int) < 0 := by simp; omega
          simp only [if_pos h0, if_pos this]
        · have h1 : ([x, y] : List Nat)[d.toNat]? = none := List.getElem?_eq_none (by simp; omega)
          simp only [if_neg h0, h1]
      rw [this] at h
      cases h
    rcases hd with (rfl | rfl) | rfl | rfl
    · cases h; exact .inl ⟨.inl rfl, rfl⟩
    · cases h; exact .inl ⟨.inr rfl, rfl⟩
    · cases h; exact .inr ⟨.inl rfl, rfl⟩
    · cases h; exact .inr ⟨.inr rfl, rfl⟩
  · rintro (⟨rfl | rfl, rfl⟩ | ⟨rfl | rfl, rfl⟩) <;> rfl

theorem swapEnds_length (s : Shape) : s.swapEnds.length = s.length := by
  unfold Shape.swapEnds
  split <;> simp

theorem ancestors_iff (lw : Shape) (d : Int) (aidx : Shape) : Shape.ancestors lw d = .ok aidx ↔
    ∃ n b, 0 < n ∧ aidx = [n, b] ∧ ((lw = [n, b] ∧ (d = 1 ∨ d = -1)) ∨ (lw = [n, n] ∧ b = n ∧ (d = 0 ∨ d = -2)) ∨
      (lw = [n] ∧ b = n ∧ (d = 0 ∨ d = -1))) := by
  constructor
  · intro h
    unfold Shape.ancestors at h
    rcases h0 : lw.dim 0 with e | n <;> rw [h0] at h
    · cases h
    rcases h1 : lw.dim d with e | b <;> rw [h1] at h
    · cases h
    dsimp only [bind, Except.bind] at h
    split at h
    · cases h
    rename_i hn
    by_cases hs : List.length lw.swapEnds = 1 ∨
      List.length lw.swapEnds = ([b, n] : Shape).length ∧ List.dropLast lw.swapEnds = ([b, n] : Shape).dropLast
    · rw [show Shape.searchsorted lw.swapEnds [b, n] = .ok [b, n] by unfold Shape.searchsorted; rw [if_pos hs]] at h
      cases h
      refine ⟨n, b, by omega, rfl, ?_⟩
      match lw, h0, h1, hs with
      | [], h0, _, _ => cases h0
      | [x], h0, h1, _ =>
        obtain ⟨-, rfl⟩ := (dim_one x 0 n).1 h0
        obtain ⟨hd, rfl⟩ := (dim_one _ d b).1 h1
        exact .inr (.inr ⟨rfl, rfl, hd⟩)
      | [x, y], h0, h1, hs =>
        have hx : n = x := by rcases (dim_two x y 0 n).1 h0 with ⟨-, h⟩ | ⟨h | h, -⟩ <;> first | exact h | omega
        subst hx
        have hy : y = b := by simpa [Shape.swapEnds] using hs
        subst hy
        rcases (dim_two n y d y).1 h1 with ⟨hd, rfl⟩ | ⟨hd, -⟩
        · exact .inr (.inl ⟨rfl, rfl, hd⟩)
        · exact .inl ⟨rfl, hd⟩
      | x :: y :: z :: l, _, _, hs =>
        rw [swapEnds_length] at hs
        simp at hs
    · rw [show Shape.searchsorted lw.swapEnds [b, n] = .error .runtime by unfold Shape.searchsorted; rw [if_neg hs]] at h
      cases h
  · rintro ⟨n, b, hn, rfl, ⟨rfl, hd⟩ | ⟨rfl, rfl, hd⟩ | ⟨rfl, rfl, hd⟩⟩
    · exact ancestors_2d n b d hd hn
    · unfold Shape.ancestors
      rw [(dim_two b b 0 b).2 (.inl ⟨.inl rfl, rfl⟩), (dim_two b b d b).2 (.inl ⟨hd, rfl⟩)]
      simp [bind, Except.bind, Shape.searchsorted, Shape.swapEnds, pure, Except.pure, Nat.ne_of_gt hn]
    · unfold Shape.ancestors
      rw [(dim_one b 0 b).2 ⟨.inl rfl, rfl⟩, (dim_one b d b).2 ⟨hd, rfl⟩]
      simp [bind, Except.bind, Shape.searchsorted, Shape.swapEnds, pure, Except.pure, Nat.ne_of_gt hn]

/-- C26. With a batch dimension, exactly these weights and dimensions are accepted: n x b weights with dimension 1, square weights also with
dimension 0, and vectors of n weights with dimension 0 if every variable's value and log_prob begin with n x n. -/
theorem C26_batch_iff (lw : Shape) (d : Int) (rvs rvs' : List RVShape) (lw' : Shape) :
    Shape.systematic lw (some d) rvs = .ok (rvs', lw') ↔ lw' = lw ∧ rvs' = rvs ∧
      ∃ n b, 0 < n ∧ ((lw = [n, b] ∧ (d = 1 ∨ d = -1)) ∨ (lw = [n, n] ∧ b = n ∧ (d = 0 ∨ d = -2)) ∨ (lw = [n] ∧ b = n ∧ (d = 0 ∨ d = -1))) ∧
        ∀ rv ∈ rvs, [n, b] <+: rv.1 ∧ [n, b] <+: rv.2 := by
  constructor
  · intro h
    obtain ⟨aidx, -, h2, h3, h4⟩ := systematic_split _ _ _ _ h
    simp only [Option.isNone_some, Bool.false_eq_true, if_false, Option.getD_some] at h2 h3 h4
    obtain ⟨n, b, hn, rfl, hc⟩ := (ancestors_iff _ _ _).1 h2
    cases h3
    exact ⟨rfl, rfl, n, b, hn, hc, fun rv hrv => ⟨List.prefix_iff_eq_take.2 (h4 rv hrv).1.symm, List.prefix_iff_eq_take.2 (h4 rv hrv).2.symm⟩⟩
  · rintro ⟨rfl, rfl, n, b, hn, hc, h⟩
    have ha := (ancestors_iff lw' d [n, b]).2 ⟨n, b, hn, rfl, hc⟩
    unfold Shape.systematic
    simp only [bind, Except.bind, Option.getD_some, ha]
    have := mapM_pick_total rvs' [n, b] fun rv hrv =>
      ⟨List.prefix_iff_eq_take.1 (h rv hrv).1 |>.symm, List.prefix_iff_eq_take.1 (h rv hrv).2 |>.symm⟩
    simp only [bind, Except.bind] at this
    simp only [Option.isNone_some, Bool.false_eq_true, if_false]
    rw [this]
    rfl

/-- Weights with three dimensions are refused: RuntimeError of searchsorted. -/
example : Shape.systematic [4, 2, 3] (some 1) [] = .error .runtime := rfl
/-- A vector with batch dimension 0. -/
example : Shape.systematic [4] (some 0) [([4, 4, 2], [4, 4])] = .ok ([([4, 4, 2], [4, 4])], [4]) := rfl

/-- C26: ten particles, batches of five, a matrix-valued variable; and without batches. -/
example : Shape.systematic [10, 5] (some 1) [([10, 5, 2, 2], [10, 5])] = .ok ([([10, 5, 2, 2], [10, 5])], [10, 5]) ∧
    Shape.systematic [10] none [([10, 2], [10])] = .ok ([([10, 2], [10])], [10, 1]) ∧
    Shape.systematic [10, 5] (some 1) [([10, 2], [10, 5])] = .error .assertion := ⟨rfl, rfl, rfl⟩

/-- C47. Adding an `n`-vector of incremental weights (Propose's `lw_1 + lv`) to weights of shape `n x 1`, as they come out
of resampling without a batch dimension, gives an `n x n` tensor with entry `(i, j)` the sum of weight `i` and increment
`j`: particles are combined with each other's increments. -/
theorem C47_outer_sum {R : Type} [Add R] (n : Nat) (lw lv : Tensor R) (h1 : lw.shape = [n, 1]) (h2 : lv.shape = [n])
    (hn : n ≠ 1) :
    ∃ s, lw.add lv = .ok s ∧ s.shape = [n, n] ∧ ∀ i j, s.get [i, j] = lw.get [i, 0] + lv.get [j] := by
  have hb : broadcastRev [1, n] [n] = .ok [n, n] := by
    unfold broadcastRev
    rw [if_neg (by omega), if_pos rfl]
    rfl
  unfold Tensor.add
  rw [h1, h2]
  simp only [List.reverse_cons, List.reverse_nil, List.nil_append, List.singleton_append, hb]
  refine ⟨_, rfl, rfl, fun i j => ?_⟩
  simp [projRev, hn]

/-- C47. With a batch dimension, and before resampling, the shapes agree and the sum is per particle. -/
theorem C47_same_shape {R : Type} [Add R] (lw lv : Tensor R) (h : lw.shape = lv.shape) :
    ∃ s, lw.add lv = .ok s ∧ s.shape = lw.shape ∧
      ∀ i, i.length = lw.shape.length → (∀ k (h1 : k < i.length) (h2 : k < lw.shape.length), i[k] < lw.shape[k]) →
        s.get i = lw.get i + lv.get i := by
  have hb : ∀ s : Shape, broadcastRev s s = .ok s := by
    intro s
    induction s with
    | nil => rfl
    | cons x s ih => unfold broadcastRev; rw [if_pos (Or.inl rfl), ih]; rfl
  have hp : ∀ (s : Shape) (i : List Nat), List.Forall₂ (fun i x => i < x) i s → projRev s i = i := by
    intro s i hs
    induction hs with
    | nil => rfl
    | cons hx _ ih =>
      rw [projRev, ih]
      split
      · rename_i h; congr 1; omega
      · rfl
  unfold Tensor.add
  rw [← h, hb]
  refine ⟨_, rfl, by simp, fun i hi hlt => ?_⟩
  have hf : List.Forall₂ (fun i x => i < x) i.reverse lw.shape.reverse := by
    rw [List.forall₂_reverse_iff, List.forall₂_iff_get]
    exact ⟨hi, fun k h1 h2 => hlt k h1 h2⟩
  simp only [hp _ _ hf, List.reverse_reverse]

/-- C47: three particles with weights 10, 20, 30 and increments 1, 2, 3: entry (0, 2) mixes particle 0 and 2. -/
example : ∃ s, Tensor.add (R := Int) ⟨[3, 1], fun i => match i with | [k, _] => 10 * (k + 1) | _ => 0⟩
    ⟨[3], fun i => match i with | [k] => k + 1 | _ => 0⟩ = .ok s ∧ s.shape = [3, 3] ∧ s.get [0, 2] = 13 := ⟨_, rfl, rfl, rfl⟩

end Verif
