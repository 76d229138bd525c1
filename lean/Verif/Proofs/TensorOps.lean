import Mathlib.Tactic.Ring
import Verif.Proofs.Tensor
import Verif.Model.ApgTensor
/-
Elements of tensors after the operations that experiments/apgs uses.
-/
namespace Verif
namespace Nd
variable {α β γ : Type}

theorem inRange1 {i n : Nat} (hi : i < n) : InRange [i] [n] := .cons hi .nil

theorem view_eq {t : Nd α} {s : List Nat} (h : t.shape.prod = s.prod) : t.view s = .ok ⟨s, t.data⟩ := if_pos h

theorem get_mk {t : Nd α} {s is is' : List Nat} (h : ravel s is' = ravel t.shape is) : (⟨s, t.data⟩ : Nd α).get is' = t.get is := congrArg t.data h

theorem select_ok {t : Nd α} {d n k : Nat} (hd : t.shape[d]? = some n) (hk : k < n) :
    ∃ r, t.select d k = .ok r ∧ r.shape = t.shape.eraseIdx d ∧ ∀ is, InRange is (t.shape.eraseIdx d) → r.get is = t.get (is.insertIdx d k) := by
  unfold select
  rw [hd]
  simp only [pyIx_nat hk]
  exact ⟨_, rfl, rfl, fun is hi => get_ofFn _ hi⟩

theorem select_int {t : Nd α} {d n k : Nat} {i : Int} (hd : t.shape[d]? = some n) (hk : pyIx n i = .ok k) :
    ∃ r, t.select d i = .ok r ∧ r.shape = t.shape.eraseIdx d ∧ ∀ is, InRange is (t.shape.eraseIdx d) → r.get is = t.get (is.insertIdx d k) := by
  unfold select
  rw [hd]
  simp only [hk]
  exact ⟨_, rfl, rfl, fun is hi => get_ofFn _ hi⟩

theorem expand_same {t : Nd α} {s : List Nat} (h : t.shape = s) : ∃ r, t.expand s = .ok r ∧ r.shape = s ∧ ∀ is, InRange is s → r.get is = t.get is := by
  subst h
  obtain ⟨r, h1, h2, h3⟩ := expand_ok (t := t) (s := t.shape) le_rfl (by
    rw [Nat.sub_self, List.drop_zero]
    exact List.forall₂_same.2 fun _ _ => Or.inr rfl)
  refine ⟨r, h1, h2, fun is hi => ?_⟩
  rw [h3 is hi, Nat.sub_self, List.drop_zero]
  congr 1
  generalize t.shape = s at hi
  clear h1 h2 h3
  induction hi with
  | nil => rfl
  | @cons i n is s hi _ ih =>
    rw [List.zipWith_cons_cons, ih]
    by_cases h : n = 1
    · rw [if_pos h, (by omega : i = 0)]
    · rw [if_neg h]

theorem setSelect_ok {t v : Nd α} {d n k : Nat} (hd : t.shape[d]? = some n) (hk : k < n) (hv : v.shape = t.shape.eraseIdx d)
    (he : ∀ is, InRange is t.shape → InRange (is.eraseIdx d) (t.shape.eraseIdx d)) :
    ∃ r, t.setSelect d k v = .ok r ∧ r.shape = t.shape ∧
      ∀ is, InRange is t.shape → r.get is = if is[d]? = some k then v.get (is.eraseIdx d) else t.get is := by
  obtain ⟨v', h1, h2, h3⟩ := expand_same hv
  unfold setSelect
  rw [hd]
  simp only [pyIx_nat hk, bind, Except.bind, h1]
  refine ⟨_, rfl, rfl, fun is hi => ?_⟩
  rw [get_ofFn _ hi]
  split
  · exact h3 _ (he is hi)
  · rfl

theorem inRange_eraseIdx {is s : List Nat} (h : InRange is s) (d : Nat) : InRange (is.eraseIdx d) (s.eraseIdx d) := by
  induction h generalizing d with
  | nil => simp
  | @cons i n is s hi hs ih => cases d with
    | zero => exact hs
    | succ d => exact .cons hi (ih d)

theorem tile_ok {t : Nd α} {r : List Nat} (hl : t.shape.length ≤ r.length) {s : List Nat}
    (hs : List.zipWith (· * ·) r (List.replicate (r.length - t.shape.length) 1 ++ t.shape) = s) :
    ∃ q, t.tile r = .ok q ∧ q.shape = s ∧
      ∀ is, InRange is s → q.get is = t.get (List.zipWith (· % ·) (is.drop (r.length - t.shape.length)) t.shape) := by
  subst hs
  unfold tile
  rw [if_neg (by omega)]
  exact ⟨_, rfl, rfl, fun is hi => get_ofFn _ hi⟩

theorem map₂_same {f : α → β → γ} {t : Nd α} {t' : Nd β} (h : t'.shape = t.shape) :
    ∃ r, map₂ f t t' = .ok r ∧ r.shape = t.shape ∧ ∀ is, InRange is t.shape → r.get is = f (t.get is) (t'.get is) := by
  have hb : ∀ s : List Nat, broadcastRev s s = .ok s := by
    intro s
    induction s with
    | nil => rfl
    | cons n s ih => unfold broadcastRev; rw [if_pos (Or.inl rfl), ih]; rfl
  obtain ⟨a, h1, h2, h3⟩ := expand_same (t := t) rfl
  obtain ⟨b, h4, h5, h6⟩ := expand_same (t := t') h
  unfold map₂
  rw [h, hb]
  simp only [bind, Except.bind, List.reverse_reverse, h1, h4]
  refine ⟨_, rfl, rfl, fun is hi => ?_⟩
  rw [← h3 is hi, ← h6 is hi]
  show f (a.data _) (b.data _) = f (a.data _) (b.data _)
  rw [h2, h5]

theorem alongLast_ok [Inhabited β] {t : Nd α} {s : List Nat} {n : Nat} (h : t.shape = s ++ [n]) (m : Nat → Nat) (f : (n : Nat) → (Fin n → α) → Fin (m n) → β) :
    ∃ r, t.along (-1) m f = .ok r ∧ r.shape = s ++ [m n] ∧
      ∀ is, InRange is s → ∀ i : Fin (m n), r.get (is ++ [i.val]) = f n (fun j => t.get (is ++ [j.val])) i := by
  have hl : t.shape.length = s.length + 1 := by rw [h]; simp
  obtain ⟨r, h1, h2, h3⟩ := along_ok (t := t) (d := -1) (d' := s.length) (n := n) (by
    rw [hl]; exact (pyIx_neg (d := 1) Nat.one_pos (by omega)).trans (by simp)) (by rw [h]; simp) m f
  rw [h] at h2 h3
  have hset : (s ++ [n]).set s.length (m n) = s ++ [m n] := by simp
  rw [hset] at h2 h3
  refine ⟨r, h1, h2, fun is hi i => ?_⟩
  have hlen := hi.length_eq
  have hg : (is ++ [i.val]).getD s.length 0 = i.val := by rw [← hlen]; simp
  rw [h3 _ (inRange_append hi (inRange1 i.2)) (by rw [hg]; exact i.2)]
  congr 1
  · funext j
    rw [← hlen]
    simp
  · exact Fin.ext hg

theorem linear_ok {a b : Nat} (l : Linear a b) {t : Nd ℝ} {s : List Nat} (h : t.shape = s ++ [a]) :
    ∃ r, linear l t = .ok r ∧ r.shape = s ++ [b] ∧ ∀ is, InRange is s → ∀ i : Fin b, r.get (is ++ [i.val]) = l.app (fun j => t.get (is ++ [j.val])) i := by
  unfold linear
  rw [if_pos (by rw [h]; simp)]
  obtain ⟨r, h1, h2, h3⟩ := alongLast_ok h (fun _ => b) fun n v i => if h : a = n then l.app (fun j => v (j.cast h)) i else 0
  refine ⟨r, h1, h2, fun is hi i => ?_⟩
  rw [h3 is hi i, dif_pos rfl]
  rfl

/-- A hidden layer. -/
theorem layer_ok {a b : Nat} (l : Linear a b) {t : Nd ℝ} {s : List Nat} (h : t.shape = s ++ [a]) :
    ∃ r, linear l t = .ok r ∧ (reluT r).shape = s ++ [b] ∧
      ∀ is, InRange is s → (fun i : Fin b => (reluT r).get (is ++ [i.val])) = relu (l.app fun j => t.get (is ++ [j.val])) := by
  obtain ⟨r, h1, h2, h3⟩ := linear_ok l h
  refine ⟨r, h1, h2, fun is hi => funext fun i => ?_⟩
  show max (r.get _) 0 = max _ 0
  rw [h3 is hi i]

theorem linear_error {a b : Nat} (l : Linear a b) {t : Nd ℝ} (h : t.shape.getLast? ≠ some a) : linear l t = .error .runtime := if_neg h

theorem reduce_ok [Inhabited β] {t : Nd α} {d : Int} {d' n : Nat} (hd : pyIx t.shape.length d = .ok d') (hn : t.shape[d']? = some n)
    (f : (n : Nat) → (Fin n → α) → β) :
    ∃ r, t.reduce d f = .ok r ∧ r.shape = t.shape.eraseIdx d' ∧
      ∀ is, InRange is (t.shape.eraseIdx d') → r.get is = f n fun i => t.get (is.insertIdx d' i) := by
  have hlt : d' < t.shape.length := (List.getElem?_eq_some_iff.1 hn).1
  obtain ⟨r, h1, h2, h3⟩ := along_ok (t := t) (d := d) hd (n := n) (by simp [List.getD, hn]) (fun _ => 1) fun n v _ => f n v
  have hlen : r.shape.length = t.shape.length := by rw [h2, List.length_set]
  have hone : r.shape[d']? = some 1 := by rw [h2]; simp [hlt]
  have her : r.shape.eraseIdx d' = t.shape.eraseIdx d' := by rw [h2]; exact List.eraseIdx_set_eq
  refine ⟨⟨t.shape.eraseIdx d', r.data⟩, ?_, rfl, fun is hi => ?_⟩
  · unfold reduce squeeze
    rw [h1]
    simp only [bind, Except.bind, hlen, hd, hone, if_true, her]
  · have key : ∀ (s is : List Nat) (d : Nat), d < s.length → InRange is (s.eraseIdx d) →
        InRange (is.insertIdx d 0) (s.set d 1) ∧ ravel (s.eraseIdx d) is = ravel (s.set d 1) (is.insertIdx d 0) ∧ (is.insertIdx d 0).getD d 0 = 0 ∧
          ∀ i, (is.insertIdx d 0).set d i = is.insertIdx d i := by
      intro s
      induction s with
      | nil => intro is d h; simp at h
      | cons m s ih =>
        intro is d hd hi
        cases d with
        | zero =>
          simp only [List.eraseIdx_cons_zero] at hi
          refine ⟨.cons Nat.one_pos hi, ?_, rfl, fun i => rfl⟩
          simp [ravel]
        | succ d =>
          simp only [List.eraseIdx_cons_succ] at hi
          cases hi with
          | @cons j _ is _ hj hi =>
            obtain ⟨k1, k2, k3, k4⟩ := ih is d (by simpa using hd) hi
            refine ⟨.cons hj k1, ?_, by simpa using k3, fun i => by simpa using k4 i⟩
            simp only [List.eraseIdx_cons_succ, List.insertIdx_succ_cons, List.set_cons_succ, ravel, k2]
            congr 2
            have hmul : (s.set d 1).prod = (s.eraseIdx d).prod := by
              clear ih hi hj k1 k2 k3 k4
              have : d < s.length := by simpa using hd
              clear hd
              induction s generalizing d with
              | nil => simp at this
              | cons x s ih => cases d with
                | zero => simp
                | succ d => simp [ih d (by simpa using this)]
            rw [hmul]
    obtain ⟨k1, k2, k3, k4⟩ := key t.shape is d' hlt hi
    have := h3 (is.insertIdx d' 0) k1 (by rw [k3]; exact Nat.one_pos)
    simp only [k4] at this
    rw [← this]
    refine congrArg r.data ?_
    rw [h2]
    exact k2

end Nd
end Verif
