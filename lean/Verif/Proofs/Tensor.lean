import Mathlib.Tactic.Ring
import Verif.Model.Tensor
/-
Elements of tensors.
-/
namespace Verif
namespace Nd
variable {α β γ : Type}

/-- The indices `is` are in range for the shape. -/
abbrev InRange (is s : List Nat) : Prop := List.Forall₂ (· < ·) is s

theorem ravel_lt {is s : List Nat} (h : InRange is s) : ravel s is < s.prod := by
  induction h with
  | nil => exact Nat.one_pos
  | @cons i n is s hi _ ih =>
    show i * s.prod + ravel s is < _
    rw [List.prod_cons]
    calc i * s.prod + ravel s is < i * s.prod + s.prod := by omega
      _ = (i + 1) * s.prod := by ring
      _ ≤ n * s.prod := Nat.mul_le_mul_right _ hi

theorem unravel_ravel {is s : List Nat} (h : InRange is s) : unravel s (ravel s is) = is := by
  induction h with
  | nil => rfl
  | @cons i n is s hi hs ih =>
    have h1 := ravel_lt hs
    show (i * s.prod + ravel s is) / s.prod :: unravel s ((i * s.prod + ravel s is) % s.prod) = _
    have h2 : (i * s.prod + ravel s is) / s.prod = i := by
      rw [Nat.mul_comm, Nat.mul_add_div (by omega), Nat.div_eq_of_lt h1, Nat.add_zero]
    have h3 : (i * s.prod + ravel s is) % s.prod = ravel s is := by
      rw [Nat.mul_comm, Nat.mul_add_mod, Nat.mod_eq_of_lt h1]
    rw [h2, h3, ih]

theorem unravel_inRange {s : List Nat} {q : Nat} (h : q < s.prod) : InRange (unravel s q) s := by
  induction s generalizing q with
  | nil => exact .nil
  | cons n s ih =>
    rw [List.prod_cons] at h
    have hp : 0 < s.prod := Nat.pos_of_ne_zero fun h0 => by rw [h0] at h; omega
    exact .cons (Nat.div_lt_of_lt_mul (by rwa [Nat.mul_comm])) (ih (Nat.mod_lt _ hp))

theorem ravel_unravel {s : List Nat} {q : Nat} (h : q < s.prod) : ravel s (unravel s q) = q := by
  induction s generalizing q with
  | nil => simp at h; simp [ravel, h]
  | cons n s ih =>
    rw [List.prod_cons] at h
    have hp : 0 < s.prod := Nat.pos_of_ne_zero fun h0 => by rw [h0] at h; omega
    show q / s.prod * s.prod + ravel s (unravel s (q % s.prod)) = q
    rw [ih (Nat.mod_lt _ hp)]
    exact Nat.div_add_mod' q s.prod

theorem get_ofFn {s is : List Nat} (f : List Nat → α) (h : InRange is s) : (ofFn s f).get is = f is := by
  show f (unravel s (ravel s is)) = f is
  rw [unravel_ravel h]

@[simp] theorem shape_ofFn (s : List Nat) (f : List Nat → α) : (ofFn s f).shape = s := rfl

/-- The same position: the same element. -/
theorem get_data {t t' : Nd α} (hd : t'.data = t.data) {is is' : List Nat} (h : ravel t'.shape is' = ravel t.shape is) : t'.get is' = t.get is := by
  show t'.data _ = t.data _
  rw [hd, h]

theorem view_ok {t : Nd α} {s : List Nat} (h : t.shape.prod = s.prod) :
    ∃ r, t.view s = .ok r ∧ r.shape = s ∧ ∀ is is', ravel s is' = ravel t.shape is → r.get is' = t.get is :=
  ⟨⟨s, t.data⟩, if_pos h, rfl, fun _ _ hi => congrArg t.data hi⟩

theorem pyIx_nat {n d : Nat} (h : d < n) : pyIx n d = .ok d := by
  unfold pyIx
  rw [if_neg (by omega), if_neg (by omega)]
  rfl

theorem pyIx_neg {n d : Nat} (h0 : 0 < d) (h : d ≤ n) : pyIx n (-d) = .ok (n - d) := by
  unfold pyIx
  rw [if_neg (by omega), if_pos (by omega)]
  congr 1
  omega

theorem pyIx_error {n : Nat} {d : Int} (h : d < -n ∨ n ≤ d) : pyIx n d = .error .index := if_pos h

theorem get_map (f : α → β) (t : Nd α) (is : List Nat) : (t.map f).get is = f (t.get is) := rfl

@[simp] theorem shape_map (f : α → β) (t : Nd α) : (t.map f).shape = t.shape := rfl

theorem expand_ok {t : Nd α} {s : List Nat} (hl : t.shape.length ≤ s.length)
    (h : List.Forall₂ (fun n m => n = 1 ∨ n = m) t.shape (s.drop (s.length - t.shape.length))) :
    ∃ r, t.expand s = .ok r ∧ r.shape = s ∧
      ∀ is, InRange is s → r.get is = t.get (List.zipWith (fun i n => if n = 1 then 0 else i) (is.drop (s.length - t.shape.length)) t.shape) := by
  refine ⟨_, ?_, rfl, fun is hi => get_ofFn _ hi⟩
  unfold expand
  rw [if_neg]
  rintro (h1 | h1)
  · omega
  · exact h1 h

theorem gather_ok {t : Nd α} {d : Nat} {ix : Nd Nat} (hd : d < t.shape.length)
    (hs : List.Forall₂ (· ≤ ·) (ix.shape.set d 0) (t.shape.set d 0))
    (hix : ∀ is, InRange is ix.shape → ix.get is < t.shape.getD d 0) :
    ∃ r, t.gather d ix = .ok r ∧ r.shape = ix.shape ∧ ∀ is, InRange is ix.shape → r.get is = t.get (is.set d (ix.get is)) := by
  refine ⟨_, ?_, rfl, fun is hi => get_ofFn _ hi⟩
  unfold gather
  rw [pyIx_nat hd]
  refine if_pos ⟨hs, fun q hq => ?_⟩
  have := hix _ (unravel_inRange hq)
  rwa [get, ravel_unravel hq] at this

theorem gather_error {t : Nd α} {d : Nat} {ix : Nd Nat} (hd : d < t.shape.length) (is : List Nat) (hi : InRange is ix.shape)
    (hix : t.shape.getD d 0 ≤ ix.get is) : t.gather d ix = .error .runtime := by
  unfold gather
  rw [pyIx_nat hd]
  refine if_neg fun h => ?_
  have := h.2 _ (ravel_lt hi)
  simp only [get] at hix
  omega

theorem inRange_length {is s : List Nat} (h : InRange is s) : is.length = s.length := h.length_eq

theorem ravel_append {s is : List Nat} (h : is.length = s.length) (s' is' : List Nat) :
    ravel (s ++ s') (is ++ is') = ravel s is * s'.prod + ravel s' is' := by
  induction s generalizing is with
  | nil => cases is with
    | nil => simp [ravel]
    | cons => cases h
  | cons n s ih => cases is with
    | nil => cases h
    | cons i is =>
      show i * (s ++ s').prod + ravel (s ++ s') (is ++ is') = (i * s.prod + ravel s is) * s'.prod + ravel s' is'
      rw [ih (Nat.succ.inj h), List.prod_append]
      ring

theorem unsqueeze_last (t : Nd α) : t.unsqueeze (-1) = .ok ⟨t.shape ++ [1], t.data⟩ := by
  unfold unsqueeze
  have : pyIx (t.shape.length + 1) (-1) = .ok t.shape.length := pyIx_neg (d := 1) Nat.one_pos (by omega)
  rw [this]
  simp [bind, Except.bind]

theorem inRange_append {is s r s' : List Nat} (h : InRange is s) (h' : InRange r s') : InRange (is ++ r) (s ++ s') := by
  induction h with
  | nil => exact h'
  | cons h1 _ ih => exact .cons h1 ih

theorem inRange_split {x s s' : List Nat} (h : InRange x (s ++ s')) : ∃ is r, x = is ++ r ∧ InRange is s ∧ InRange r s' := by
  induction s generalizing x with
  | nil => exact ⟨[], x, rfl, .nil, h⟩
  | cons n s ih =>
    cases h with
    | cons h1 h2 =>
      obtain ⟨is, r, rfl, h3, h4⟩ := ih h2
      exact ⟨_ :: is, r, rfl, .cons h1 h3, h4⟩

theorem along_ok {β : Type} [Inhabited β] {t : Nd α} {d : Int} {d' n : Nat} (hd : pyIx t.shape.length d = .ok d') (hn : t.shape.getD d' 0 = n) (m : Nat → Nat)
    (f : (n : Nat) → (Fin n → α) → Fin (m n) → β) :
    ∃ r, t.along d m f = .ok r ∧ r.shape = t.shape.set d' (m n) ∧
      ∀ is, InRange is (t.shape.set d' (m n)) → ∀ (h : is.getD d' 0 < m n), r.get is = f n (fun i => t.get (is.set d' i)) ⟨is.getD d' 0, h⟩ := by
  subst hn
  unfold along
  rw [hd]
  refine ⟨_, rfl, rfl, fun is hi h => ?_⟩
  rw [get_ofFn _ hi, dif_pos h]

theorem inRange2 {i j n m : Nat} (hi : i < n) (hj : j < m) : InRange [i, j] [n, m] := .cons hi (.cons hj .nil)

end Nd
end Verif
