import Verif.Model.ApgKeys
import Verif.Proofs.Strings
/-
C42: the names of the latent variables of the bouncing shapes model never collide.
-/
namespace Verif

theorem toString_int_ofNat (n : Nat) : toString (Int.ofNat n) = toString n := rfl
theorem toString_int_negSucc (n : Nat) : toString (Int.negSucc n) = "-" ++ toString (n + 1) := rfl

theorem minus_not_mem_toString (n : Nat) : '-' ∉ (toString n).toList := by
  rw [Nat.toString_eq_repr, Nat.toList_repr]
  intro h
  have := Nat.isDigit_of_mem_toDigits (by omega) (by omega) h
  simp [Char.isDigit] at this

theorem toString_int_inj {a b : Int} (h : toString a = toString b) : a = b := by
  cases a with
  | ofNat n =>
    cases b with
    | ofNat m => rw [toString_int_ofNat, toString_int_ofNat] at h; rw [toString_nat_inj h]
    | negSucc m =>
      exfalso
      rw [toString_int_ofNat, toString_int_negSucc] at h
      apply minus_not_mem_toString n
      rw [h, String.toList_append]; simp
  | negSucc n =>
    cases b with
    | ofNat m =>
      exfalso
      rw [toString_int_ofNat, toString_int_negSucc] at h
      apply minus_not_mem_toString m
      rw [← h, String.toList_append]; simp
    | negSucc m =>
      rw [toString_int_negSucc, toString_int_negSucc] at h
      have h1 := congrArg String.toList h
      simp only [String.toList_append, List.append_cancel_left_eq] at h1
      have := toString_nat_inj (String.toList_injective h1)
      congr 1; omega

theorem underscore_not_mem_toString_int (a : Int) : '_' ∉ (toString a).toList := by
  cases a with
  | ofNat n => exact underscore_not_mem_toString n
  | negSucc n =>
    rw [toString_int_negSucc, String.toList_append]
    simp only [List.mem_append, not_or]
    exact ⟨by decide, underscore_not_mem_toString _⟩

/-- C42: different times or sweeps give different names; also for negative numbers, such as the sweep `0 - 1`. -/
theorem C42_z_where_injective (t s t' s' : Int) : zWhereName t s = zWhereName t' s' ↔ t = t' ∧ s = s' := by
  constructor
  · intro h
    have h1 := congrArg String.toList h
    simp only [zWhereName, String.toList_append, List.append_assoc, List.append_cancel_left_eq] at h1
    have e : ("_" : String).toList = ['_'] := rfl
    rw [e] at h1
    simp only [List.singleton_append] at h1
    obtain ⟨h2, h3⟩ := split_first (underscore_not_mem_toString_int t) (underscore_not_mem_toString_int t') h1
    exact ⟨toString_int_inj (String.toList_injective h2), toString_int_inj (String.toList_injective h3)⟩
  · rintro ⟨rfl, rfl⟩; rfl

/-- C42: different sweeps give different names. -/
theorem C42_z_what_injective (s s' : Int) : zWhatName s = zWhatName s' ↔ s = s' := by
  constructor
  · intro h
    have h1 := congrArg String.toList h
    simp only [zWhatName, String.toList_append, List.append_cancel_left_eq] at h1
    exact toString_int_inj (String.toList_injective h1)
  · rintro rfl; rfl

/-- C42: positions, appearances, the observation and the input's "frames" entry never share a name. -/
theorem C42_kinds_disjoint (t s s' : Int) :
    zWhereName t s ≠ zWhatName s' ∧ zWhereName t s ≠ "recon" ∧ zWhatName s' ≠ "recon" ∧
      zWhereName t s ≠ "frames" ∧ zWhatName s' ≠ "frames" := by
  have e1 : ("z_where_" : String).toList = ['z', '_', 'w', 'h', 'e', 'r', 'e', '_'] := rfl
  have e2 : ("z_what_" : String).toList = ['z', '_', 'w', 'h', 'a', 't', '_'] := rfl
  have e3 : ("recon" : String).toList = ['r', 'e', 'c', 'o', 'n'] := rfl
  have e4 : ("frames" : String).toList = ['f', 'r', 'a', 'm', 'e', 's'] := rfl
  refine ⟨?_, ?_, ?_, ?_, ?_⟩ <;> intro h <;> have h1 := congrArg String.toList h <;>
    simp only [zWhereName, zWhatName, String.toList_append, e1, e2, e3, e4, List.cons_append, List.cons.injEq] at h1
  · exact absurd h1.2.2.2.2.1 (by decide)
  · exact absurd h1.1 (by decide)
  · exact absurd h1.1 (by decide)
  · exact absurd h1.1 (by decide)
  · exact absurd h1.1 (by decide)

/-- C42: the key functions raise exactly when an argument is missing. -/
theorem C42_names (t s : Int) : zWhereKey (some t) (some s) = .ok ("z_where_" ++ toString t ++ "_" ++ toString s) ∧
    zWhatKey (some s) = .ok ("z_what_" ++ toString s) :=
  ⟨rfl, rfl⟩

/-- C42: a missing argument raises AssertionError. -/
theorem C42_missing_argument (t s : Option Int) :
    (zWhereKey t s = .error .assertion ↔ t = none ∨ s = none) ∧ (zWhatKey s = .error .assertion ↔ s = none) := by
  cases t <;> cases s <;> simp [zWhereKey, zWhatKey]

/-- Names that would collide without the separator between the two numbers. -/
example : zWhereName 1 12 = "z_where_1_12" ∧ zWhereName 11 2 = "z_where_11_2" ∧ zWhereName 0 (0 - 1) = "z_where_0_-1" := by
  decide +kernel

end Verif
