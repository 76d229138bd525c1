import Mathlib.Tactic.Linarith
import Verif.Proofs.Annealing
import Verif.Proofs.Strings
import Verif.Spec.Annealing
/-
The names g0, g1, ... and the substring test of stl_trace.
-/
namespace Verif
variable {L : Lang}

/-- `f"g{k}"` -/
abbrev gname (k : Nat) : String := AnnealModel.name k

theorem gname_toList (k : Nat) : (gname k).toList = 'g' :: (toString k).toList := by
  unfold gname AnnealModel.name
  rw [String.toList_append]
  rfl

theorem gname_inj {j k : Nat} (h : gname j = gname k) : j = k := by
  have := congrArg String.toList h
  rw [gname_toList, gname_toList, List.cons.injEq] at this
  exact toString_nat_inj (String.toList_injective this.2)

theorem g_not_mem (n : Nat) : 'g' ∉ (toString n).toList := by
  rw [Nat.toString_eq_repr, Nat.toList_repr]
  intro h
  have := Nat.isDigit_of_mem_toDigits (by omega) (by omega) h
  simp [Char.isDigit] at this

theorem ofDigitChars_ge (l : List Char) (n : Nat) : n * 10 ^ l.length ≤ Nat.ofDigitChars 10 l n := by
  induction l generalizing n with
  | nil => simp [Nat.ofDigitChars]
  | cons c l ih =>
    have := ih (10 * n + (c.toNat - '0'.toNat))
    rw [Nat.ofDigitChars_cons]
    refine le_trans ?_ this
    rw [List.length_cons, Nat.pow_succ]
    nlinarith [Nat.zero_le (c.toNat - '0'.toNat), Nat.pow_pos (n := l.length) (show 0 < 10 by norm_num)]

/-- The decimal form of a number does not begin that of its successor. -/
theorem not_prefix_succ (k : Nat) : ¬ (toString k).toList <+: (toString (k + 1)).toList := by
  rintro ⟨r, h⟩
  rw [Nat.toString_eq_repr, Nat.toString_eq_repr, Nat.toList_repr, Nat.toList_repr] at h
  have h2 := congrArg (fun l => Nat.ofDigitChars 10 l 0) h
  simp only [Nat.ofDigitChars_append, Nat.ofDigitChars_ten_toDigits] at h2
  cases r with
  | nil => simp [Nat.ofDigitChars] at h2
  | cons c r =>
    have := ofDigitChars_ge (c :: r) k
    rw [h2, List.length_cons, Nat.pow_succ] at this
    have hp : 0 < 10 ^ r.length := Nat.pow_pos (by norm_num)
    have hk : k = 0 := by
      by_contra hk
      have : 1 ≤ k := by omega
      nlinarith
    subst hk
    have h3 := congrArg List.length h
    simp [Nat.toDigits_of_lt_base] at h3

theorem infix_cons_iff {c : Char} {a b : List Char} (hb : c ∉ b) : (c :: a) <:+: (c :: b) ↔ a <+: b := by
  constructor
  · rintro ⟨x, y, h⟩
    cases x with
    | nil => simp only [List.nil_append, List.cons_append, List.cons.injEq, true_and] at h; exact ⟨y, h⟩
    | cons d x =>
      simp only [List.cons_append, List.cons.injEq] at h
      exact absurd (by rw [← h.2]; simp) hb
  · rintro ⟨y, rfl⟩
    exact ⟨[], y, by simp⟩

/-- `"g{j}" in "g{k}"` -/
theorem gname_in_iff (j k : Nat) : pyStrIn (gname j) (gname k) = true ↔ (toString j).toList <+: (toString k).toList := by
  unfold pyStrIn
  rw [decide_eq_true_iff, gname_toList, gname_toList, infix_cons_iff (g_not_mem k)]

theorem gname_succ (k : Nat) : ("g" : String) ++ toString ((k : Int) + 1) = gname (k + 1) := by
  have : ((k : Int) + 1) = ((k + 1 : Nat) : Int) := by push_cast; rfl
  rw [this]; rfl

theorem TransfOk_stl_entries (detachD : L.D → L.D) (weq : L.W → L.W → Bool) (hw : ∀ x, weq x x = true)
    (hd : ∀ d v, L.logProb (detachD d) v = L.logProb d v) (k : Nat) (h : gname (k + 1) ≠ gname k) (d : L.D) (v : L.V)
    (rep : Bool) (ra : RV L) (kw : Kw L) (hix : kw.ix = .int k) :
    ∃ t', stlTrace detachD weq (tr2 (gname (k + 1)) (RV.mk' d v .sampled rep) (gname k) ra h) kw = .ok t' ∧
      t'.entries = [(gname k, ra), (gname (k + 1), RV.mk' (detachD d) v .sampled rep)] := by
  refine ⟨tr2 (gname k) ra (gname (k + 1)) (RV.mk' (detachD d) v .sampled rep) h.symm, ?_, rfl⟩
  simp only [stlTrace, hix, gname_succ]
  have h1 : pyStrIn (gname k) (gname (k + 1)) = false := by
    rw [Bool.eq_false_iff]; intro h; exact not_prefix_succ k ((gname_in_iff _ _).mp h)
  have h2 : pyStrIn (gname (k + 1)) (gname (k + 1)) = true := (gname_in_iff _ _).mpr List.prefix_rfl
  rw [copytraces_single]
  have h3 : Dict.filterKeys (tr2 (gname (k + 1)) (RV.mk' d v .sampled rep) (gname k) ra h)
      (fun j => !pyStrIn j (gname (k + 1))) = tr1 (gname k) ra := by
    apply Dict.ext'
    show [(gname (k + 1), RV.mk' d v .sampled rep), (gname k, ra)].filter (fun e => !pyStrIn e.1 (gname (k + 1))) = [(gname k, ra)]
    simp [h1, h2]
  simp only [h3, tr2_get, if_true, bind, Except.bind]
  have h4 : evalDetached detachD weq (RV.mk' d v .sampled rep) = .ok (RV.mk' (detachD d) v .sampled rep) := by
    simp only [evalDetached, RV.mk', hd, hw, if_true]
  rw [h4]
  show Except.ok ((tr1 (gname k) ra).insert (gname (k + 1)) _) = _
  congr 1
  apply Dict.ext'
  show insertL [(gname k, ra)] (gname (k + 1)) _ = _
  simp [insertL, h.symm, tr2]

theorem TransfOk_stl (detachD : L.D → L.D) (weq : L.W → L.W → Bool) (hw : ∀ x, weq x x = true)
    (hd : ∀ d v, L.logProb (detachD d) v = L.logProb d v) (k : Nat) :
    TransfOk k (gname k) (gname (k + 1)) (some (stlTrace detachD weq)) := by
  intro h d v rep ra kw hix
  obtain ⟨t', h1, h2⟩ := TransfOk_stl_entries detachD weq hw hd k h d v rep ra kw hix
  refine ⟨t', h1, ?_⟩
  have : t' = tr2 (gname k) ra (gname (k + 1)) (RV.mk' (detachD d) v .sampled rep) h.symm := Dict.ext' h2
  subst this
  intro nodes ha hb
  rw [logJoint_tr2 _ _ _ _ _ _ ha hb]
  show LW.tensor (ra.logProb + L.logProb (detachD d) v) = _
  rw [hd, add_comm]

end Verif
