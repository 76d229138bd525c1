import Verif.Props.Cli
import Mathlib.Tactic.IntervalCases
/-
C67: which strings `int` reads, and as which number.
-/
namespace Verif.Cli

/-- A white space character of ASCII, as str.strip() sees it. -/
def Blank (c : Char) : Prop := c = ' ' ∨ ('\t' ≤ c ∧ c ≤ '\r') ∨ ('\x1c' ≤ c ∧ c ≤ '\x1f')

/-- `cs` is written with the ten digits, single underscores allowed between two of them; `n` is its value. -/
inductive Numeral : List Char → Nat → Prop
  | digit (d : Nat) : d < 10 → Numeral [Nat.digitChar d] d
  | next (d : Nat) {cs : List Char} {n : Nat} : d < 10 → Numeral cs n → Numeral (cs ++ [Nat.digitChar d]) (10 * n + d)
  | group (d : Nat) {cs : List Char} {n : Nat} : d < 10 → Numeral cs n → Numeral (cs ++ ['_', Nat.digitChar d]) (10 * n + d)

theorem digit_iff {c : Char} : c.isDigit = true ↔ ∃ d, d < 10 ∧ c = Nat.digitChar d := by
  constructor
  · intro h
    have := Char.isDigit_iff_toNat.1 h
    have h0 : '0'.toNat = 48 := by decide
    have h9 : '9'.toNat = 57 := by decide
    refine ⟨c.toNat - 48, by omega, ?_⟩
    have hc : c = Char.ofNat c.toNat := (Char.ofNat_toNat c).symm
    generalize c.toNat = n at *
    subst hc
    obtain ⟨k, rfl⟩ : ∃ k, n = 48 + k := ⟨n - 48, by omega⟩
    have : k < 10 := by omega
    interval_cases k <;> decide
  · rintro ⟨d, hd, rfl⟩
    interval_cases d <;> decide

theorem digit_val {d : Nat} (hd : d < 10) : (Nat.digitChar d).toNat - '0'.toNat = d := by
  interval_cases d <;> decide

theorem digit_facts {d : Nat} (hd : d < 10) : (Nat.digitChar d).isDigit = true ∧ Nat.digitChar d ≠ '_' ∧ Nat.digitChar d ≠ '-' ∧
    Nat.digitChar d ≠ '+' ∧ ¬ Blank (Nat.digitChar d) := by
  unfold Blank
  interval_cases d <;> decide

theorem digitsVal_snoc (cs : List Char) (acc : Nat) (d : Nat) (hd : d < 10) (n : Nat) (h : digitsVal acc cs = some n) :
    digitsVal acc (cs ++ [Nat.digitChar d]) = some (10 * n + d) ∧ digitsVal acc (cs ++ ['_', Nat.digitChar d]) = some (10 * n + d) := by
  induction acc, cs using digitsVal.induct with
  | case1 acc =>
    obtain ⟨h1, h2, -⟩ := digit_facts hd
    simp only [digitsVal, Option.some.injEq] at h
    subst h
    have hv := digit_val hd
    generalize Nat.digitChar d = c at *
    simp only [List.nil_append, digitsVal, h1, hv, if_true, Nat.mul_comm, and_self]
  | case2 acc c cs hc ih =>
    simp only [digitsVal, hc, if_true] at h
    simpa [digitsVal, hc] using ih h
  | case3 acc c cs hc => simp [digitsVal, hc] at h
  | case4 acc c cs hne hc ih =>
    have e : ∀ l, digitsVal acc (c :: l) = digitsVal (acc * 10 + (c.toNat - '0'.toNat)) l := by
      intro l
      rw [digitsVal.eq_3 _ _ _ (by rintro c' cs' rfl; exact absurd hc (by decide))]
      rw [if_pos hc]
    rw [e] at h
    rw [List.cons_append, List.cons_append, e, e]
    exact ih h
  | case5 acc c cs hne hc =>
    rw [digitsVal.eq_3 _ _ _ hne] at h
    simp [hc] at h

theorem numeral_unsigned {cs : List Char} {n : Nat} (h : Numeral cs n) : unsigned cs = some n := by
  have key : ∀ {cs : List Char} {n : Nat}, Numeral cs n → ∃ d t, d < 10 ∧ cs = Nat.digitChar d :: t ∧ digitsVal d t = some n := by
    intro cs n h
    induction h with
    | digit d hd => exact ⟨d, [], hd, rfl, by simp [digitsVal]⟩
    | next d hd _ ih =>
      obtain ⟨e, t, he, rfl, h⟩ := ih
      exact ⟨e, _, he, rfl, (digitsVal_snoc _ _ _ hd _ h).1⟩
    | group d hd _ ih =>
      obtain ⟨e, t, he, rfl, h⟩ := ih
      exact ⟨e, _, he, rfl, (digitsVal_snoc _ _ _ hd _ h).2⟩
  obtain ⟨d, t, hd, rfl, h⟩ := key h
  simp only [unsigned, (digit_facts hd).1, if_true, digit_val hd]
  assumption

theorem unsigned_numeral {cs : List Char} {n : Nat} (h : unsigned cs = some n) : Numeral cs n := by
  have key : ∀ (acc : Nat) (t pre : List Char) (m : Nat), Numeral pre acc → digitsVal acc t = some m → Numeral (pre ++ t) m := by
    intro acc t
    induction acc, t using digitsVal.induct with
    | case1 acc =>
      intro pre m hp h
      simp only [digitsVal, Option.some.injEq] at h
      subst h
      simpa using hp
    | case2 acc c cs hc ih =>
      intro pre m hp h
      simp only [digitsVal, hc, if_true] at h
      obtain ⟨d, hd, rfl⟩ := digit_iff.1 hc
      rw [digit_val hd] at h ih
      have := ih (pre ++ ['_', Nat.digitChar d]) m (by rw [Nat.mul_comm]; exact .group d hd hp) h
      simpa using this
    | case3 acc c cs hc => intro pre m _ h; simp [digitsVal, hc] at h
    | case4 acc c cs hne hc ih =>
      intro pre m hp h
      rw [digitsVal.eq_3 _ _ _ (by rintro c' cs' rfl; exact absurd hc (by decide)), if_pos hc] at h
      obtain ⟨d, hd, rfl⟩ := digit_iff.1 hc
      rw [digit_val hd] at h ih
      have := ih (pre ++ [Nat.digitChar d]) m (by rw [Nat.mul_comm]; exact .next d hd hp) h
      simpa using this
    | case5 acc c cs hne hc =>
      intro pre m _ h
      rw [digitsVal.eq_3 _ _ _ hne] at h
      simp [hc] at h
  cases cs with
  | nil => simp [unsigned] at h
  | cons c cs =>
    by_cases hc : c.isDigit = true
    · obtain ⟨d, hd, rfl⟩ := digit_iff.1 hc
      simp only [unsigned, hc, if_true, digit_val hd] at h
      exact key d cs [Nat.digitChar d] n (.digit d hd) h
    · simp [unsigned, hc] at h

theorem Numeral.ends {cs : List Char} {n : Nat} (h : Numeral cs n) :
    (∃ c t, cs = c :: t ∧ ¬ Blank c ∧ c ≠ '-' ∧ c ≠ '+') ∧ ∃ c t, cs = t ++ [c] ∧ ¬ Blank c := by
  induction h with
  | digit d hd =>
    obtain ⟨-, -, h1, h2, h3⟩ := digit_facts hd
    exact ⟨⟨_, _, rfl, h3, h1, h2⟩, _, [], rfl, h3⟩
  | next d hd _ ih =>
    obtain ⟨⟨c, t, rfl, h⟩, -⟩ := ih
    exact ⟨⟨c, _, rfl, h⟩, _, _, rfl, (digit_facts hd).2.2.2.2⟩
  | @group d cs n hd _ ih =>
    obtain ⟨⟨c, t, rfl, h⟩, -⟩ := ih
    exact ⟨⟨c, _, rfl, h⟩, _, c :: t ++ ['_'], by simp, (digit_facts hd).2.2.2.2⟩

theorem strip_eq {a m b : List Char} (ha : ∀ c ∈ a, Blank c) (hb : ∀ c ∈ b, Blank c) (h1 : ∃ c t, m = c :: t ∧ ¬ Blank c)
    (h2 : ∃ c t, m = t ++ [c] ∧ ¬ Blank c) : strip (a ++ m ++ b) = m := by
  obtain ⟨c, t, rfl, hc⟩ := h1
  obtain ⟨d, u, hm, hd⟩ := h2
  unfold strip
  simp only
  rw [List.append_assoc, List.dropWhile_append_of_pos (by intro c hc; simpa [Blank] using ha c hc), List.cons_append,
    List.dropWhile_cons_of_neg (by simpa [Blank] using hc), ← List.cons_append, List.reverse_append,
    List.dropWhile_append_of_pos (by intro c hc; simpa [Blank] using hb c (List.mem_reverse.1 hc)), hm, List.reverse_append,
    List.reverse_singleton, List.singleton_append, List.dropWhile_cons_of_neg (by simpa [Blank] using hd)]
  simp

theorem strip_parts (s : List Char) : ∃ a b, s = a ++ strip s ++ b ∧ (∀ c ∈ a, Blank c) ∧ ∀ c ∈ b, Blank c := by
  have key : ∀ p : Char → Bool, ∀ l : List Char, ∃ a, l = a ++ l.dropWhile p ∧ ∀ c ∈ a, p c = true := fun p l =>
    ⟨l.takeWhile p, (List.takeWhile_append_dropWhile).symm, fun c hc => by
      have := List.all_takeWhile (p := p) (l := l)
      exact List.all_eq_true.1 this c hc⟩
  unfold strip
  simp only
  obtain ⟨a, h1, h2⟩ := key (fun c => decide (c = ' ' ∨ ('\t' ≤ c ∧ c ≤ '\r') ∨ ('\x1c' ≤ c ∧ c ≤ '\x1f'))) s
  generalize s.dropWhile (fun c => decide (c = ' ' ∨ ('\t' ≤ c ∧ c ≤ '\r') ∨ ('\x1c' ≤ c ∧ c ≤ '\x1f'))) = m at *
  obtain ⟨b, h3, h4⟩ := key (fun c => decide (c = ' ' ∨ ('\t' ≤ c ∧ c ≤ '\r') ∨ ('\x1c' ≤ c ∧ c ≤ '\x1f'))) m.reverse
  refine ⟨a, b.reverse, ?_, fun c hc => by simpa [Blank] using h2 c hc, fun c hc => by simpa [Blank] using h4 c (List.mem_reverse.1 hc)⟩
  have := congrArg List.reverse h3
  rw [List.reverse_reverse, List.reverse_append] at this
  rw [List.append_assoc, ← this]
  exact h1

/-- C67. `int(s)`, for strings of ASCII characters: it returns exactly when `s` is a numeral - digits, with single underscores allowed
between two of them - with an optional sign in front and white space around it, and then it is the number written. Otherwise it raises
ValueError. -/
theorem C67_int_iff (s : String) (i : Int) : pyInt s = some i ↔ ∃ a sign cs b, ∃ n : Nat, s.toList = a ++ (sign ++ cs) ++ b ∧ (∀ c ∈ a, Blank c) ∧
    (∀ c ∈ b, Blank c) ∧ Numeral cs n ∧ ((sign = [] ∧ i = n) ∨ (sign = ['+'] ∧ i = n) ∨ (sign = ['-'] ∧ i = -n)) := by
  constructor
  · intro h
    obtain ⟨a, b, h1, h2, h3⟩ := strip_parts s.toList
    unfold pyInt at h
    split at h
    · rename_i cs he
      obtain ⟨n, hn, rfl⟩ := Option.map_eq_some_iff.1 h
      exact ⟨a, ['-'], cs, b, n, by rw [h1, he]; rfl, h2, h3, unsigned_numeral hn, Or.inr (Or.inr ⟨rfl, rfl⟩)⟩
    · rename_i cs he
      obtain ⟨n, hn, rfl⟩ := Option.map_eq_some_iff.1 h
      exact ⟨a, ['+'], cs, b, n, by rw [h1, he]; rfl, h2, h3, unsigned_numeral hn, Or.inr (Or.inl ⟨rfl, rfl⟩)⟩
    · obtain ⟨n, hn, rfl⟩ := Option.map_eq_some_iff.1 h
      exact ⟨a, [], _, b, n, h1, h2, h3, unsigned_numeral hn, Or.inl ⟨rfl, rfl⟩⟩
  · rintro ⟨a, sign, cs, b, n, hs, ha, hb, hn, h⟩
    obtain ⟨⟨c, t, hc, hc1, hc2, hc3⟩, d, u, hd, hd1⟩ := hn.ends
    have hu := numeral_unsigned hn
    have hst : strip s.toList = sign ++ cs := by
      rw [hs]
      refine strip_eq ha hb ?_ ⟨d, sign ++ u, by rw [hd, List.append_assoc], hd1⟩
      rcases h with ⟨rfl, -⟩ | ⟨rfl, -⟩ | ⟨rfl, -⟩
      · exact ⟨c, t, hc, hc1⟩
      · exact ⟨'+', cs, rfl, by unfold Blank; decide⟩
      · exact ⟨'-', cs, rfl, by unfold Blank; decide⟩
    unfold pyInt
    rw [hst]
    rcases h with ⟨rfl, rfl⟩ | ⟨rfl, rfl⟩ | ⟨rfl, rfl⟩
    · split
      · rename_i he; simp [hc] at he; exact absurd he.1 hc2
      · rename_i he; simp [hc] at he; exact absurd he.1 hc3
      · rw [List.nil_append, hu]; rfl
    · simp [hu]
    · simp [hu]

/-- Written with an underscore. -/
example : Numeral "1_024".toList 1024 :=
  .next (cs := "1_02".toList) 4 (by decide) (.next (cs := "1_0".toList) 2 (by decide) (.group (cs := "1".toList) 0 (by decide) (.digit 1 (by decide))))

example : pyInt "\t+1_024 " = some 1024 := (C67_int_iff _ _).2 ⟨['\t'], ['+'], "1_024".toList, [' '], 1024, by decide, by simp [Blank], by simp [Blank],
  .next (cs := "1_02".toList) 4 (by decide) (.next (cs := "1_0".toList) 2 (by decide) (.group (cs := "1".toList) 0 (by decide) (.digit 1 (by decide)))),
  by simp⟩

end Verif.Cli
