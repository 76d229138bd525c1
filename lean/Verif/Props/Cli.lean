import Mathlib.Tactic.Common
import Mathlib.Tactic.Ring
import Std.Data.String.ToInt
import Verif.Model.Cli
import Verif.Proofs.Strings
/-
C67: what a command line of the annealing experiment runs, and under which names its results are kept.
-/
namespace Verif
namespace Cli

/-! ### Spec -/

/-- The options. -/
abbrev options : List String :=
  ["help", "objective", "seed", "resample", "iterations", "num_targets", "sample_budget", "optimize_path", "train_and_test", "smoketest"]

/-- The option written `o` is the option `n`: its name, or the beginning of its name and of no other. -/
def Means (o n : String) : Prop :=
  n ∈ options ∧ (o = n ∨ (o ∉ options ∧ o.toList <+: n.toList ∧ ∀ m ∈ options, o.toList <+: m.toList → m = n))

/-- `v` is the last value given for the option `n`. -/
def LastGiven (opts : List (String × String)) (n v : String) : Prop :=
  ∃ pre o post, opts = pre ++ (o, v) :: post ∧ Means o n ∧ ∀ p ∈ post, ¬ Means p.1 n

/-- The option `n` is not given. -/
def NotGiven (opts : List (String × String)) (n : String) : Prop := ∀ p ∈ opts, ¬ Means p.1 n

/-- `x` is the value of the option `n`: the last value given, converted, or the default. -/
def OptIs {β : Type} (opts : List (String × String)) (n : String) (conv : String → Option β) (dflt x : β) : Prop :=
  (∀ v, LastGiven opts n v → conv v = some x) ∧ (NotGiven opts n → x = dflt)

/-- A string as a flag: everything but the empty string is true. -/
def flagText (v : String) : Option Bool := some (decide (v ≠ ""))

/-! ### Lemmas on characters -/

theorem int_toList (i : Int) : (toString i).toList = match i with
    | .ofNat n => Nat.toDigits 10 n
    | .negSucc n => '-' :: Nat.toDigits 10 (n + 1) := by
  rw [Int.toString_eq_repr]
  cases i with
  | ofNat n => simp [Int.repr, Nat.toList_repr]
  | negSucc n => simp [Int.repr, Nat.toList_repr, String.Internal.append]

theorem int_chars (i : Int) {c : Char} (h : c ∈ (toString i).toList) : c = '-' ∨ c.isDigit := by
  rw [int_toList] at h
  cases i with
  | ofNat n => exact .inr (Nat.isDigit_of_mem_toDigits (by decide) (by decide) h)
  | negSucc n =>
    rcases List.mem_cons.1 h with h | h
    · exact .inl h
    · exact .inr (Nat.isDigit_of_mem_toDigits (by decide) (by decide) h)

theorem int_not_mem (i : Int) {c : Char} (h1 : c ≠ '-') (h2 : c.isDigit = false) : c ∉ (toString i).toList := fun h => by
  rcases int_chars i h with h | h
  · exact h1 h
  · rw [h2] at h; cases h

theorem toString_int_inj {i j : Int} (h : toString i = toString j) : i = j := by
  rw [Int.toString_eq_repr, Int.toString_eq_repr] at h
  exact Int.repr_injective h

theorem digitsVal_digits (cs : List Char) (acc : Nat) (h : ∀ c ∈ cs, c.isDigit = true) :
    digitsVal acc cs = some (Nat.ofDigitChars 10 cs acc) := by
  induction cs generalizing acc with
  | nil => simp [digitsVal]
  | cons c cs ih =>
    have hc := h c (by simp)
    have hne : c ≠ '_' := by rintro rfl; revert hc; decide
    have : digitsVal acc (c :: cs) = if c.isDigit then digitsVal (acc * 10 + (c.toNat - '0'.toNat)) cs else none := by
      cases cs <;> simp [digitsVal, hne]
    rw [this, if_pos hc, ih _ (fun d hd => h d (by simp [hd])), Nat.ofDigitChars_cons, Nat.mul_comm]

theorem unsigned_toDigits (n : Nat) : unsigned (Nat.toDigits 10 n) = some n := by
  have h := Nat.ofDigitChars_ten_toDigits (n := n)
  have hd : ∀ c ∈ Nat.toDigits 10 n, c.isDigit = true := fun c hc => Nat.isDigit_of_mem_toDigits (by decide) (by decide) hc
  cases hl : Nat.toDigits 10 n with
  | nil => exact absurd hl Nat.toDigits_ne_nil
  | cons c cs =>
    rw [hl] at h hd
    rw [unsigned, if_pos (hd c (by simp)), digitsVal_digits _ _ (fun d hd' => hd d (by simp [hd']))]
    rw [Nat.ofDigitChars_cons] at h
    simpa using h

theorem dropWhile_none {p : Char → Bool} {l : List Char} (h : ∀ c ∈ l, p c = false) : l.dropWhile p = l := by
  cases l with
  | nil => rfl
  | cons a t => simp [h a (by simp)]

theorem strip_none {l : List Char} (h : ∀ c ∈ l, c = '-' ∨ c.isDigit) : strip l = l := by
  have hp : ∀ c ∈ l, decide (c = ' ' ∨ ('\t' ≤ c ∧ c ≤ '\r') ∨ ('\x1c' ≤ c ∧ c ≤ '\x1f')) = false := by
    intro c hc
    rw [decide_eq_false_iff_not]
    rintro h'
    have hn : c.toNat ≤ 32 := by
      rcases h' with rfl | ⟨_, h'⟩ | ⟨_, h'⟩
      · decide
      · exact le_trans (show c.toNat ≤ '\r'.toNat from h') (by decide)
      · exact le_trans (show c.toNat ≤ '\x1f'.toNat from h') (by decide)
    rcases h c hc with rfl | hd
    · revert hn; decide
    · have := (Char.isDigit_iff_toNat.1 hd).1
      have h0 : '0'.toNat = 48 := by decide
      omega
  unfold strip
  simp only
  rw [dropWhile_none hp, dropWhile_none (fun c hc => hp c (List.mem_reverse.1 hc)), List.reverse_reverse]

/-- A number written in decimal is read back. -/
theorem C67_int (i : Int) : pyInt (toString i) = some i := by
  unfold pyInt
  rw [strip_none fun c hc => int_chars i hc, int_toList]
  cases i with
  | negSucc n => simp [unsigned_toDigits]; omega
  | ofNat n =>
    have hd : ∀ c ∈ Nat.toDigits 10 n, c.isDigit = true := fun c hc => Nat.isDigit_of_mem_toDigits (by decide) (by decide) hc
    have hu := unsigned_toDigits n
    simp only
    cases hl : Nat.toDigits 10 n with
    | nil => exact absurd hl Nat.toDigits_ne_nil
    | cons c cs =>
      rw [hl] at hd hu
      have hc := hd c (by simp)
      have h1 : c ≠ '-' := by rintro rfl; revert hc; decide
      have h2 : c ≠ '+' := by rintro rfl; revert hc; decide
      split
      · rename_i h; simp at h; exact absurd h.1 h1
      · rename_i h; simp at h; exact absurd h.1 h2
      · rw [hu]; rfl

example : pyInt " -1_000" = some (-1000) := by decide +kernel
example : pyInt "1__0" = none := by decide +kernel

/-! ### The command line -/

theorem filter_singleton {α : Type} {p : α → Bool} {l : List α} (hl : l.Nodup) (n : α) :
    l.filter p = [n] ↔ n ∈ l ∧ p n = true ∧ ∀ m ∈ l, p m = true → m = n := by
  constructor
  · intro h
    have hm : n ∈ l.filter p := by simp [h]
    rw [List.mem_filter] at hm
    refine ⟨hm.1, hm.2, fun m hm' hp => ?_⟩
    have : m ∈ l.filter p := List.mem_filter.2 ⟨hm', hp⟩
    simpa [h] using this
  · rintro ⟨h1, h2, h3⟩
    have hnd := hl.filter p
    have hmem : ∀ m, m ∈ l.filter p ↔ m = n := fun m => by
      rw [List.mem_filter]
      exact ⟨fun h => h3 m h.1 h.2, by rintro rfl; exact ⟨h1, h2⟩⟩
    cases hf : l.filter p with
    | nil => exact absurd ((hmem n).2 rfl) (by simp [hf])
    | cons a t =>
      rw [hf] at hmem hnd
      have ha := (hmem a).1 (by simp)
      cases t with
      | nil => rw [ha]
      | cons b t' =>
        have hb := (hmem b).1 (by simp)
        simp [ha, hb] at hnd

theorem resolve_iff (o n : String) : resolve o = some n ↔ Means o n := by
  have he : options = optionNames := rfl
  unfold resolve Means
  rw [he]
  by_cases h : o ∈ optionNames
  · rw [if_pos h]
    constructor
    · rintro ⟨⟩; exact ⟨h, .inl rfl⟩
    · rintro ⟨_, rfl | ⟨h', _⟩⟩
      · rfl
      · exact absurd h h'
  · rw [if_neg h]
    have hnd : optionNames.Nodup := by decide
    have key := fun n => filter_singleton (p := fun n : String => o.toList.isPrefixOf n.toList) hnd n
    constructor
    · intro h'
      split at h'
      · rename_i m hm
        cases h'
        obtain ⟨h1, h2, h3⟩ := (key n).1 hm
        exact ⟨h1, .inr ⟨h, by simpa using h2, fun m hm hp => h3 m hm (by simpa using hp)⟩⟩
      · cases h'
    · rintro ⟨h1, rfl | ⟨_, h2, h3⟩⟩
      · exact absurd h1 h
      · rw [(key n).2 ⟨h1, by simpa using h2, fun m hm hp => h3 m hm (by simpa using hp)⟩]

/-- An option: how a value is converted and where it is stored. -/
structure Field (β : Type) (n : String) (conv : String → Option β) (get : Args → β) : Prop where
  here : ∀ a v a', store a n v = some a' → conv v = some (get a')
  other : ∀ a m v a', m ∈ optionNames → m ≠ n → store a m v = some a' → get a' = get a

theorem pyBool_flag (v : String) : flagText v = some (pyBool v) := by
  by_cases hv : v = "" <;> simp [flagText, pyBool, hv]

theorem store_cases {a : Args} {m v : String} {a' : Args} (h : store a m v = some a') :
    (m = "objective" ∧ ∃ x, some v = some x ∧ a' = { a with objective := x }) ∨
    (m = "seed" ∧ ∃ x, pyInt v = some x ∧ a' = { a with seed := x }) ∨
    (m = "resample" ∧ ∃ x, flagText v = some x ∧ a' = { a with resample := x }) ∨
    (m = "iterations" ∧ ∃ x, pyInt v = some x ∧ a' = { a with iterations := x }) ∨
    (m = "num_targets" ∧ ∃ x, pyInt v = some x ∧ a' = { a with numTargets := x }) ∨
    (m = "sample_budget" ∧ ∃ x, pyInt v = some x ∧ a' = { a with sampleBudget := x }) ∨
    (m = "optimize_path" ∧ ∃ x, flagText v = some x ∧ a' = { a with optimizePath := x }) ∨
    (m = "train_and_test" ∧ ∃ x, flagText v = some x ∧ a' = { a with trainAndTest := x }) ∨
    (m = "smoketest" ∧ ∃ x, flagText v = some x ∧ a' = { a with smoketest := x }) := by
  unfold store at h
  split at h <;> simp only [Option.map_eq_some_iff, Option.some.injEq, reduceCtorEq] at h
  all_goals first
    | (obtain ⟨x, h1, h2⟩ := h; simp [h1, ← h2])
    | simp [← h, pyBool_flag]

theorem field_objective : Field String "objective" some Args.objective where
  here a v a' h := by
    rcases store_cases h with ⟨hm, x, h1, rfl⟩ | ⟨hm, x, h1, rfl⟩ | ⟨hm, x, h1, rfl⟩ | ⟨hm, x, h1, rfl⟩ | ⟨hm, x, h1, rfl⟩ | ⟨hm, x, h1, rfl⟩ | ⟨hm, x, h1, rfl⟩ | ⟨hm, x, h1, rfl⟩ | ⟨hm, x, h1, rfl⟩ <;> first | exact h1 | simp at hm
  other a m v a' _ hne h := by
    rcases store_cases h with ⟨hm, x, h1, rfl⟩ | ⟨hm, x, h1, rfl⟩ | ⟨hm, x, h1, rfl⟩ | ⟨hm, x, h1, rfl⟩ | ⟨hm, x, h1, rfl⟩ | ⟨hm, x, h1, rfl⟩ | ⟨hm, x, h1, rfl⟩ | ⟨hm, x, h1, rfl⟩ | ⟨hm, x, h1, rfl⟩ <;> first | rfl | exact absurd hm hne
theorem field_seed : Field Int "seed" pyInt Args.seed where
  here a v a' h := by
    rcases store_cases h with ⟨hm, x, h1, rfl⟩ | ⟨hm, x, h1, rfl⟩ | ⟨hm, x, h1, rfl⟩ | ⟨hm, x, h1, rfl⟩ | ⟨hm, x, h1, rfl⟩ | ⟨hm, x, h1, rfl⟩ | ⟨hm, x, h1, rfl⟩ | ⟨hm, x, h1, rfl⟩ | ⟨hm, x, h1, rfl⟩ <;> first | exact h1 | simp at hm
  other a m v a' _ hne h := by
    rcases store_cases h with ⟨hm, x, h1, rfl⟩ | ⟨hm, x, h1, rfl⟩ | ⟨hm, x, h1, rfl⟩ | ⟨hm, x, h1, rfl⟩ | ⟨hm, x, h1, rfl⟩ | ⟨hm, x, h1, rfl⟩ | ⟨hm, x, h1, rfl⟩ | ⟨hm, x, h1, rfl⟩ | ⟨hm, x, h1, rfl⟩ <;> first | rfl | exact absurd hm hne
theorem field_resample : Field Bool "resample" flagText Args.resample where
  here a v a' h := by
    rcases store_cases h with ⟨hm, x, h1, rfl⟩ | ⟨hm, x, h1, rfl⟩ | ⟨hm, x, h1, rfl⟩ | ⟨hm, x, h1, rfl⟩ | ⟨hm, x, h1, rfl⟩ | ⟨hm, x, h1, rfl⟩ | ⟨hm, x, h1, rfl⟩ | ⟨hm, x, h1, rfl⟩ | ⟨hm, x, h1, rfl⟩ <;> first | exact h1 | simp at hm
  other a m v a' _ hne h := by
    rcases store_cases h with ⟨hm, x, h1, rfl⟩ | ⟨hm, x, h1, rfl⟩ | ⟨hm, x, h1, rfl⟩ | ⟨hm, x, h1, rfl⟩ | ⟨hm, x, h1, rfl⟩ | ⟨hm, x, h1, rfl⟩ | ⟨hm, x, h1, rfl⟩ | ⟨hm, x, h1, rfl⟩ | ⟨hm, x, h1, rfl⟩ <;> first | rfl | exact absurd hm hne
theorem field_iterations : Field Int "iterations" pyInt Args.iterations where
  here a v a' h := by
    rcases store_cases h with ⟨hm, x, h1, rfl⟩ | ⟨hm, x, h1, rfl⟩ | ⟨hm, x, h1, rfl⟩ | ⟨hm, x, h1, rfl⟩ | ⟨hm, x, h1, rfl⟩ | ⟨hm, x, h1, rfl⟩ | ⟨hm, x, h1, rfl⟩ | ⟨hm, x, h1, rfl⟩ | ⟨hm, x, h1, rfl⟩ <;> first | exact h1 | simp at hm
  other a m v a' _ hne h := by
    rcases store_cases h with ⟨hm, x, h1, rfl⟩ | ⟨hm, x, h1, rfl⟩ | ⟨hm, x, h1, rfl⟩ | ⟨hm, x, h1, rfl⟩ | ⟨hm, x, h1, rfl⟩ | ⟨hm, x, h1, rfl⟩ | ⟨hm, x, h1, rfl⟩ | ⟨hm, x, h1, rfl⟩ | ⟨hm, x, h1, rfl⟩ <;> first | rfl | exact absurd hm hne
theorem field_numTargets : Field Int "num_targets" pyInt Args.numTargets where
  here a v a' h := by
    rcases store_cases h with ⟨hm, x, h1, rfl⟩ | ⟨hm, x, h1, rfl⟩ | ⟨hm, x, h1, rfl⟩ | ⟨hm, x, h1, rfl⟩ | ⟨hm, x, h1, rfl⟩ | ⟨hm, x, h1, rfl⟩ | ⟨hm, x, h1, rfl⟩ | ⟨hm, x, h1, rfl⟩ | ⟨hm, x, h1, rfl⟩ <;> first | exact h1 | simp at hm
  other a m v a' _ hne h := by
    rcases store_cases h with ⟨hm, x, h1, rfl⟩ | ⟨hm, x, h1, rfl⟩ | ⟨hm, x, h1, rfl⟩ | ⟨hm, x, h1, rfl⟩ | ⟨hm, x, h1, rfl⟩ | ⟨hm, x, h1, rfl⟩ | ⟨hm, x, h1, rfl⟩ | ⟨hm, x, h1, rfl⟩ | ⟨hm, x, h1, rfl⟩ <;> first | rfl | exact absurd hm hne
theorem field_sampleBudget : Field Int "sample_budget" pyInt Args.sampleBudget where
  here a v a' h := by
    rcases store_cases h with ⟨hm, x, h1, rfl⟩ | ⟨hm, x, h1, rfl⟩ | ⟨hm, x, h1, rfl⟩ | ⟨hm, x, h1, rfl⟩ | ⟨hm, x, h1, rfl⟩ | ⟨hm, x, h1, rfl⟩ | ⟨hm, x, h1, rfl⟩ | ⟨hm, x, h1, rfl⟩ | ⟨hm, x, h1, rfl⟩ <;> first | exact h1 | simp at hm
  other a m v a' _ hne h := by
    rcases store_cases h with ⟨hm, x, h1, rfl⟩ | ⟨hm, x, h1, rfl⟩ | ⟨hm, x, h1, rfl⟩ | ⟨hm, x, h1, rfl⟩ | ⟨hm, x, h1, rfl⟩ | ⟨hm, x, h1, rfl⟩ | ⟨hm, x, h1, rfl⟩ | ⟨hm, x, h1, rfl⟩ | ⟨hm, x, h1, rfl⟩ <;> first | rfl | exact absurd hm hne
theorem field_optimizePath : Field Bool "optimize_path" flagText Args.optimizePath where
  here a v a' h := by
    rcases store_cases h with ⟨hm, x, h1, rfl⟩ | ⟨hm, x, h1, rfl⟩ | ⟨hm, x, h1, rfl⟩ | ⟨hm, x, h1, rfl⟩ | ⟨hm, x, h1, rfl⟩ | ⟨hm, x, h1, rfl⟩ | ⟨hm, x, h1, rfl⟩ | ⟨hm, x, h1, rfl⟩ | ⟨hm, x, h1, rfl⟩ <;> first | exact h1 | simp at hm
  other a m v a' _ hne h := by
    rcases store_cases h with ⟨hm, x, h1, rfl⟩ | ⟨hm, x, h1, rfl⟩ | ⟨hm, x, h1, rfl⟩ | ⟨hm, x, h1, rfl⟩ | ⟨hm, x, h1, rfl⟩ | ⟨hm, x, h1, rfl⟩ | ⟨hm, x, h1, rfl⟩ | ⟨hm, x, h1, rfl⟩ | ⟨hm, x, h1, rfl⟩ <;> first | rfl | exact absurd hm hne
theorem field_trainAndTest : Field Bool "train_and_test" flagText Args.trainAndTest where
  here a v a' h := by
    rcases store_cases h with ⟨hm, x, h1, rfl⟩ | ⟨hm, x, h1, rfl⟩ | ⟨hm, x, h1, rfl⟩ | ⟨hm, x, h1, rfl⟩ | ⟨hm, x, h1, rfl⟩ | ⟨hm, x, h1, rfl⟩ | ⟨hm, x, h1, rfl⟩ | ⟨hm, x, h1, rfl⟩ | ⟨hm, x, h1, rfl⟩ <;> first | exact h1 | simp at hm
  other a m v a' _ hne h := by
    rcases store_cases h with ⟨hm, x, h1, rfl⟩ | ⟨hm, x, h1, rfl⟩ | ⟨hm, x, h1, rfl⟩ | ⟨hm, x, h1, rfl⟩ | ⟨hm, x, h1, rfl⟩ | ⟨hm, x, h1, rfl⟩ | ⟨hm, x, h1, rfl⟩ | ⟨hm, x, h1, rfl⟩ | ⟨hm, x, h1, rfl⟩ <;> first | rfl | exact absurd hm hne
theorem field_smoketest : Field Bool "smoketest" flagText Args.smoketest where
  here a v a' h := by
    rcases store_cases h with ⟨hm, x, h1, rfl⟩ | ⟨hm, x, h1, rfl⟩ | ⟨hm, x, h1, rfl⟩ | ⟨hm, x, h1, rfl⟩ | ⟨hm, x, h1, rfl⟩ | ⟨hm, x, h1, rfl⟩ | ⟨hm, x, h1, rfl⟩ | ⟨hm, x, h1, rfl⟩ | ⟨hm, x, h1, rfl⟩ <;> first | exact h1 | simp at hm
  other a m v a' _ hne h := by
    rcases store_cases h with ⟨hm, x, h1, rfl⟩ | ⟨hm, x, h1, rfl⟩ | ⟨hm, x, h1, rfl⟩ | ⟨hm, x, h1, rfl⟩ | ⟨hm, x, h1, rfl⟩ | ⟨hm, x, h1, rfl⟩ | ⟨hm, x, h1, rfl⟩ | ⟨hm, x, h1, rfl⟩ | ⟨hm, x, h1, rfl⟩ <;> first | rfl | exact absurd hm hne

theorem parse_cons {a b : Args} {o v : String} {opts : List (String × String)} (h : parseArgs a ((o, v) :: opts) = some b) :
    ∃ n a', Means o n ∧ store a n v = some a' ∧ parseArgs a' opts = some b := by
  simp only [parseArgs, Option.bind_eq_some_iff] at h
  obtain ⟨n, h1, a', h2, h3⟩ := h
  exact ⟨n, a', (resolve_iff o n).1 h1, h2, h3⟩

theorem means_unique {o n m : String} (h : Means o n) (h' : Means o m) : n = m := by
  have h1 := (resolve_iff o n).2 h
  rw [(resolve_iff o m).2 h'] at h1
  exact (Option.some.inj h1).symm

theorem Field.notGiven {β : Type} {n : String} {conv : String → Option β} {get : Args → β} (hf : Field β n conv get)
    {opts : List (String × String)} : ∀ {a b : Args}, parseArgs a opts = some b → NotGiven opts n → get b = get a := by
  induction opts with
  | nil => intro a b h _; cases h; rfl
  | cons p opts ih =>
    intro a b h hn
    obtain ⟨m, a', h1, h2, h3⟩ := parse_cons (o := p.1) (v := p.2) h
    rw [ih h3 fun q hq => hn q (by simp [hq])]
    refine hf.other a m p.2 a' h1.1 ?_ h2
    rintro rfl
    exact hn p (by simp) h1

theorem Field.optIs {β : Type} {n : String} {conv : String → Option β} {get : Args → β} (hf : Field β n conv get)
    {opts : List (String × String)} {a b : Args} (h : parseArgs a opts = some b) : OptIs opts n conv (get a) (get b) := by
  refine ⟨?_, hf.notGiven h⟩
  rintro v ⟨pre, o, post, rfl, ho, hpost⟩
  induction pre generalizing a with
  | nil =>
    obtain ⟨m, a', h1, h2, h3⟩ := parse_cons h
    cases means_unique h1 ho
    rw [hf.here _ _ _ h2, hf.notGiven h3 hpost]
  | cons p pre ih =>
    obtain ⟨m, a', h1, h2, h3⟩ := parse_cons (o := p.1) (v := p.2) h
    exact ih h3

/-- The value of every option is the last one given, converted, or the default. A flag is on for every text but the empty one:
`--resample=False` turns resampling on. -/
theorem C67_options (opts : List (String × String)) (a : Args) (h : parseArgs defaults opts = some a) :
    OptIs opts "objective" some "nvo_rkl" a.objective ∧ OptIs opts "seed" pyInt 0 a.seed ∧
    OptIs opts "resample" flagText false a.resample ∧ OptIs opts "iterations" pyInt 20000 a.iterations ∧
    OptIs opts "num_targets" pyInt 4 a.numTargets ∧ OptIs opts "sample_budget" pyInt 288 a.sampleBudget ∧
    OptIs opts "optimize_path" flagText false a.optimizePath ∧ OptIs opts "train_and_test" flagText true a.trainAndTest ∧
    OptIs opts "smoketest" flagText false a.smoketest :=
  ⟨field_objective.optIs h, field_seed.optIs h, field_resample.optIs h, field_iterations.optIs h, field_numTargets.optIs h,
    field_sampleBudget.optIs h, field_optimizePath.optIs h, field_trainAndTest.optIs h, field_smoketest.optIs h⟩

theorem store_none {a : Args} {m v : String} (hm : m ∈ optionNames) : store a m v = none ↔
    m = "help" ∨ (m ∈ ["seed", "iterations", "num_targets", "sample_budget"] ∧ pyInt v = none) := by
  unfold store
  split <;> simp
  rename_i h1 h2 h3 h4 h5 h6 h7 h8 h9
  simp only [optionNames, List.mem_cons, List.not_mem_nil, or_false] at hm
  tauto

/-- The parser exits exactly if some option is unknown or ambiguous, asks for help, or wants an integer and is given something else. -/
theorem C67_exits (opts : List (String × String)) (a : Args) :
    parseArgs a opts = none ↔ ∃ p ∈ opts, (∀ n, ¬ Means p.1 n) ∨ Means p.1 "help" ∨
      ∃ n ∈ ["seed", "iterations", "num_targets", "sample_budget"], Means p.1 n ∧ pyInt p.2 = none := by
  induction opts generalizing a with
  | nil => simp [parseArgs]
  | cons p opts ih =>
    have hp : parseArgs a (p :: opts) = (resolve p.1).bind fun n => (store a n p.2).bind fun a' => parseArgs a' opts := rfl
    rw [hp]
    rw [List.exists_mem_cons_iff]
    cases hr : resolve p.1 with
    | none =>
      simp only [Option.bind_none, true_iff]
      exact .inl (.inl fun n hn => by rw [(resolve_iff p.1 n).2 hn] at hr; cases hr)
    | some n =>
      have hm := (resolve_iff p.1 n).1 hr
      have e : ∀ m, Means p.1 m ↔ m = n := fun m => ⟨fun h => means_unique h hm, by rintro rfl; exact hm⟩
      simp only [Option.bind_some, e]
      have hno : (∀ m, ¬ m = n) ↔ False := ⟨fun h => h n rfl, False.elim⟩
      rw [hno, false_or]
      have hiff : store a n p.2 = none ↔ "help" = n ∨ ∃ m ∈ ["seed", "iterations", "num_targets", "sample_budget"],
          m = n ∧ pyInt p.2 = none := by
        rw [store_none hm.1]
        constructor
        · rintro (rfl | ⟨h1, h2⟩)
          · exact .inl rfl
          · exact .inr ⟨n, h1, rfl, h2⟩
        · rintro (h | ⟨m, h1, rfl, h2⟩)
          · exact .inl h.symm
          · exact .inr ⟨h1, h2⟩
      rw [← hiff]
      cases hs : store a n p.2 with
      | none => simp
      | some a' => simp [ih]

example : parseArgs defaults [("resample", "False"), ("num_targets", "8"), ("seed", "-3")] =
    some { defaults with resample := true, numTargets := 8, seed := -3 } := by decide +kernel
example : parseArgs defaults [("s", "1")] = none := by decide +kernel
example : Means "res" "resample" := (resolve_iff _ _).1 (by decide +kernel)
example : LastGiven [("resample", "True"), ("seed", "1"), ("resample", "")] "resample" "" :=
  ⟨[("resample", "True"), ("seed", "1")], "resample", [], rfl, (resolve_iff _ _).1 (by decide +kernel), by simp⟩

/-! ### Names -/

/-- The settings a run's name is made of. -/
structure SameSettings (a b : Args) : Prop where
  resample : a.resample = b.resample
  optimizePath : a.optimizePath = b.optimizePath
  objective : a.objective = b.objective
  sampleBudget : a.sampleBudget = b.sampleBudget
  numTargets : a.numTargets = b.numTargets
  iterations : a.iterations = b.iterations
  seed : a.seed = b.seed

/-- The first part of a name, with one letter for each of the two flags. -/
def runtype (r s : Bool) : List Char := "nvi".toList ++ ((if r then ['r'] else []) ++ (if s then ['s'] else []))

theorem runtype_inj : ∀ {r s r' s' : Bool}, runtype r s = runtype r' s' → r = r' ∧ s = s' := by decide

theorem runtype_plain (r s : Bool) : '_' ∉ runtype r s ∧ '/' ∉ runtype r s := by
  revert r s; decide

theorem filePrefix_toList (r s : Bool) (o : String) (S K I : Int) : (filePrefix r s o S K I).toList =
    runtype r s ++ '_' :: (o.toList ++ '_' :: ('S' :: (toString S).toList ++ '_' :: ('K' :: (toString K).toList ++
      '_' :: ('I' :: (toString I).toList)))) := by
  unfold filePrefix runtype
  cases r <;> cases s <;> simp

theorem runName_toList (a : Args) : (runName a).toList =
    runtype a.resample a.optimizePath ++ '_' :: (a.objective.toList ++ '_' :: ('S' :: (toString a.sampleBudget).toList ++
      '_' :: ('K' :: (toString a.numTargets).toList ++ '_' :: ('I' :: (toString a.iterations).toList ++
        '_' :: ("seed".toList ++ (toString a.seed).toList))))) := by
  unfold runName runtype
  cases a.resample <;> cases a.optimizePath <;> simp

theorem int_plain (i : Int) : '_' ∉ (toString i).toList := int_not_mem i (by decide) (by decide)
theorem cell_plain (c : Char) (hc : c ≠ '_') (i : Int) : '_' ∉ c :: (toString i).toList := by
  simp only [List.mem_cons, not_or]
  exact ⟨fun h => hc h.symm, int_plain i⟩

theorem toList_int_inj {i j : Int} (h : (toString i).toList = (toString j).toList) : i = j :=
  toString_int_inj (String.toList_injective h)

/-- Two runs have the same name exactly if they have the same settings; train_and_test and smoketest are not among them. -/
theorem C67_names (a b : Args) : runName a = runName b ↔ SameSettings a b := by
  constructor
  · intro h
    have h := congrArg String.toList h
    rw [runName_toList, runName_toList] at h
    have assoc : ∀ a : Args, runtype a.resample a.optimizePath ++ '_' :: (a.objective.toList ++ '_' ::
        ('S' :: (toString a.sampleBudget).toList ++ '_' :: ('K' :: (toString a.numTargets).toList ++
          '_' :: ('I' :: (toString a.iterations).toList ++ '_' :: ("seed".toList ++ (toString a.seed).toList))))) =
        ((((runtype a.resample a.optimizePath ++ '_' :: a.objective.toList) ++ '_' :: ('S' :: (toString a.sampleBudget).toList)) ++
          '_' :: ('K' :: (toString a.numTargets).toList)) ++ '_' :: ('I' :: (toString a.iterations).toList)) ++
          '_' :: ("seed".toList ++ (toString a.seed).toList) := fun a => by simp
    rw [assoc, assoc] at h
    have hs : ∀ i : Int, '_' ∉ "seed".toList ++ (toString i).toList := fun i => by
      simpa using int_plain i
    obtain ⟨h, h1⟩ := split_last (hs _) (hs _) h
    obtain ⟨h, h2⟩ := split_last (cell_plain 'I' (by decide) _) (cell_plain 'I' (by decide) _) h
    obtain ⟨h, h3⟩ := split_last (cell_plain 'K' (by decide) _) (cell_plain 'K' (by decide) _) h
    obtain ⟨h, h4⟩ := split_last (cell_plain 'S' (by decide) _) (cell_plain 'S' (by decide) _) h
    obtain ⟨h5, h6⟩ := split_first (runtype_plain _ _).1 (runtype_plain _ _).1 h
    obtain ⟨h7, h8⟩ := runtype_inj h5
    exact ⟨h7, h8, String.toList_injective h6, toList_int_inj (by simpa using h4), toList_int_inj (by simpa using h3),
      toList_int_inj (by simpa using h2), toList_int_inj (by simpa using h1)⟩
  · rintro ⟨h1, h2, h3, h4, h5, h6, h7⟩
    unfold runName
    rw [h1, h2, h3, h4, h5, h6, h7]

theorem pySplit_plain {c : Char} {l : List Char} (h : c ∉ l) : pySplit c l = [l] := by
  induction l with
  | nil => rfl
  | cons x xs ih =>
    simp only [List.mem_cons, not_or] at h
    rw [pySplit, if_neg (Ne.symm h.1), ih h.2]

theorem pySplit_cell {c : Char} {l r : List Char} (h : c ∉ l) : pySplit c (l ++ c :: r) = l :: pySplit c r := by
  induction l with
  | nil => simp [pySplit]
  | cons x xs ih =>
    simp only [List.mem_cons, not_or] at h
    rw [List.cons_append, pySplit, if_neg (Ne.symm h.1), ih h.2]

theorem normStep_plain (acc : List (List Char)) {p : List Char} (h : 2 < p.length) : normStep acc p = p :: acc := by
  unfold normStep
  rw [if_neg (by rintro (rfl | rfl) <;> simp at h), if_neg (by rintro rfl; simp at h)]

theorem loadPath_eq (f : String) (hf : '/' ∉ f.toList) : loadPath f = "weights/" ++ f ++ ".pt" := by
  have e : ("./weights" ++ "/" ++ ("./" ++ f ++ ".pt")).toList =
      ['.'] ++ '/' :: ("weights".toList ++ '/' :: (['.'] ++ '/' :: (f.toList ++ ".pt".toList))) := by simp
  unfold loadPath normpath
  rw [e, pySplit_cell (by decide), pySplit_cell (by decide), pySplit_cell (by decide), pySplit_plain (by simpa using hf)]
  have h1 : normStep [] ['.'] = [] := by decide
  have h2 : normStep [] "weights".toList = ["weights".toList] := by decide
  have h3 : normStep ["weights".toList] ['.'] = ["weights".toList] := by decide
  simp only [List.foldl_cons, List.foldl_nil, h1, h2, h3]
  rw [normStep_plain _ (by simp)]
  apply String.toList_injective
  simp [List.intercalate]

theorem normpath_savePath (f : String) (hf : '/' ∉ f.toList) : normpath (savePath f) = "weights/" ++ f ++ ".pt" := by
  have e : (savePath f).toList = ['.'] ++ '/' :: ("weights".toList ++ '/' :: (f.toList ++ ".pt".toList)) := by simp [savePath]
  unfold normpath
  rw [e, pySplit_cell (by decide), pySplit_cell (by decide), pySplit_plain (by simpa using hf)]
  have h1 : normStep [] ['.'] = [] := by decide
  have h2 : normStep [] "weights".toList = ["weights".toList] := by decide
  simp only [List.foldl_cons, List.foldl_nil, h1, h2]
  rw [normStep_plain _ (by simp)]
  apply String.toList_injective
  simp [List.intercalate]

theorem objective_plain {o : String} (h : o ∈ ["nvo_avo", "nvo_rkl", "nvo_rkl_mod"]) : '/' ∉ o.toList := by
  simp only [List.mem_cons, List.not_mem_nil, or_false] at h
  rcases h with rfl | rfl | rfl <;> decide

theorem runName_plain {a : Args} (h : a.objective ∈ ["nvo_avo", "nvo_rkl", "nvo_rkl_mod"]) : '/' ∉ (runName a).toList := by
  have hi : ∀ i : Int, '/' ∉ (toString i).toList := fun i => int_not_mem i (by decide) (by decide)
  rw [runName_toList]
  simp [(runtype_plain a.resample a.optimizePath).2, objective_plain h]
  exact ⟨hi _, hi _, hi _, hi _⟩

/-- A run with train_and_test off reads the file another run wrote exactly if the two have the same settings. -/
theorem C67_reload (a b : Args) (ha : a.objective ∈ ["nvo_avo", "nvo_rkl", "nvo_rkl_mod"])
    (hb : b.objective ∈ ["nvo_avo", "nvo_rkl", "nvo_rkl_mod"]) :
    loadPath (runName b) = normpath (savePath (runName a)) ↔ SameSettings b a := by
  rw [loadPath_eq _ (runName_plain hb), normpath_savePath _ (runName_plain ha), ← C67_names]
  constructor
  · intro h
    have h := congrArg String.toList h
    apply String.toList_injective
    simpa using h
  · intro h; rw [h]

example : runName { defaults with resample := true } = "nvir_nvo_rkl_S288_K4_I20000_seed0" := by decide +kernel
example : loadPath "nvi" = "weights/nvi.pt" ∧ savePath "nvi" = "./weights/nvi.pt" := by decide +kernel

/-! ### The steps of a run -/



theorem runSteps_ok {raises : Step → Option Err} {l p : List Step} (h : runSteps raises l = (p, none)) :
    p = l ∧ ∀ e, Step.raise e ∉ l := by
  induction l generalizing p with
  | nil => simp only [runSteps, Prod.mk.injEq] at h; simp [← h.1]
  | cons s l ih =>
    have hs : ∀ e, s ≠ .raise e := by
      rintro e rfl
      simp [runSteps] at h
    have hr : runSteps raises (s :: l) = match raises s with
        | some e => ([], some e)
        | none => (s :: (runSteps raises l).1, (runSteps raises l).2) := by
      cases s <;> first | rfl | exact absurd rfl (hs _)
    rw [hr] at h
    cases hx : raises s with
    | some e => rw [hx] at h; simp at h
    | none =>
      rw [hx] at h
      simp only [Prod.mk.injEq] at h
      obtain ⟨h1, h2⟩ := ih (Prod.ext rfl h.2)
      refine ⟨by rw [← h.1]; exact congrArg _ h1, fun e he => ?_⟩
      rcases List.mem_cons.1 he with he | he
      · exact hs e he.symm
      · exact h2 e he

theorem not_mem_ensureDir {ex : String → Bool} {d : String} {s : Step} (h : ∀ d, s ≠ .makedirs d) : s ∉ ensureDir ex d := by
  unfold ensureDir
  split
  · simp
  · simpa using h d

/-- What a run that comes to its end has done. Training is with 288 particles divided by the number of targets, rounded down,
whatever the sample budget; the model is saved or, with train_and_test off, loaded; the test is with 1000 particles and 100 batches
and only outside smoke tests; plots are made for resampling runs that optimise a path of 8 targets. -/
theorem C67_run (ex : String → Bool) (raises : Step → Option Err) (a : Args) (p : List Step)
    (h : runSteps raises (steps ex a) = (p, none)) :
    a.objective ∈ ["nvo_avo", "nvo_rkl", "nvo_rkl_mod"] ∧
    (∀ s b it, Step.train s b it ∈ p ↔ a.trainAndTest = true ∧ s = Int.fdiv 288 a.numTargets ∧ b = 1 ∧ it = a.iterations) ∧
    (∀ f, Step.saveModel f ∈ p ↔ a.trainAndTest = true ∧ f = "./weights/" ++ runName a ++ ".pt") ∧
    (∀ f, Step.loadModel f ∈ p ↔ a.trainAndTest = false ∧ f = "weights/" ++ runName a ++ ".pt") ∧
    (∀ s b, Step.test s b ∈ p ↔ a.smoketest = false ∧ s = 1000 ∧ b = 100) ∧
    (∀ f, Step.saveMetrics f ∈ p ↔ a.smoketest = false ∧
      f = "./metrics/" ++ runName a ++ "-metric-tuple_S1000_B100-loss-ess-logZhat.pt") ∧
    (∀ f, Step.plot f ∈ p ↔ a.smoketest = false ∧ a.resample = true ∧ a.optimizePath = true ∧ a.numTargets = 8 ∧ f = runName a) ∧
    (∀ s, Step.seed s ∈ p ↔ s = a.seed) ∧ (∀ K o, Step.mkModel K o ∈ p ↔ K = a.numTargets ∧ o = a.optimizePath) := by
  obtain ⟨rfl, hno⟩ := runSteps_ok h
  have ho : a.objective ∈ objectives := by
    by_contra ho
    exact hno .type (by unfold steps; rw [if_neg ho]; simp)
  have hk : a.trainAndTest = true → a.numTargets ≠ 0 := fun ht hk =>
    hno (.other 3) (by unfold steps; rw [if_pos ho]; simp [ht, hk])
  have hn : ∀ s : Step, (∀ d, s ≠ .makedirs d) → ∀ d, s ∉ ensureDir ex d := fun s hs d => not_mem_ensureDir hs
  have hsave : savePath (runName a) = "./weights/" ++ runName a ++ ".pt" := by
    apply String.toList_injective; simp [savePath]
  have hmet : "./metrics/" ++ metricsName (runName a) =
      "./metrics/" ++ runName a ++ "-metric-tuple_S1000_B100-loss-ess-logZhat.pt" := by
    have e : metricsName (runName a) = runName a ++ "-metric-tuple_S1000_B100-loss-ess-logZhat.pt" := by
      unfold metricsName
      apply String.toList_injective
      have h1 : toString (1000 : Nat) = "1000" := by decide +kernel
      have h2 : toString (100 : Nat) = "100" := by decide +kernel
      rw [h1, h2]
      simp
    rw [e]
    apply String.toList_injective; simp
  have hload := loadPath_eq _ (runName_plain (a := a) ho)
  refine ⟨ho, ?_, ?_, ?_, ?_, ?_, ?_, ?_, ?_⟩ <;> intros <;> unfold steps <;>
    rw [if_pos ho, hsave, hmet, hload] <;>
    cases ht : a.trainAndTest <;> cases hs : a.smoketest <;> by_cases h8 : a.numTargets = 8 <;>
    simp_all [hn, and_assoc]

/-- Every target gets as many particles as 288 allow. -/
theorem C67_particles (K : Int) (hK : 0 < K) : Int.fdiv 288 K * K ≤ 288 ∧ 288 < (Int.fdiv 288 K + 1) * K := by
  rw [Int.fdiv_eq_ediv_of_nonneg _ hK.le]
  have h1 := Int.ediv_mul_add_emod 288 K
  have h2 := Int.emod_nonneg 288 hK.ne'
  have h3 := Int.emod_lt_of_pos 288 hK
  constructor
  · omega
  · rw [add_mul]; omega

/-- The program that is trained resamples if asked to; the program that is tested is built anew from the same model and does not
resample. -/
theorem C67_order (ex : String → Bool) (raises : Step → Option Err) (a : Args) (p : List Step)
    (h : runSteps raises (steps ex a) = (p, none)) :
    ∃ pre mid post, p = pre ++ Step.vsmc a.objective a.resample :: (mid ++ Step.vsmc a.objective false :: post) ∧
      (∀ o r, Step.vsmc o r ∉ pre ∧ Step.vsmc o r ∉ mid ∧ Step.vsmc o r ∉ post) ∧
      (∀ K o, Step.mkModel K o ∉ mid ∧ Step.mkModel K o ∉ post) ∧ (∀ s, Step.seed s ∉ mid ∧ Step.seed s ∉ post) ∧
      (∀ s b it, Step.train s b it ∉ pre ∧ Step.train s b it ∉ post) ∧ (∀ f, Step.loadModel f ∉ pre ∧ Step.loadModel f ∉ post) ∧
      (∀ s b, Step.test s b ∉ pre ∧ Step.test s b ∉ mid) := by
  obtain ⟨rfl, hno⟩ := runSteps_ok h
  have ho : a.objective ∈ objectives := (C67_run ex raises a _ h).1
  have hn : ∀ s : Step, (∀ d, s ≠ .makedirs d) → ∀ d, s ∉ ensureDir ex d := fun s hs d => not_mem_ensureDir hs
  have hk : a.trainAndTest = true → a.numTargets ≠ 0 := fun ht hk =>
    hno (.other 3) (by unfold steps; rw [if_pos ho]; simp [ht, hk])
  refine ⟨ensureDir ex "./weights/" ++ ensureDir ex "./metrics/" ++ [.seed a.seed, .mkModel a.numTargets a.optimizePath],
    .zeros a.iterations (a.numTargets - 1) :: (if a.trainAndTest then
        [.train (Int.fdiv 288 a.numTargets) 1 a.iterations, .saveModel (savePath (runName a))]
      else [.loadModel (loadPath (runName a))]),
    (if a.smoketest then []
      else
        [.test 1000 100, .saveMetrics ("./metrics/" ++ metricsName (runName a))] ++
        (if a.resample && a.optimizePath && a.numTargets == 8 then ensureDir ex "./figures/" ++ [.plot (runName a)] else [])) ++
      [.done], ?_, ?_, ?_, ?_, ?_, ?_, ?_⟩
  · unfold steps
    rw [if_pos ho]
    cases ht : a.trainAndTest <;> simp_all
  all_goals
    intros
    cases ht : a.trainAndTest <;> cases hs : a.smoketest <;> by_cases h8 : a.numTargets = 8 <;> simp_all [hn]

/-- A step without the names of the files it reads or writes. -/
def Step.unnamed : Step → Step
  | .saveModel _ => .saveModel ""
  | .loadModel _ => .loadModel ""
  | .saveMetrics _ => .saveMetrics ""
  | .plot _ => .plot ""
  | s => s

/-- The sample budget changes nothing but the names of files. -/
theorem C67_budget (ex : String → Bool) (a : Args) (S : Int) :
    (steps ex { a with sampleBudget := S }).map Step.unnamed = (steps ex a).map Step.unnamed := by
  unfold steps
  by_cases ho : a.objective ∈ objectives
  · simp only [if_pos ho, List.map_append]
    cases a.trainAndTest <;> cases a.smoketest <;> by_cases h8 : a.numTargets = 8 <;> by_cases h0 : a.numTargets = 0 <;>
      cases a.resample <;> cases a.optimizePath <;> simp_all [Step.unnamed]
  · simp only [if_neg ho]

/-- With another objective the run ends with TypeError, after making the two directories at most. -/
theorem C67_objective (ex : String → Bool) (raises : Step → Option Err) (a : Args)
    (ha : a.objective ∉ ["nvo_avo", "nvo_rkl", "nvo_rkl_mod"]) (hr : ∀ d, raises (.makedirs d) = none) :
    (runSteps raises (steps ex a)).2 = some .type ∧
      ∀ s ∈ (runSteps raises (steps ex a)).1, s = .makedirs "./weights/" ∨ s = .makedirs "./metrics/" := by
  unfold steps
  rw [if_neg (show a.objective ∉ objectives from ha)]
  unfold ensureDir
  cases ex "./weights/" <;> cases ex "./metrics/" <;> simp [runSteps, hr]

theorem runSteps_error {raises : Step → Option Err} {l p : List Step} {e : Err} (h : runSteps raises l = (p, some e)) :
    ∃ s rest, l = p ++ s :: rest ∧ (s = .raise e ∨ (∀ e', s ≠ .raise e') ∧ raises s = some e) ∧ ∀ t ∈ p, (∀ e', t ≠ .raise e') ∧ raises t = none := by
  induction l generalizing p with
  | nil => simp [runSteps] at h
  | cons x xs ih =>
    by_cases hx : ∃ e', x = .raise e'
    · obtain ⟨e', rfl⟩ := hx
      simp only [runSteps, Prod.mk.injEq, Option.some.injEq] at h
      obtain ⟨rfl, rfl⟩ := h
      exact ⟨_, xs, rfl, .inl rfl, by simp⟩
    · push Not at hx
      have hr : runSteps raises (x :: xs) = match raises x with
          | some e => ([], some e)
          | none => (x :: (runSteps raises xs).1, (runSteps raises xs).2) := by
        cases x <;> first | rfl | exact absurd rfl (hx _)
      rw [hr] at h
      cases hq : raises x with
      | some e' =>
        rw [hq] at h
        simp only [Prod.mk.injEq, Option.some.injEq] at h
        obtain ⟨rfl, rfl⟩ := h
        exact ⟨x, xs, rfl, .inr ⟨hx, hq⟩, by simp⟩
      | none =>
        rw [hq] at h
        simp only [Prod.mk.injEq] at h
        obtain ⟨rfl, h2⟩ := h
        obtain ⟨s, rest, e1, e2, e3⟩ := ih (p := (runSteps raises xs).1) (by rw [← h2])
        refine ⟨s, rest, by rw [List.cons_append, ← e1], e2, ?_⟩
        intro t ht
        rcases List.mem_cons.mp ht with rfl | ht
        · exact ⟨hx, hq⟩
        · exact e3 t ht

/-- Exceptions end the run: what was done before is the beginning of the run's steps, none of which raised, and the next step raised. -/
theorem C67_stops (ex : String → Bool) (raises : Step → Option Err) (a : Args) (p : List Step) (e : Err)
    (h : runSteps raises (steps ex a) = (p, some e)) :
    (∃ s rest, steps ex a = p ++ s :: rest ∧ (s = .raise e ∨ raises s = some e)) ∧ (∀ t ∈ p, raises t = none) ∧ Step.done ∉ p := by
  obtain ⟨s, rest, h1, h2, h3⟩ := runSteps_error h
  refine ⟨⟨s, rest, h1, h2.imp_right And.right⟩, fun t ht => (h3 t ht).2, fun hd => ?_⟩
  by_cases ho : a.objective ∈ objectives
  · obtain ⟨pre, e1, e2⟩ : ∃ pre, steps ex a = pre ++ [Step.done] ∧ Step.done ∉ pre := by
      unfold steps
      rw [if_pos ho]
      refine ⟨_, (List.append_assoc _ _ _).symm, ?_⟩
      unfold ensureDir
      cases ex "./weights/" <;> cases ex "./metrics/" <;> cases ex "./figures/" <;> cases a.trainAndTest <;> cases a.smoketest <;>
        by_cases h0 : a.numTargets = 0 <;> cases hp : (a.resample && a.optimizePath && a.numTargets == 8) <;> simp [h0]
    have h4 := congrArg List.dropLast (h1.symm.trans e1)
    rw [List.dropLast_append_of_ne_nil (by simp), List.dropLast_concat] at h4
    exact e2 (by rw [← h4]; simp [hd])
  · have : Step.done ∈ steps ex a := by rw [h1]; simp [hd]
    unfold steps ensureDir at this
    rw [if_neg ho] at this
    revert this
    cases ex "./weights/" <;> cases ex "./metrics/" <;> simp

/-- Training with --num_targets=0 ends with an exception before anything is trained, saved, tested or plotted. -/
theorem C67_no_targets (ex : String → Bool) (raises : Step → Option Err) (a : Args) (h0 : a.numTargets = 0) (ht : a.trainAndTest = true) :
    (∃ e, (runSteps raises (steps ex a)).2 = some e) ∧ ∀ s ∈ (runSteps raises (steps ex a)).1,
      (∃ d, s = .makedirs d) ∨ (∃ i, s = .seed i) ∨ s = .mkModel 0 a.optimizePath ∨ s = .vsmc a.objective a.resample ∨ s = .zeros a.iterations (-1) := by
  have hr : Step.raise (.other 3) ∈ steps ex a ∨ Step.raise .type ∈ steps ex a := by
    unfold steps
    by_cases ho : a.objective ∈ objectives
    · rw [if_pos ho]; simp [ht, h0]
    · rw [if_neg ho]; simp
  cases hs : runSteps raises (steps ex a) with
  | mk p o =>
    cases o with
    | none =>
      obtain ⟨-, hno⟩ := runSteps_ok hs
      rcases hr with hr | hr <;> exact absurd hr (hno _)
    | some e =>
      refine ⟨⟨e, rfl⟩, fun s hsp => ?_⟩
      obtain ⟨s', rest, h1, -, h3⟩ := runSteps_error hs
      simp only at hsp
      by_cases ho : a.objective ∈ objectives
      · have hst : ∃ post, steps ex a = (ensureDir ex "./weights/" ++ ensureDir ex "./metrics/" ++
            [.seed a.seed, .mkModel a.numTargets a.optimizePath, .vsmc a.objective a.resample, .zeros a.iterations (a.numTargets - 1)]) ++
            Step.raise (.other 3) :: post := by
          unfold steps
          rw [if_pos ho, ht, h0]
          simp only [if_true]
          simp only [List.append_assoc, List.cons_append, List.nil_append, List.append_cancel_left_eq, List.cons.injEq, true_and, exists_eq']
        obtain ⟨post, hst⟩ := hst
        have hpre : p <+: (ensureDir ex "./weights/" ++ ensureDir ex "./metrics/" ++
            [.seed a.seed, .mkModel a.numTargets a.optimizePath, .vsmc a.objective a.resample, .zeros a.iterations (a.numTargets - 1)]) := by
          rw [hst] at h1
          rcases List.append_eq_append_iff.mp h1 with ⟨u, hu1, hu2⟩ | ⟨u, hu1, hu2⟩
          · cases u with
            | nil => rw [List.append_nil] at hu1; exact ⟨[], by rw [hu1, List.append_nil]⟩
            | cons y ys =>
              simp only [List.cons_append, List.cons.injEq] at hu2
              exact absurd hu2.1.symm ((h3 y (by rw [hu1]; simp)).1 _)
          · exact ⟨u, hu1.symm⟩
        have := hpre.subset hsp
        rw [h0] at this
        simp only [ensureDir, List.mem_append, List.mem_ite_nil_left, List.mem_cons, List.not_mem_nil, or_false] at this
        rcases this with (⟨-, h⟩ | ⟨-, h⟩) | h | h | h | h
        · exact .inl ⟨_, h⟩
        · exact .inl ⟨_, h⟩
        · exact .inr (.inl ⟨_, h⟩)
        · exact .inr (.inr (.inl h))
        · exact .inr (.inr (.inr (.inl h)))
        · exact .inr (.inr (.inr (.inr h)))
      · have : s ∈ steps ex a := by rw [h1]; simp [hsp]
        unfold steps at this
        rw [if_neg ho] at this
        simp only [ensureDir, List.mem_append, List.mem_ite_nil_left, List.mem_cons, List.not_mem_nil, or_false] at this
        rcases this with (⟨-, h⟩ | ⟨-, h⟩) | h
        · exact .inl ⟨_, h⟩
        · exact .inl ⟨_, h⟩
        · exact absurd h ((h3 s hsp).1 _)

example : (runSteps (fun _ => none) (steps (fun _ => true) { defaults with numTargets := 0 })).2 = some (.other 3) := by decide +kernel
example : (runSteps (fun _ => none) (steps (fun _ => false) defaults)).2 = none := by decide +kernel

/-! ### Reading names -/

theorem prefix_cell {c : Char} {x y P F : List Char} (hx : c ∉ x) (hy : c ∉ y) :
    x ++ c :: P <+: y ++ c :: F ↔ x = y ∧ P <+: F := by
  constructor
  · rintro ⟨t, ht⟩
    rw [List.append_assoc, List.cons_append] at ht
    obtain ⟨h1, h2⟩ := split_first hx hy ht
    exact ⟨h1, t, h2⟩
  · rintro ⟨rfl, t, rfl⟩
    exact ⟨t, by simp⟩

theorem prefix_last {c : Char} {x y F : List Char} (hx : c ∉ x) : x <+: y ++ c :: F ↔ x <+: y := by
  constructor
  · rintro h
    rcases List.prefix_or_prefix_of_prefix h (List.prefix_append y (c :: F)) with h' | h'
    · exact h'
    · obtain ⟨t, rfl⟩ := h'
      cases t with
      | nil => simp
      | cons d t =>
        obtain ⟨u, hu⟩ := h
        rw [List.append_assoc, List.append_cancel_left_eq] at hu
        simp only [List.cons_append, List.cons.injEq] at hu
        simp [hu.1] at hx
  · exact fun h => h.trans (List.prefix_append _ _)

/-- The file with the metrics of a run is taken for the group of runs with a prefix exactly if the run has the prefix's settings,
except that its number of iterations need only begin with the digits of the prefix's. The script has the two objectives without
`nvo_rkl_mod`. -/
theorem C67_prefix (a : Args) (r s : Bool) (o : String) (S K I : Int)
    (ha : a.objective ∈ ["nvo_avo", "nvo_rkl", "nvo_rkl_mod"]) (ho : o ∈ ["nvo_avo", "nvo_rkl"]) (files : List String) :
    metricsName (runName a) ∈ metricsOf (filePrefix r s o S K I) files ↔ metricsName (runName a) ∈ files ∧
      a.resample = r ∧ a.optimizePath = s ∧ a.objective = o ∧ a.sampleBudget = S ∧ a.numTargets = K ∧
      (toString I).toList <+: (toString a.iterations).toList := by
  unfold metricsOf
  rw [List.mem_filter]
  refine and_congr_right fun _ => ?_
  simp only [List.isPrefixOf_iff_prefix]
  have hname : (metricsName (runName a)).toList = (runName a).toList ++ ("-metric-tuple_S" ++ toString (1000 : Nat) ++ "_B" ++
      toString (100 : Nat) ++ "-loss-ess-logZhat.pt").toList := by
    simp only [metricsName, String.toList_append, List.append_assoc]
  generalize ("-metric-tuple_S" ++ toString (1000 : Nat) ++ "_B" ++ toString (100 : Nat) ++ "-loss-ess-logZhat.pt").toList = tail at hname
  rw [hname, runName_toList, filePrefix_toList]
  simp only [List.append_assoc, List.cons_append]
  rw [prefix_cell (runtype_plain _ _).1 (runtype_plain _ _).1]
  have hrt : runtype r s = runtype a.resample a.optimizePath ↔ a.resample = r ∧ a.optimizePath = s :=
    ⟨fun h => ⟨(runtype_inj h).1.symm, (runtype_inj h).2.symm⟩, by rintro ⟨rfl, rfl⟩; rfl⟩
  rw [hrt, and_assoc]
  refine and_congr_right fun _ => and_congr_right fun _ => ?_
  have key : ∀ X : List Char, 'S' :: ((toString S).toList ++ '_' :: 'K' :: ((toString K).toList ++ '_' :: 'I' :: (toString I).toList)) <+:
      'S' :: ((toString a.sampleBudget).toList ++ '_' :: 'K' :: ((toString a.numTargets).toList ++ '_' :: 'I' ::
        ((toString a.iterations).toList ++ '_' :: X))) ↔
      a.sampleBudget = S ∧ a.numTargets = K ∧ (toString I).toList <+: (toString a.iterations).toList := by
    intro X
    have inj : ∀ i j : Int, (toString i).toList = (toString j).toList ↔ j = i := fun i j =>
      ⟨fun h => (toList_int_inj h).symm, by rintro rfl; rfl⟩
    rw [List.prefix_cons_inj, prefix_cell (int_plain _) (int_plain _), List.prefix_cons_inj,
      prefix_cell (int_plain _) (int_plain _), List.prefix_cons_inj, prefix_last (int_plain _), inj, inj]
  have e1 : "nvo_avo".toList = "nvo".toList ++ '_' :: "avo".toList := by decide
  have e2 : "nvo_rkl".toList = "nvo".toList ++ '_' :: "rkl".toList := by decide
  have e3 : "nvo_rkl_mod".toList = "nvo".toList ++ '_' :: ("rkl".toList ++ '_' :: "mod".toList) := by decide
  simp only [List.mem_cons, List.not_mem_nil, or_false] at ha ho
  have h0 : '_' ∉ "nvo".toList := by decide
  have h1 : '_' ∉ "avo".toList := by decide
  have h2 : '_' ∉ "rkl".toList := by decide
  rcases ho with rfl | rfl <;> rcases ha with ha | ha | ha <;> rw [ha] <;>
    simp only [e1, e2, e3, List.append_assoc, List.cons_append, prefix_cell h0 h0, prefix_cell h1 h1, prefix_cell h2 h2,
      prefix_cell h1 h2, prefix_cell h2 h1, true_and, key, String.reduceEq, false_and, iff_false, and_false]
  · simp
  · simp
  · simp
  · simp

theorem pyInt_digit {c : Char} (h : c.isDigit = true) : pyInt (String.ofList [c]) = some ((c.toNat - '0'.toNat : Nat) : Int) := by
  have h1 : c ≠ '-' := by rintro rfl; revert h; decide
  have h2 : c ≠ '+' := by rintro rfl; revert h; decide
  unfold pyInt
  rw [String.toList_ofList, strip_none (by simpa using Or.inr h)]
  split
  · rename_i h'; simp at h'; exact absurd h'.1 h1
  · rename_i h'; simp at h'; exact absurd h'.1 h2
  · simp [unsigned, h, digitsVal]

theorem split_prefix (r s : Bool) (x : String) (hx : '_' ∉ x.toList) (S K I : Int) :
    pySplit '_' (filePrefix r s ("nvo_" ++ x) S K I).toList =
      [runtype r s, "nvo".toList, x.toList, 'S' :: (toString S).toList, 'K' :: (toString K).toList, 'I' :: (toString I).toList] := by
  have e : ("nvo_" ++ x).toList = "nvo".toList ++ '_' :: x.toList := by simp
  rw [filePrefix_toList, e, List.append_assoc, List.cons_append, pySplit_cell (runtype_plain _ _).1, pySplit_cell (by decide),
    pySplit_cell hx, pySplit_cell (cell_plain _ (by decide) _), pySplit_cell (cell_plain _ (by decide) _),
    pySplit_plain (cell_plain _ (by decide) _)]

/-- Reading a prefix back: all settings are found, except that the number of targets is right only below ten. -/
theorem C67_from_prefix (r s : Bool) (o : String) (ho : o ∈ ["nvo_avo", "nvo_rkl"]) (S I : Int) (K : Nat) :
    ∃ k : KeySpec, fromPrefix (filePrefix r s o S K I) = .ok k ∧ k.resample = r ∧ k.optimizePath = s ∧ k.objective = o ∧
      k.numIters = I ∧ k.sampleBudget = S ∧ (k.numTargets = K ↔ K < 10) := by
  obtain ⟨x, hx, rfl⟩ : ∃ x, x ∈ ["avo", "rkl"] ∧ o = "nvo_" ++ x := by
    simp only [List.mem_cons, List.not_mem_nil, or_false] at ho
    rcases ho with rfl | rfl
    · exact ⟨"avo", by simp, by decide +kernel⟩
    · exact ⟨"rkl", by simp, by decide +kernel⟩
  have hx' : '_' ∉ x.toList := by
    simp only [List.mem_cons, List.not_mem_nil, or_false] at hx
    rcases hx with rfl | rfl <;> decide
  have hK : (toString (K : Int)).toList = Nat.toDigits 10 K := int_toList K
  have hd : ∀ c ∈ Nat.toDigits 10 K, c.isDigit = true := fun c hc => Nat.isDigit_of_mem_toDigits (by decide) (by decide) hc
  cases hl : Nat.toDigits 10 K with
  | nil => exact absurd hl Nat.toDigits_ne_nil
  | cons c cs =>
    rw [hl] at hd
    have hc := hd c (by simp)
    have hlt : c.toNat - '0'.toNat < 10 := by
      have := (Char.isDigit_iff_toNat.1 hc).2
      have h9 : '9'.toNat = 57 := by decide
      have h0 : '0'.toNat = 48 := by decide
      omega
    have hiff : (((c.toNat - '0'.toNat : Nat) : Int) = K ↔ K < 10) := by
      constructor
      · intro h; omega
      · intro h
        rw [Nat.toDigits_of_lt_base h] at hl
        have hv := unsigned_toDigits K
        rw [Nat.toDigits_of_lt_base h, hl] at hv
        have hcs : cs = [] := by simpa using (List.cons.inj hl).2.symm
        subst hcs
        simp only [unsigned, hc, if_true, digitsVal, Option.some.injEq] at hv
        rw [hv]
    have hobj : (if x.toList = "avo".toList then "nvo_avo" else "nvo_rkl") = "nvo_" ++ x := by
      simp only [List.mem_cons, List.not_mem_nil, or_false] at hx
      rcases hx with rfl | rfl <;> decide +kernel
    have hS : pyInt (String.ofList (List.drop 1 ('S' :: (toString S).toList))) = some S := by
      rw [List.drop_one, List.tail_cons, String.ofList_toList, C67_int]
    have hI : pyInt (String.ofList (List.drop 1 ('I' :: (toString I).toList))) = some I := by
      rw [List.drop_one, List.tail_cons, String.ofList_toList, C67_int]
    have hk1 : ('K' :: (toString (K : Int)).toList)[1]? = some c := by rw [hK, hl]; rfl
    have main : ∀ last before rest, (runtype r s).reverse = last :: before :: rest →
        fromPrefix (filePrefix r s ("nvo_" ++ x) S K I) = .ok
          { resample := before = 'r' || last = 'r', optimizePath := last = 's', numTargets := ((c.toNat - '0'.toNat : Nat) : Int),
            objective := "nvo_" ++ x, numIters := I, sampleBudget := S } := by
      intro last before rest hrev
      unfold fromPrefix
      rw [split_prefix r s x hx']
      simp only [hrev, hk1, pyInt_digit hc, hS, hI, hobj]
    cases r <;> cases s
    · exact ⟨_, main 'i' 'v' _ rfl, rfl, rfl, rfl, rfl, rfl, hiff⟩
    · exact ⟨_, main 's' 'i' _ rfl, rfl, rfl, rfl, rfl, rfl, hiff⟩
    · exact ⟨_, main 'r' 'i' _ rfl, rfl, rfl, rfl, rfl, rfl, hiff⟩
    · exact ⟨_, main 's' 'r' _ rfl, rfl, rfl, rfl, rfl, rfl, hiff⟩

/-- The prefix of a run with the third objective has one part too many. -/
theorem C67_from_prefix_mod (r s : Bool) (S K I : Int) : fromPrefix (filePrefix r s "nvo_rkl_mod" S K I) = .error .value := by
  have e : "nvo_rkl_mod".toList = "nvo".toList ++ '_' :: ("rkl".toList ++ '_' :: "mod".toList) := by decide
  unfold fromPrefix
  rw [filePrefix_toList, e]
  simp only [List.append_assoc, List.cons_append]
  rw [pySplit_cell (runtype_plain _ _).1, pySplit_cell (by decide), pySplit_cell (by decide), pySplit_cell (by decide),
    ← List.cons_append, pySplit_cell (cell_plain _ (by decide) _), ← List.cons_append, pySplit_cell (cell_plain _ (by decide) _),
    pySplit_plain (cell_plain _ (by decide) _)]

example : metricsName (runName { defaults with iterations := 200000 }) ∈
    metricsOf (filePrefix false false "nvo_rkl" 288 4 20000) [metricsName (runName { defaults with iterations := 200000 })] := by
  decide +kernel
example : (fromPrefix (filePrefix true true "nvo_avo" 288 12 20000)).toOption.map (·.numTargets) = some 1 := by decide +kernel

/-- C67. Normalising keeps the leading ".." of a path that has no other ".." and no empty components or ".". -/
theorem C67_normpath_keeps (n : Nat) (names : List (List Char)) (h : ∀ p ∈ names, p ≠ [] ∧ p ≠ ['.'] ∧ p ≠ ['.', '.']) :
    ((List.replicate n ['.', '.'] ++ names).foldl normStep []).reverse = List.replicate n ['.', '.'] ++ names := by
  have up : ∀ n m : Nat, (List.replicate n ['.', '.']).foldl normStep (List.replicate m ['.', '.']) = List.replicate (m + n) ['.', '.'] := by
    intro n
    induction n with
    | zero => intro m; rfl
    | succ n ih =>
      intro m
      rw [List.replicate_succ, List.foldl_cons]
      have e : normStep (List.replicate m ['.', '.']) ['.', '.'] = List.replicate (m + 1) ['.', '.'] := by
        cases m <;> simp [normStep, List.replicate_succ]
      rw [e, ih]
      congr 1
      omega
  have plain : ∀ (l acc : List (List Char)), (∀ p ∈ l, p ≠ [] ∧ p ≠ ['.'] ∧ p ≠ ['.', '.']) → l.foldl normStep acc = l.reverse ++ acc := by
    intro l
    induction l with
    | nil => intro acc _; rfl
    | cons p l ih =>
      intro acc hl
      obtain ⟨h1, h2, h3⟩ := hl p (by simp)
      rw [List.foldl_cons, ih _ fun q hq => hl q (by simp [hq])]
      simp [normStep, h1, h2, h3]
  have := up n 0
  rw [List.replicate_zero, Nat.zero_add] at this
  rw [List.foldl_append, this, plain _ _ h]
  simp

end Cli
end Verif
