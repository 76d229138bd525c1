import Mathlib.Tactic.Linarith
import Mathlib.Data.List.Infix
import Verif.Model.ApgTrain
import Verif.Model.Simulator
import Verif.Props.Simulator
import Verif.Proofs.Strings
/-
C46, C50: minibatches of one epoch and the choice of data files.
-/
namespace Verif

theorem flatten_slices {α : Type} (l : List α) (b n : Nat) :
    ((List.range n).map fun i => pySlice l (i * b) ((i + 1) * b)).flatten = l.take (n * b) := by
  induction n with
  | zero => simp
  | succ n ih =>
    rw [List.range_succ, List.map_append, List.flatten_append, ih]
    simp only [List.map_cons, List.map_nil, List.flatten_cons, List.flatten_nil, List.append_nil, pySlice]
    have h : l.take (n * b) = (l.take ((n + 1) * b)).take (n * b) := by
      rw [List.take_take, Nat.min_eq_left (Nat.mul_le_mul_right b (Nat.le_succ n))]
    rw [h, List.take_append_drop]

section
variable (perm : List Nat) (batchSize : Nat)

/-- C46: which indices one epoch uses, in which order: all of them if they fit in one batch, otherwise all but the last
`N % batch_size`. -/
theorem C46_used (hb : 0 < batchSize) :
    ∃ batches, minibatches perm batchSize = .ok batches ∧
      batches.flatten = if perm.length ≤ batchSize then perm else perm.take (perm.length - perm.length % batchSize) := by
  unfold minibatches numBatches
  by_cases h : perm.length ≤ batchSize
  · simp only [h, if_true]
    refine ⟨_, rfl, ?_⟩
    rw [flatten_slices, List.take_of_length_le (by omega)]
  · have hb' : batchSize ≠ 0 := by omega
    simp only [h, if_false, hb']
    refine ⟨_, rfl, ?_⟩
    rw [flatten_slices]
    congr 1
    have := Nat.div_add_mod perm.length batchSize
    rw [Nat.mul_comm] at this
    omega

/-- C46: the number and the sizes of the batches. -/
theorem C46_sizes (hb : 0 < batchSize) {batches : List (List Nat)} (h : minibatches perm batchSize = .ok batches) :
    (perm.length ≤ batchSize → batches = [perm]) ∧
      (batchSize < perm.length → batches.length = perm.length / batchSize ∧ ∀ b ∈ batches, b.length = batchSize) := by
  unfold minibatches numBatches at h
  constructor
  · intro hl
    simp only [hl, if_true] at h
    cases h
    simp [pySlice, List.take_of_length_le hl]
  · intro hl
    have h1 : ¬ perm.length ≤ batchSize := by omega
    have hb' : batchSize ≠ 0 := by omega
    simp only [h1, if_false, hb'] at h
    cases h
    refine ⟨by simp, ?_⟩
    intro b hmem
    simp only [List.mem_map, List.mem_range] at hmem
    obtain ⟨i, hi, rfl⟩ := hmem
    have h2 : (i + 1) * batchSize ≤ perm.length :=
      le_trans (Nat.mul_le_mul_right _ hi) (Nat.div_mul_le_self _ _)
    simp only [pySlice, List.length_drop, List.length_take, Nat.min_eq_left h2]
    rw [Nat.add_mul]; omega

/-- C46: as the indices are a permutation, no index is used twice in an epoch: not within a batch, not in two batches. -/
theorem C46_disjoint (hp : perm.Nodup) (hb : 0 < batchSize) {batches : List (List Nat)}
    (h : minibatches perm batchSize = .ok batches) :
    (∀ b ∈ batches, b.Nodup) ∧ batches.Pairwise List.Disjoint := by
  obtain ⟨bs, h1, h2⟩ := C46_used perm batchSize hb
  rw [h] at h1; cases h1
  have : batches.flatten.Nodup := by
    rw [h2]
    split
    · exact hp
    · exact hp.sublist (List.take_sublist _ _)
  exact List.nodup_flatten.mp this

/-- C46: every index is used iff they fit in one batch or the batch size divides their number. -/
theorem C46_all_used_iff (hp : perm.Nodup) (hb : 0 < batchSize) {batches : List (List Nat)}
    (h : minibatches perm batchSize = .ok batches) :
    (∀ i ∈ perm, ∃ b ∈ batches, i ∈ b) ↔ perm.length ≤ batchSize ∨ batchSize ∣ perm.length := by
  obtain ⟨bs, h1, h2⟩ := C46_used perm batchSize hb
  rw [h] at h1; cases h1
  have e : (∀ i ∈ perm, ∃ b ∈ batches, i ∈ b) ↔ ∀ i ∈ perm, i ∈ batches.flatten := by
    simp only [List.mem_flatten]
  rw [e, h2]
  by_cases hl : perm.length ≤ batchSize
  · simp [hl]
  · simp only [hl, if_false, false_or]
    constructor
    · intro ha
      by_contra hd
      have hm : perm.length % batchSize ≠ 0 := fun e => hd (Nat.dvd_of_mod_eq_zero e)
      have hlt : perm.length - 1 < perm.length := by omega
      have hmem := ha _ (List.getElem_mem hlt)
      rw [List.mem_take_iff_getElem] at hmem
      obtain ⟨j, hj, he⟩ := hmem
      have := (List.Nodup.getElem_inj_iff hp).mp he
      omega
    · intro hd i hi
      rw [Nat.mod_eq_zero_of_dvd hd, Nat.sub_zero, List.take_length]
      exact hi

/-- C46: a batch size of zero raises ZeroDivisionError unless there is no data. -/
theorem C46_zero (h : perm ≠ []) : minibatches perm 0 = .error (.other 3) := by
  have : ¬ perm.length ≤ 0 := by simpa using h
  simp [minibatches, numBatches, h, bind, Except.bind]

end

/-- Seven sequences, batches of three: the last index of the permutation is not used in this epoch. -/
example : minibatches [3, 0, 6, 2, 5, 1, 4] 3 = .ok [[3, 0, 6], [2, 5, 1]] ∧ [3, 0, 6, 2, 5, 1, 4].Nodup := by
  decide

/-! ### C50: choosing data files by a substring -/

theorem equals_not_mem (n : Nat) : '=' ∉ (toString n).toList := by
  rw [Nat.toString_eq_repr, Nat.toList_repr]
  intro h
  have := Nat.isDigit_of_mem_toDigits (by omega) (by omega) h
  simp [Char.isDigit] at this

/-- Lists of characters: the needle is found in the file name iff the first numbers agree and the second number of the
needle begins that of the file. -/
theorem needle_iff {a0 a o t k T K r : List Char} (h1 : '=' ∉ a0) (h2 : '=' ∉ a) (h3 : '=' ∉ o)
    (ht : '=' ∉ t) (hT : '=' ∉ T) (hk : '=' ∉ k) (hK : '=' ∉ K) (hk' : '-' ∉ k) (hr : '=' ∉ r) :
    (a ++ '=' :: t ++ (o ++ '=' :: k)) <:+: (a0 ++ a ++ '=' :: T ++ (o ++ '=' :: K) ++ ('-' :: r)) ↔ t = T ∧ k <+: K := by
  constructor
  · rintro ⟨x, y, h⟩
    have hc := congrArg (List.count '=') h
    simp only [List.count_append, List.count_cons_self, List.count_cons_of_ne (by decide : '-' ≠ '='),
      List.count_eq_zero_of_not_mem h1, List.count_eq_zero_of_not_mem h2, List.count_eq_zero_of_not_mem h3,
      List.count_eq_zero_of_not_mem ht, List.count_eq_zero_of_not_mem hT, List.count_eq_zero_of_not_mem hk,
      List.count_eq_zero_of_not_mem hK, List.count_eq_zero_of_not_mem hr] at hc
    have hx : '=' ∉ x := List.count_eq_zero.mp (by omega)
    have e : (x ++ a) ++ '=' :: (t ++ o ++ '=' :: (k ++ y)) = (a0 ++ a) ++ '=' :: (T ++ o ++ '=' :: (K ++ '-' :: r)) := by
      simpa using h
    obtain ⟨-, e2⟩ := split_first (by simp [hx, h2]) (by simp [h1, h2]) e
    obtain ⟨e3, e4⟩ := split_first (by simp [ht, h3]) (by simp [hT, h3]) e2
    refine ⟨List.append_cancel_right e3, ?_⟩
    have p1 : k <+: K ++ '-' :: r := ⟨y, e4⟩
    rcases List.prefix_or_prefix_of_prefix p1 (List.prefix_append K ('-' :: r)) with p | ⟨m, hm⟩
    · exact p
    · cases m with
      | nil => rw [List.append_nil] at hm; rw [hm]
      | cons c m =>
        rw [← hm, List.append_assoc, List.append_cancel_left_eq, List.cons_append, List.cons.injEq] at e4
        rw [e4.1] at hm
        exact absurd (by rw [← hm]; simp) hk'
  · rintro ⟨rfl, z, rfl⟩
    exact ⟨a0, z ++ '-' :: r, by simp⟩

theorem needle_in_chunk (t k T K c : Nat) :
    pyStrIn ("timesteps=" ++ toString t ++ "-objects=" ++ toString k) (chunkFile T K c) = true ↔
      t = T ∧ (toString k).toList <+: (toString K).toList := by
  have e0 : ("seq-timesteps=" : String).toList = ['s', 'e', 'q', '-'] ++ ['t', 'i', 'm', 'e', 's', 't', 'e', 'p', 's'] ++ ['='] := by
    decide +kernel
  have e1 : ("timesteps=" : String).toList = ['t', 'i', 'm', 'e', 's', 't', 'e', 'p', 's'] ++ ['='] := by decide +kernel
  have e2 : ("-objects=" : String).toList = ['-', 'o', 'b', 'j', 'e', 'c', 't', 's'] ++ ['='] := by decide +kernel
  have e3 : ("-p" : String).toList = ['-', 'p'] := by decide +kernel
  have e4 : '=' ∉ (".pt" : String).toList := by decide +kernel
  have key := needle_iff (a0 := ['s', 'e', 'q', '-']) (a := ['t', 'i', 'm', 'e', 's', 't', 'e', 'p', 's'])
    (o := ['-', 'o', 'b', 'j', 'e', 'c', 't', 's']) (r := 'p' :: (toString c).toList ++ (".pt" : String).toList)
    (by decide) (by decide) (by decide) (equals_not_mem t) (equals_not_mem T) (equals_not_mem k) (equals_not_mem K)
    (dash_not_mem k) (by simp only [List.cons_append, List.mem_cons, List.mem_append, not_or]
                         exact ⟨by decide, equals_not_mem c, e4⟩)
  have i1 : ("timesteps=" ++ toString t ++ "-objects=" ++ toString k).toList =
      ['t', 'i', 'm', 'e', 's', 't', 'e', 'p', 's'] ++ '=' :: (toString t).toList ++
        (['-', 'o', 'b', 'j', 'e', 'c', 't', 's'] ++ '=' :: (toString k).toList) := by
    rw [String.toList_append, String.toList_append, String.toList_append, e1, e2]
    simp only [List.append_assoc, List.cons_append, List.nil_append]
  have i2 : (chunkFile T K c).toList = ['s', 'e', 'q', '-'] ++ ['t', 'i', 'm', 'e', 's', 't', 'e', 'p', 's'] ++
      '=' :: (toString T).toList ++ (['-', 'o', 'b', 'j', 'e', 'c', 't', 's'] ++ '=' :: (toString K).toList) ++
        ('-' :: ('p' :: (toString c).toList ++ (".pt" : String).toList)) := by
    unfold chunkFile
    rw [String.toList_append, String.toList_append, String.toList_append, String.toList_append, String.toList_append,
      String.toList_append, e0, e2, e3]
    simp only [List.append_assoc, List.cons_append, List.nil_append]
  unfold pyStrIn
  rw [i1, i2, decide_eq_true_iff, key]
  constructor
  · rintro ⟨h, h'⟩; exact ⟨toString_nat_inj (String.toList_injective h), h'⟩
  · rintro ⟨rfl, h'⟩; exact ⟨rfl, h'⟩

theorem chunk_ends (T K c : Nat) : pyEndsWith (chunkFile T K c) ".pt" = true := by
  unfold pyEndsWith chunkFile
  rw [List.isSuffixOf_iff_suffix, String.toList_append]
  exact List.suffix_append _ _

theorem getDataPaths_ok {files : List String} {t k : Nat} {out : List String} (h : getDataPaths files t k = .ok out) :
    out = files.filter (fun f => pyEndsWith f ".pt" &&
      pyStrIn ("timesteps=" ++ toString t ++ "-objects=" ++ toString k) f) ∧ out ≠ [] := by
  unfold getDataPaths at h
  simp only at h
  split at h
  · cases h
  · rename_i hne
    cases h
    exact ⟨rfl, by simpa using hne⟩

/-- C50: a generated file is chosen for `timesteps = t`, `objects = k` iff it was made with the same number of timesteps
and the decimal form of `k` begins that of its number of objects. -/
theorem C50_chosen_iff (files : List String) (t k T K c : Nat) {out : List String}
    (h : getDataPaths files t k = .ok out) :
    chunkFile T K c ∈ out ↔ chunkFile T K c ∈ files ∧ t = T ∧ (toString k).toList <+: (toString K).toList := by
  obtain ⟨rfl, -⟩ := getDataPaths_ok h
  rw [List.mem_filter, Bool.and_eq_true, needle_in_chunk]
  simp only [chunk_ends, true_and]

/-- C50: the choice is exact for files of fewer than ten objects. -/
theorem C50_exact_below_ten (files : List String) (t k T K c : Nat) (hK : K < 10) {out : List String}
    (h : getDataPaths files t k = .ok out) :
    chunkFile T K c ∈ out ↔ chunkFile T K c ∈ files ∧ t = T ∧ k = K := by
  rw [C50_chosen_iff files t k T K c h]
  have h1 : (toString K).toList = [Nat.digitChar K] := by
    rw [Nat.toString_eq_repr, Nat.toList_repr, Nat.toDigits_of_lt_base hK]
  constructor
  · rintro ⟨ha, hb, hp⟩
    refine ⟨ha, hb, toString_nat_inj (String.toList_injective ?_)⟩
    rw [h1] at hp ⊢
    rcases List.prefix_cons_iff.mp hp with h0 | ⟨l, h0, h2⟩
    · rw [Nat.toString_eq_repr, Nat.toList_repr] at h0
      exact absurd h0 Nat.toDigits_ne_nil
    · rw [h0, List.prefix_nil.mp h2]
  · rintro ⟨ha, hb, rfl⟩
    exact ⟨ha, hb, List.prefix_rfl⟩

/-- C50: no file is chosen iff ValueError is raised, and files not ending in `.pt` are never chosen. -/
theorem C50_empty (files : List String) (t k : Nat) :
    getDataPaths files t k = .error .value ↔
      ∀ f ∈ files, ¬ ((".pt" : String).toList <:+ f.toList ∧
        ("timesteps=" ++ toString t ++ "-objects=" ++ toString k).toList <:+: f.toList) := by
  unfold getDataPaths pyEndsWith pyStrIn
  simp only
  split
  · rename_i h
    refine ⟨fun _ => ?_, fun _ => rfl⟩
    simpa [List.filter_eq_nil_iff] using h
  · rename_i h
    refine ⟨fun h' => (by cases h'), fun h' => absurd ?_ h⟩
    simpa [List.filter_eq_nil_iff] using h'

/-- The files of thirty objects are also taken for three objects, those of two are not. -/
example : getDataPaths [chunkFile 10 3 1, chunkFile 10 30 1, chunkFile 10 2 1, "mean_shape.pt"] 10 3 =
    .ok [chunkFile 10 3 1, chunkFile 10 30 1] := by
  decide +kernel

end Verif
