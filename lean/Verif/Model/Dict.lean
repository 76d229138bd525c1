/-
Python's `dict` / `OrderedDict`: an association list with unique keys that remembers insertion order.
Models: `Trace._nodes` (probtorch, used by combinators/trace/utils.py:95,235 and combinators/resamplers.py:81) and the
`dict` that `GlobalStore` extends (combinators/out.py:88).
-/
namespace Verif

/-- Assignment `d[k] = v` on the entry list: overwrite in place, or append at the end
(CPython dict semantics; used by combinators/trace/utils.py:235,243 and combinators/out.py:122). -/
def insertL {α : Type} : List (String × α) → String → α → List (String × α)
  | [], k, v => [(k, v)]
  | (k', v') :: t, k, v => if k' = k then (k, v) :: t else (k', v') :: insertL t k v

/-- Lookup on the entry list. -/
def getL {α : Type} : List (String × α) → String → Option α
  | [], _ => none
  | (k', v') :: t, k => if k' = k then some v' else getL t k

/-- `del d[k]` on the entry list (no-op on a missing key; callers check membership, combinators/out.py:33). -/
def eraseL {α : Type} : List (String × α) → String → List (String × α)
  | [], _ => []
  | (k', v') :: t, k => if k' = k then t else (k', v') :: eraseL t k

def keysL {α : Type} (l : List (String × α)) : List String := l.map Prod.fst

@[simp] theorem keysL_nil {α : Type} : keysL ([] : List (String × α)) = [] := rfl
@[simp] theorem keysL_cons {α : Type} (p : String × α) (l : List (String × α)) :
    keysL (p :: l) = p.1 :: keysL l := rfl
@[simp] theorem keysL_append {α : Type} (l l' : List (String × α)) :
    keysL (l ++ l') = keysL l ++ keysL l' := by simp [keysL]

theorem keysL_insertL {α : Type} (l : List (String × α)) (k : String) (v : α) :
    keysL (insertL l k v) = if k ∈ keysL l then keysL l else keysL l ++ [k] := by
  induction l with
  | nil => simp [insertL]
  | cons p t ih =>
    obtain ⟨k', v'⟩ := p
    by_cases h : k' = k
    · simp [insertL, h]
    · have h' : ¬ k = k' := fun e => h e.symm
      simp only [insertL, h, if_false, keysL_cons, List.mem_cons, h', false_or, ih]
      split <;> simp

theorem nodup_insertL {α : Type} {l : List (String × α)} (h : (keysL l).Nodup) (k : String) (v : α) :
    (keysL (insertL l k v)).Nodup := by
  rw [keysL_insertL]
  split
  · exact h
  · rename_i hk
    rw [List.nodup_append]
    refine ⟨h, by simp, ?_⟩
    intro a ha b hb
    simp at hb
    subst hb
    exact fun e => hk (e ▸ ha)

theorem getL_insertL {α : Type} (l : List (String × α)) (k j : String) (v : α) :
    getL (insertL l k v) j = if j = k then some v else getL l j := by
  induction l with
  | nil => simp [insertL, getL, eq_comm]
  | cons p t ih =>
    obtain ⟨k', v'⟩ := p
    by_cases h : k' = k
    · subst h
      simp only [insertL, if_true, getL]
      by_cases hj : k' = j
      · simp [hj]
      · have : ¬ j = k' := fun e => hj e.symm
        simp [hj, this]
    · simp only [insertL, h, if_false, getL, ih]
      by_cases hj : k' = j
      · subst hj; simp [h]
      · simp [hj]

theorem getL_eq_none {α : Type} {l : List (String × α)} {k : String} :
    getL l k = none ↔ k ∉ keysL l := by
  induction l with
  | nil => simp [getL]
  | cons p t ih =>
    obtain ⟨k', v'⟩ := p
    by_cases h : k' = k
    · simp [getL, h]
    · have h' : ¬ k = k' := fun e => h e.symm
      simp [getL, h, h', ih]

theorem getL_isSome {α : Type} {l : List (String × α)} {k : String} :
    (getL l k).isSome = true ↔ k ∈ keysL l := by
  have := @getL_eq_none α l k
  cases h : getL l k <;> simp_all

theorem getL_mem {α : Type} {l : List (String × α)} {k : String} {v : α} (h : getL l k = some v) :
    (k, v) ∈ l := by
  induction l with
  | nil => simp [getL] at h
  | cons p t ih =>
    obtain ⟨k', v'⟩ := p
    by_cases hk : k' = k
    · simp only [getL, hk, if_true, Option.some.injEq] at h; subst h; simp [hk]
    · simp only [getL, hk, if_false] at h; exact List.mem_cons_of_mem _ (ih h)

theorem mem_getL {α : Type} {l : List (String × α)} (hn : (keysL l).Nodup) {k : String} {v : α}
    (h : (k, v) ∈ l) : getL l k = some v := by
  induction l with
  | nil => simp at h
  | cons p t ih =>
    obtain ⟨k', v'⟩ := p
    simp only [keysL_cons, List.nodup_cons] at hn
    rcases List.mem_cons.1 h with h | h
    · cases h; simp [getL]
    · have hk : k ∈ keysL t := by
        have := List.mem_map_of_mem (f := Prod.fst) h
        simpa [keysL] using this
      have : ¬ k' = k := fun e => hn.1 (e ▸ hk)
      simp only [getL, this, if_false]; exact ih hn.2 h

theorem insertL_of_not_mem {α : Type} {l : List (String × α)} {k : String} (v : α) (h : k ∉ keysL l) :
    insertL l k v = l ++ [(k, v)] := by
  induction l with
  | nil => rfl
  | cons p t ih =>
    obtain ⟨k', v'⟩ := p
    simp only [keysL_cons, List.mem_cons, not_or] at h
    have : ¬ k' = k := fun e => h.1 e.symm
    simp [insertL, this, ih h.2]

theorem keysL_eraseL {α : Type} (l : List (String × α)) (k : String) :
    keysL (eraseL l k) = (keysL l).erase k := by
  induction l with
  | nil => rfl
  | cons p t ih =>
    obtain ⟨k', v'⟩ := p
    by_cases h : k' = k
    · simp [eraseL, h]
    · rw [keysL_cons, List.erase_cons]; simp [eraseL, h, ih]

theorem getL_eraseL {α : Type} {l : List (String × α)} (hn : (keysL l).Nodup) (k j : String) :
    getL (eraseL l k) j = if j = k then none else getL l j := by
  induction l with
  | nil => simp [eraseL, getL]
  | cons p t ih =>
    obtain ⟨k', v'⟩ := p
    simp only [keysL_cons, List.nodup_cons] at hn
    by_cases h : k' = k
    · subst h
      simp only [eraseL, if_true, getL]
      by_cases hj : j = k'
      · subst hj; simp [getL_eq_none.2 hn.1]
      · have : ¬ k' = j := fun e => hj e.symm
        simp [hj, this]
    · simp only [eraseL, h, if_false, getL, ih hn.2]
      by_cases hj : k' = j
      · subst hj; simp [h]
      · simp [hj]

/-- A Python dict with string keys. Uniqueness of keys is Python's guarantee, so it is part of the type. -/
structure Dict (α : Type) where
  entries : List (String × α)
  nodup : (keysL entries).Nodup

namespace Dict
variable {α : Type}

@[ext] theorem ext' {a b : Dict α} (h : a.entries = b.entries) : a = b := by
  cases a; cases b; cases h; rfl

/-- `{}` -/
def empty : Dict α := ⟨[], by simp⟩
/-- `d.keys()`, in insertion order. -/
def keys (d : Dict α) : List String := keysL d.entries
/-- `d[k]` (`none` models `KeyError`). -/
def get? (d : Dict α) (k : String) : Option α := getL d.entries k
/-- `k in d` -/
def contains (d : Dict α) (k : String) : Bool := (d.get? k).isSome
/-- `d[k] = v` -/
def insert (d : Dict α) (k : String) (v : α) : Dict α := ⟨insertL d.entries k v, nodup_insertL d.nodup k v⟩
/-- `del d[k]` -/
def erase (d : Dict α) (k : String) : Dict α :=
  ⟨eraseL d.entries k, by rw [keysL_eraseL]; exact d.nodup.erase k⟩
/-- Keep the entries whose key satisfies `p`, in order. -/
def filterKeys (d : Dict α) (p : String → Bool) : Dict α :=
  ⟨d.entries.filter (fun e => p e.1), by
    have : (keysL (d.entries.filter (fun e => p e.1))).Sublist (keysL d.entries) :=
      List.Sublist.map _ List.filter_sublist
    exact this.nodup d.nodup⟩
/-- Apply a function to every stored value, keeping keys and order. -/
def mapVal {β : Type} (d : Dict α) (f : α → β) : Dict β :=
  ⟨d.entries.map (fun e => (e.1, f e.2)), by
    have : keysL (d.entries.map (fun e => (e.1, f e.2))) = keysL d.entries := by
      simp [keysL, Function.comp_def]
    rw [this]; exact d.nodup⟩

@[simp] theorem keys_empty : (empty : Dict α).keys = [] := rfl
@[simp] theorem entries_empty : (empty : Dict α).entries = [] := rfl
@[simp] theorem get?_empty (k : String) : (empty : Dict α).get? k = none := rfl

theorem nodup_keys (d : Dict α) : d.keys.Nodup := d.nodup

theorem keys_insert (d : Dict α) (k : String) (v : α) :
    (d.insert k v).keys = if k ∈ d.keys then d.keys else d.keys ++ [k] := keysL_insertL _ _ _

theorem mem_keys_insert (d : Dict α) (k j : String) (v : α) :
    j ∈ (d.insert k v).keys ↔ j = k ∨ j ∈ d.keys := by
  rw [keys_insert]; split
  · constructor
    · exact Or.inr
    · rintro (rfl | h) <;> assumption
  · simp [or_comm]

theorem get?_insert (d : Dict α) (k j : String) (v : α) :
    (d.insert k v).get? j = if j = k then some v else d.get? j := getL_insertL _ _ _ _

@[simp] theorem get?_insert_self (d : Dict α) (k : String) (v : α) : (d.insert k v).get? k = some v := by
  simp [get?_insert]

theorem get?_eq_none {d : Dict α} {k : String} : d.get? k = none ↔ k ∉ d.keys := getL_eq_none

theorem mem_keys_iff {d : Dict α} {k : String} : k ∈ d.keys ↔ ∃ v, d.get? k = some v := by
  have := @get?_eq_none α d k
  cases h : d.get? k <;> simp_all

theorem contains_iff {d : Dict α} {k : String} : d.contains k = true ↔ k ∈ d.keys := getL_isSome

theorem contains_eq_false {d : Dict α} {k : String} : d.contains k = false ↔ k ∉ d.keys := by
  rw [← contains_iff]; simp

theorem get?_eq_some {d : Dict α} {k : String} {v : α} : d.get? k = some v ↔ (k, v) ∈ d.entries :=
  ⟨getL_mem, mem_getL d.nodup⟩

theorem mem_keys_of_mem {d : Dict α} {k : String} {v : α} (h : (k, v) ∈ d.entries) : k ∈ d.keys :=
  mem_keys_iff.2 ⟨v, get?_eq_some.2 h⟩

theorem entries_insert_of_not_mem {d : Dict α} {k : String} (v : α) (h : k ∉ d.keys) :
    (d.insert k v).entries = d.entries ++ [(k, v)] := insertL_of_not_mem v h

theorem get?_erase (d : Dict α) (k j : String) :
    (d.erase k).get? j = if j = k then none else d.get? j := getL_eraseL d.nodup _ _

@[simp] theorem keys_mapVal {β : Type} (d : Dict α) (f : α → β) : (d.mapVal f).keys = d.keys := by
  simp [keys, mapVal, keysL, Function.comp_def]

theorem get?_mapVal {β : Type} (d : Dict α) (f : α → β) (k : String) :
    (d.mapVal f).get? k = (d.get? k).map f := by
  obtain ⟨l, hl⟩ := d
  simp only [get?, mapVal]
  clear hl
  induction l with
  | nil => rfl
  | cons p t ih =>
    obtain ⟨k', v'⟩ := p
    by_cases h : k' = k
    · simp [getL, h]
    · simpa [getL, h] using ih

theorem mem_keys_filterKeys (d : Dict α) (p : String → Bool) (k : String) :
    k ∈ (d.filterKeys p).keys ↔ k ∈ d.keys ∧ p k = true := by
  simp only [keys, filterKeys, keysL, List.mem_map, List.mem_filter]
  constructor
  · rintro ⟨e, ⟨he, hp⟩, rfl⟩; exact ⟨⟨e, he, rfl⟩, hp⟩
  · rintro ⟨⟨e, he, rfl⟩, hp⟩; exact ⟨e, ⟨he, hp⟩, rfl⟩

theorem get?_filterKeys (d : Dict α) (p : String → Bool) (k : String) :
    (d.filterKeys p).get? k = if p k then d.get? k else none := by
  by_cases hp : p k = true
  · rw [if_pos hp]
    cases h : d.get? k with
    | none =>
      rw [get?_eq_none, mem_keys_filterKeys]
      rw [get?_eq_none] at h
      exact fun h' => h h'.1
    | some v =>
      rw [get?_eq_some] at h ⊢
      simp [filterKeys, h, hp]
  · rw [if_neg hp, get?_eq_none, mem_keys_filterKeys]
    exact fun h' => hp h'.2

/-- Two dicts with the same keys in the same order and the same values are equal. -/
theorem ext_get? {a b : Dict α} (hk : a.keys = b.keys) (hg : ∀ k, a.get? k = b.get? k) : a = b := by
  apply ext'
  obtain ⟨l, hl⟩ := a
  obtain ⟨m, hm⟩ := b
  simp only [keys, get?] at hk hg ⊢
  induction l generalizing m with
  | nil => cases m with
    | nil => rfl
    | cons => simp at hk
  | cons p t ih =>
    cases m with
    | nil => simp at hk
    | cons q s =>
      obtain ⟨k, v⟩ := p
      obtain ⟨k', v'⟩ := q
      simp only [keysL_cons, List.cons.injEq] at hk
      obtain ⟨rfl, hk⟩ := hk
      have h1 := hg k
      simp only [getL, if_true, Option.some.injEq] at h1
      subst h1
      simp only [keysL_cons, List.nodup_cons] at hl hm
      congr 1
      apply ih hl.2 s hm.2 hk
      intro j
      have h2 := hg j
      by_cases hj : k = j
      · subst hj
        rw [getL_eq_none.2 hl.1, getL_eq_none.2 hm.1]
      · simpa [getL, hj] using h2

end Dict
end Verif
