import Verif.Model.Out
/-
C32: PropertyDict and Out.
-/
namespace Verif
variable {α : Type}

/-- C32. For a name that is not an attribute of the class, attribute and item access are the same: reading gives the item
(AttributeError instead of KeyError if there is none), writing and deleting change that item and no other. -/
theorem C32_attribute_is_item (d : Dict α) (name : String) (h : name ∉ dictAttrs) :
    (∀ a, PDict.getAttr d name = .ok (.item a) ↔ PDict.getItem d name = .ok a) ∧
    (PDict.getAttr d name = .error .attribute ↔ PDict.getItem d name = .error .key) ∧
    (∀ a, PDict.getAttr (PDict.setAttr d name a) name = .ok (.item a)) ∧
    (∀ a k, k ≠ name → PDict.getItem (PDict.setAttr d name a) k = PDict.getItem d k ∧
      PDict.getAttr (PDict.setAttr d name a) k = PDict.getAttr d k) ∧
    (∀ a, PDict.getItem d name = .ok a → ∃ d', PDict.delAttr d name = .ok d' ∧
      PDict.getAttr d' name = .error .attribute ∧ ∀ k, k ≠ name → PDict.getItem d' k = PDict.getItem d k) ∧
    (PDict.getItem d name = .error .key → PDict.delAttr d name = .error .attribute) := by
  have hc : dictAttrs.contains name = false := by simpa using h
  refine ⟨fun a => ?_, ?_, fun a => ?_, fun a k hk => ⟨?_, ?_⟩, fun a ha => ?_, fun he => ?_⟩
  · simp only [PDict.getAttr, PDict.getItem, hc]
    cases d.get? name <;> simp
  · simp only [PDict.getAttr, PDict.getItem, hc]
    cases d.get? name <;> simp
  · simp only [PDict.getAttr, PDict.setAttr, hc]; simp
  · simp [PDict.getItem, PDict.setAttr, Dict.get?_insert, hk]
  · simp [PDict.getAttr, PDict.setAttr, Dict.get?_insert, hk]
  · have hg : d.get? name = some a := by
      unfold PDict.getItem at ha
      cases hg : d.get? name with
      | none => rw [hg] at ha; cases ha
      | some b => rw [hg] at ha; cases ha; rfl
    have : d.contains name = true := Dict.contains_iff.2 (Dict.mem_keys_iff.2 ⟨a, hg⟩)
    refine ⟨d.erase name, by simp [PDict.delAttr, this], ?_, fun k hk => ?_⟩
    · simp only [PDict.getAttr, hc, Dict.get?_erase]; simp
    · simp [PDict.getItem, Dict.get?_erase, hk]
  · have hg : d.get? name = none := by
      unfold PDict.getItem at he
      cases hg : d.get? name with
      | none => rfl
      | some b => rw [hg] at he; cases he
    have : d.contains name = false := Dict.contains_eq_false.2 (Dict.get?_eq_none.1 hg)
    simp [PDict.delAttr, this]

/-- C32. An item stored under the name of a dict method cannot be read back as an attribute: `d.items = x` stores `x` but
`d.items` is still the method. -/
theorem C32_shadowed (d : Dict α) (name : String) (h : name ∈ dictAttrs) (a : α) :
    PDict.getItem (PDict.setAttr d name a) name = .ok a ∧
      PDict.getAttr (PDict.setAttr d name a) name = .ok (.ofClass name) := by
  have hc : dictAttrs.contains name = true := by simpa using h
  simp only [PDict.getItem, PDict.getAttr, PDict.setAttr, hc]; simp

/-- C32: the attribute "loss" and the shadowed "items". -/
example : "loss" ∉ dictAttrs ∧ "items" ∈ dictAttrs ∧ "trace" ∉ dictAttrs := by decide

theorem foldl_insert_get? (l : List (String × α)) (d : Dict α) (hn : (keysL l).Nodup) (k : String) :
    (l.foldl (fun d e => d.insert e.1 e.2) d).get? k = match getL l k with | some a => some a | none => d.get? k := by
  induction l generalizing d with
  | nil => rfl
  | cons e l ih =>
    obtain ⟨k', a⟩ := e
    rw [keysL_cons, List.nodup_cons] at hn
    rw [List.foldl_cons, ih _ hn.2]
    by_cases hk : k' = k
    · subst hk
      have : getL l k' = none := getL_eq_none.2 hn.1
      simp [this, getL]
    · have h1 : getL ((k', a) :: l) k = getL l k := by simp [getL, hk]
      rw [h1]
      cases getL l k with
      | some a => rfl
      | none =>
        simp only
        rw [Dict.get?_insert, if_neg (fun h => hk h.symm)]

theorem pyOut_get? (t w o : α) (extras : Dict α) (k : String) :
    (pyOut t w o extras).get? k = match extras.get? k with
      | some a => some a
      | none => if k = "output" then some o else if k = "log_weight" then some w else if k = "trace" then some t else none := by
  unfold pyOut
  rw [foldl_insert_get? _ _ extras.nodup]
  show (match extras.get? k with | some a => some a | none => _) = _
  cases extras.get? k with
  | some a => rfl
  | none => simp [PDict.setAttr, Dict.get?_insert]

/-- C32. The items of an `Out` are the extras, and trace, log_weight and output unless an extra has that name. -/
theorem C32_out_items (t w o : α) (extras : Dict α) :
    (∀ k a, extras.get? k = some a → (pyOut t w o extras).get? k = some a) ∧
    (extras.get? "trace" = none → (pyOut t w o extras).get? "trace" = some t) ∧
    (extras.get? "log_weight" = none → (pyOut t w o extras).get? "log_weight" = some w) ∧
    (extras.get? "output" = none → (pyOut t w o extras).get? "output" = some o) ∧
    ∀ k, extras.get? k = none → k ≠ "trace" → k ≠ "log_weight" → k ≠ "output" → (pyOut t w o extras).get? k = none := by
  refine ⟨fun k a h => ?_, fun h => ?_, fun h => ?_, fun h => ?_, fun k h h1 h2 h3 => ?_⟩ <;> rw [pyOut_get?] <;>
    simp [*]

/-- The optional entries that iterating should list. -/
def Spec.optional : List String := ["ix", "program", "kernel", "proposal"]

theorem iterStep_ok (d : Dict α) (ex : Dict (AttrVal α)) (o : String) (h : o ∉ dictAttrs) :
    iterStep d ex o = .ok (match d.get? o with | some a => ex.insert o (.item a) | none => ex) := by
  have hc : dictAttrs.contains o = false := by simpa using h
  unfold iterStep PDict.hasAttr PDict.getAttr
  simp only [hc]
  cases d.get? o <;> simp

/-- C32. Iterating over an `Out` never fails. It gives the trace, the log weight and the output as attributes, and a dict of
exactly those of ix, program, kernel, proposal that the `Out` has, with their values. -/
theorem C32_iter (t w o : α) (extras : Dict α) :
    ∃ t' w' o' ex, iterOut (pyOut t w o extras) = .ok ([.item t', .item w', .item o'], ex) ∧
      (pyOut t w o extras).get? "trace" = some t' ∧ (pyOut t w o extras).get? "log_weight" = some w' ∧
      (pyOut t w o extras).get? "output" = some o' ∧
      ∀ k, ex.get? k = if k ∈ Spec.optional then ((extras.get? k).map AttrVal.item) else none := by
  have hg : ∀ k, k = "trace" ∨ k = "log_weight" ∨ k = "output" → ∃ a, (pyOut t w o extras).get? k = some a := by
    intro k hk
    rw [pyOut_get?]
    cases extras.get? k with
    | some a => exact ⟨a, rfl⟩
    | none => rcases hk with rfl | rfl | rfl <;> exact ⟨_, rfl⟩
  obtain ⟨t', ht⟩ := hg "trace" (by simp)
  obtain ⟨w', hw⟩ := hg "log_weight" (by simp)
  obtain ⟨o', ho⟩ := hg "output" (by simp)
  have hattr : ∀ k a, k ∉ dictAttrs → (pyOut t w o extras).get? k = some a →
      PDict.getAttr (pyOut t w o extras) k = .ok (.item a) := by
    intro k a h1 h2
    have hc : dictAttrs.contains k = false := by simpa using h1
    simp only [PDict.getAttr, hc, h2]; simp
  have hopt : ∀ k ∈ Spec.optional, (pyOut t w o extras).get? k = extras.get? k := by
    intro k hk
    rw [pyOut_get?]
    cases extras.get? k with
    | some a => rfl
    | none =>
      simp only [Spec.optional, List.mem_cons, List.not_mem_nil, or_false] at hk
      rcases hk with rfl | rfl | rfl | rfl <;> rfl
  unfold iterOut
  simp only [List.foldlM_cons, List.foldlM_nil, iterStep_ok _ _ _ (show "ix" ∉ dictAttrs by decide),
    iterStep_ok _ _ _ (show "program" ∉ dictAttrs by decide), iterStep_ok _ _ _ (show "kernel" ∉ dictAttrs by decide),
    iterStep_ok _ _ _ (show "proposal" ∉ dictAttrs by decide), bind, Except.bind, pure, Except.pure,
    hattr "trace" t' (by decide) ht, hattr "log_weight" w' (by decide) hw, hattr "output" o' (by decide) ho]
  refine ⟨t', w', o', _, rfl, ht, hw, ho, fun k => ?_⟩
  rw [hopt "ix" (by decide), hopt "program" (by decide), hopt "kernel" (by decide), hopt "proposal" (by decide)]
  have hs : ∀ (ex : Dict (AttrVal α)) (n : String) (x : Option α),
      (match x with | some a => ex.insert n (.item a) | none => ex).get? k =
        if k = n then (match x with | some a => some (.item a) | none => ex.get? k) else ex.get? k := by
    intro ex n x
    cases x with
    | none => simp
    | some a => simp [Dict.get?_insert]
  simp only [hs, Dict.get?_empty]
  by_cases h1 : k = "proposal"
  · subst h1; cases extras.get? "proposal" <;> simp [Spec.optional]
  by_cases h2 : k = "kernel"
  · subst h2; cases extras.get? "kernel" <;> simp [Spec.optional]
  by_cases h3 : k = "program"
  · subst h3; cases extras.get? "program" <;> simp [Spec.optional]
  by_cases h4 : k = "ix"
  · subst h4; cases extras.get? "ix" <;> simp [Spec.optional]
  simp [h1, h2, h3, h4, Spec.optional]

/-- C32: an `Out` as Propose builds it has type, ix, lv, ... as extras; only ix is listed. -/
example : ∃ ex, iterOut (pyOut 1 2 3 ((Dict.empty.insert "type" 4).insert "ix" 5)) = .ok ([.item 1, .item 2, .item 3], ex) ∧
    ex.keys = ["ix"] := ⟨_, rfl, rfl⟩

/-- Somewhere in the nest there is an empty PropertyDict. -/
inductive Spec.HasEmpty : PVal → Prop
  | here : HasEmpty (.pd [])
  | there {items : List (String × PVal)} {e : String × PVal} : e ∈ items → HasEmpty e.2 → HasEmpty (.pd items)

mutual
theorem showNest_spec (v : PVal) : (v.showNest = .ok () ∧ ¬ Spec.HasEmpty v) ∨ (v.showNest = .error .value ∧ Spec.HasEmpty v) := by
  cases v with
  | other => exact Or.inl ⟨by rw [PVal.showNest], by rintro ⟨⟩⟩
  | pd items =>
    rw [PVal.showNest]
    cases items with
    | nil => exact Or.inr ⟨rfl, .here⟩
    | cons e l =>
      rcases showItems_spec (e :: l) with ⟨h1, h2⟩ | ⟨h1, e', h2, h3⟩
      · refine Or.inl ⟨by simpa using h1, ?_⟩
        rintro (_ | ⟨hm, h⟩)
        exact h2 _ hm h
      · exact Or.inr ⟨by simpa using h1, .there h2 h3⟩
theorem showItems_spec (l : List (String × PVal)) :
    (PVal.showItems l = .ok () ∧ ∀ e ∈ l, ¬ Spec.HasEmpty e.2) ∨
    (PVal.showItems l = .error .value ∧ ∃ e ∈ l, Spec.HasEmpty e.2) := by
  cases l with
  | nil => exact Or.inl ⟨by rw [PVal.showItems], by simp⟩
  | cons e l =>
    rw [PVal.showItems]
    obtain ⟨k, v⟩ := e
    rcases showNest_spec v with ⟨h1, h2⟩ | ⟨h1, h2⟩
    · simp only [h1]
      rcases showItems_spec l with ⟨h3, h4⟩ | ⟨h3, e', h4, h5⟩
      · exact Or.inl ⟨h3, by simpa using ⟨h2, fun a b hab => h4 (a, b) hab⟩⟩
      · exact Or.inr ⟨h3, e', List.mem_cons_of_mem _ h4, h5⟩
    · simp only [h1]
      exact Or.inr ⟨trivial, _, List.mem_cons_self, h2⟩
end

/-- C32. Printing a PropertyDict raises (ValueError) exactly when it or a PropertyDict nested in it is empty. -/
theorem C32_repr (v : PVal) : v.showNest = .error .value ↔ Spec.HasEmpty v := by
  rcases showNest_spec v with ⟨h1, h2⟩ | ⟨h1, h2⟩
  · refine ⟨fun h => ?_, fun h => absurd h h2⟩
    rw [h1] at h
    cases h
  · exact ⟨fun _ => h2, fun _ => h1⟩

/-- C32: a nest with an empty PropertyDict inside. -/
example : (PVal.pd [("a", .other), ("b", .pd [("c", .pd [])])]).showNest = .error .value ∧
    (PVal.pd [("a", .other), ("b", .pd [("c", .other)])]).showNest = .ok () := ⟨rfl, rfl⟩

end Verif
