import Verif.Model.Utils
import Verif.Proofs.Strings
/-
C34: keys of saved models, and saving and loading.
-/
namespace Verif
namespace Spec

/-- Every model with the key naming its group's index, its group's name and its own index. -/
def keyed {M : Type} (gs : List (String × List M)) : List (String × M) :=
  gs.zipIdx.flatMap fun g => g.1.2.zipIdx.map fun m => (s!"{g.2}_{g.1.1}_{m.2}", m.1)

end Spec

theorem modelKey_inj {i i' j j' : Nat} {n n' : String} (h : modelKey i n j = modelKey i' n' j') :
    i = i' ∧ n = n' ∧ j = j' := by
  have h1 := congrArg String.toList h
  simp only [modelKey, String.toList_append, List.append_assoc] at h1
  have e : ("_" : String).toList = ['_'] := rfl
  rw [e] at h1
  simp only [List.singleton_append] at h1
  obtain ⟨h2, h3⟩ := split_first (underscore_not_mem_toString i) (underscore_not_mem_toString i') h1
  obtain ⟨h4, h5⟩ := split_last (underscore_not_mem_toString j) (underscore_not_mem_toString j') h3
  exact ⟨toString_nat_inj (String.toList_injective h2), String.toList_injective h4,
    toString_nat_inj (String.toList_injective h5)⟩

/-- C34: different positions have different keys, whatever the names are (also names with digits and underscores). -/
theorem C34_keys_distinct (i i' j j' : Nat) (n n' : String) :
    modelKey i n j = modelKey i' n' j' ↔ i = i' ∧ n = n' ∧ j = j' :=
  ⟨modelKey_inj, by rintro ⟨rfl, rfl, rfl⟩; rfl⟩

/-- Two format strings that would collide without the index in front: same concatenation of name and index. -/
example : modelKey 0 "a_1" 2 = "0_a_1_2" ∧ modelKey 0 "a" 12 ≠ modelKey 0 "a_1" 2 := by
  refine ⟨by decide +kernel, ?_⟩
  rw [Ne, C34_keys_distinct]; decide

theorem addModels_entries {M : Type} (i : Nat) (name : String) (ms : List M) (j : Nat) (d : Dict M)
    (h : ∀ j', j ≤ j' → modelKey i name j' ∉ d.keys) :
    (addModels i name j ms d).entries = d.entries ++ (ms.zipIdx j).map (fun m => (modelKey i name m.2, m.1)) := by
  induction ms generalizing j d with
  | nil => simp [addModels]
  | cons m ms ih =>
    rw [addModels, ih]
    · rw [Dict.entries_insert_of_not_mem _ (h j (Nat.le_refl _))]
      simp
    · intro j' hj'
      rw [Dict.mem_keys_insert]
      rintro (h1 | h1)
      · have := (modelKey_inj h1).2.2; omega
      · exact h j' (by omega) h1

theorem addGroups_entries {M : Type} (gs : List (String × List M)) (i : Nat) (d : Dict M)
    (h : ∀ i', i ≤ i' → ∀ name j, modelKey i' name j ∉ d.keys) :
    (addGroups i gs d).entries =
      d.entries ++ (gs.zipIdx i).flatMap fun g => g.1.2.zipIdx.map fun m => (modelKey g.2 g.1.1 m.2, m.1) := by
  induction gs generalizing i d with
  | nil => simp [addGroups]
  | cons g gs ih =>
    have h1 := addModels_entries i g.1 g.2 0 d (fun j' _ => h i (Nat.le_refl _) _ _)
    rw [addGroups, ih, h1]
    · simp
    · intro i' hi' name j hm
      simp only [Dict.keys, h1, keysL_append, List.mem_append] at hm
      rcases hm with hm | hm
      · exact h i' (by omega) name j hm
      · simp only [keysL, List.map_map, List.mem_map] at hm
        obtain ⟨a, _, ha⟩ := hm
        have := (modelKey_inj ha).1
        omega

theorem modelKey_eq (i : Nat) (n : String) (j : Nat) : modelKey i n j = s!"{i}_{n}_{j}" := rfl

/-- C34: with as many names as lists, `models_as_dict` gives a dict with exactly one entry per model, in order, under the
key "group index, name, index in the group": nothing is overwritten or lost. Otherwise it raises AssertionError. -/
theorem C34_every_model {M : Type} (ms : List (List M)) (names : List String) :
    (names.length = ms.length →
      ∃ d, modelsAsDict (.list ms) names = .ok d ∧ d.entries = Spec.keyed (names.zip ms)) ∧
    (names.length ≠ ms.length → modelsAsDict (.list ms) names = .error .assertion) := by
  refine ⟨fun h => ⟨_, if_pos h, ?_⟩, fun h => if_neg h⟩
  rw [addGroups_entries]
  · rfl
  · intro _ _ _ _ h; simp at h

/-- C34, given a dict of lists: the names are the dict's own keys, `names` only has to have the same length. -/
theorem C34_every_model_dict {M : Type} (d : Dict (Option (List M))) (names : List String) :
    ((∀ e ∈ d.entries, e.2.isSome) → names.length = d.entries.length →
      ∃ r, modelsAsDict (.dict d) names = .ok r ∧
        r.entries = Spec.keyed (d.entries.map fun e => (e.1, e.2.getD []))) ∧
    ((∃ e ∈ d.entries, e.2 = none) ∨ names.length ≠ d.entries.length →
      modelsAsDict (.dict d) names = .error .assertion) := by
  constructor
  · intro h1 h2
    have h3 : (d.entries.any fun e => e.2.isNone) = false := by
      rw [List.any_eq_false]
      intro e he
      have := h1 e he
      cases h : e.2 <;> simp_all
    refine ⟨addGroups 0 (d.entries.map fun e => (e.1, e.2.getD [])) Dict.empty, ?_, ?_⟩
    · simp [modelsAsDict, h3, h2]
    · rw [addGroups_entries]
      · rfl
      · intro _ _ _ _ h; simp at h
  · intro h
    simp only [modelsAsDict]
    split
    · rfl
    · rename_i h3
      split
      · rename_i h4
        rcases h with ⟨e, he, h5⟩ | h
        · exact absurd (List.any_eq_true.2 ⟨e, he, by simp [h5]⟩) h3
        · exact absurd h4 h
      · rfl

/-- What loading gives: for every key of the models' dict that the checkpoint has, the state under that key. -/
theorem loadModels_eq {M S : Type} (d : Dict M) (c : Dict S) (f : String → S)
    (h : ∀ k ∈ d.keys, c.get? k = some (f k)) :
    loadModels d c = .ok (d.entries.map fun e => (e.2, f e.1)) := by
  obtain ⟨l, hl⟩ := d
  simp only [loadModels, Dict.keys] at h ⊢
  clear hl
  induction l with
  | nil => rfl
  | cons e t ih =>
    rw [List.mapM_cons, ih (fun k hk => h k (by simp [hk])), h e.1 (by simp)]
    rfl

namespace Spec

/-- The structures of two lists of lists agree. -/
def SameShape {M : Type} (a b : List (List M)) : Prop := a.map List.length = b.map List.length

end Spec

theorem keyed_zip {M : Type} (ms ms' : List (List M)) (names : List String) (i : Nat)
    (h : Spec.SameShape ms ms') :
    (((names.zip ms).zipIdx i).flatMap fun g => g.1.2.zipIdx.map fun m => s!"{g.2}_{g.1.1}_{m.2}") =
      (((names.zip ms').zipIdx i).flatMap fun g => g.1.2.zipIdx.map fun m => s!"{g.2}_{g.1.1}_{m.2}") := by
  induction ms generalizing ms' names i with
  | nil =>
    cases ms' with
    | nil => rfl
    | cons => simp [Spec.SameShape] at h
  | cons a ms ih =>
    cases ms' with
    | nil => simp [Spec.SameShape] at h
    | cons b ms' =>
      cases names with
      | nil => rfl
      | cons n names =>
        simp only [Spec.SameShape, List.map_cons, List.cons.injEq] at h
        have h2 := ih ms' names (i + 1) h.2
        simp only [List.zip_cons_cons, List.zipIdx_cons, List.flatMap_cons, h2]
        congr 1
        have : ∀ (a b : List M) (j : Nat), a.length = b.length →
            (a.zipIdx j).map (fun m => s!"{i}_{n}_{m.2}") = (b.zipIdx j).map fun m => s!"{i}_{n}_{m.2}" := by
          intro a
          induction a with
          | nil => intro b j hb; cases b with
            | nil => rfl
            | cons => simp at hb
          | cons x a iha => intro b j hb; cases b with
            | nil => simp at hb
            | cons y b =>
              simp only [List.zipIdx_cons, List.map_cons]
              rw [iha b (j + 1) (by simpa using hb)]
        exact this a b 0 h.1

theorem keys_keyed {M : Type} (gs : List (String × List M)) :
    keysL (Spec.keyed gs) = gs.zipIdx.flatMap fun g => g.1.2.zipIdx.map fun m => s!"{g.2}_{g.1.1}_{m.2}" := by
  simp [keysL, Spec.keyed, List.map_flatMap, Function.comp_def]

theorem values_keyed {M : Type} (ms : List (List M)) (names : List String) (h : names.length = ms.length) :
    (Spec.keyed (names.zip ms)).map Prod.snd = ms.flatten := by
  simp only [Spec.keyed, List.map_flatMap, List.map_map, Function.comp_def]
  have : ∀ i, (((names.zip ms).zipIdx i).flatMap fun g => g.1.2.zipIdx.map fun m => m.1) = ms.flatten := by
    intro i
    induction ms generalizing names i with
    | nil => simp
    | cons a ms ih =>
      cases names with
      | nil => simp at h
      | cons n names =>
        simp only [List.zip_cons_cons, List.zipIdx_cons, List.flatMap_cons, List.flatten_cons]
        rw [ih names (by simpa using h) (i + 1)]
        congr 1
        exact List.zipIdx_map_fst ..
  exact this 0

/-- C34: saving models and loading the file into models arranged the same way succeeds and gives every model the state of
the model at its own place. (`ms' = ms` gives every model its own state back.) -/
theorem C34_roundtrip {M S : Type} (state : M → S) (ms ms' : List (List M)) (names : List String)
    (h : names.length = ms.length) (hs : Spec.SameShape ms ms') :
    ∃ d d', modelsAsDict (.list ms) names = .ok d ∧ modelsAsDict (.list ms') names = .ok d' ∧
      loadModels d' (saveModels state d) = .ok (ms'.flatten.zip (ms.flatten.map state)) := by
  have hl : ms.length = ms'.length := by simpa using congrArg List.length hs
  obtain ⟨d, hd, he⟩ := (C34_every_model ms names).1 h
  obtain ⟨d', hd', he'⟩ := (C34_every_model ms' names).1 (h.trans hl)
  refine ⟨d, d', hd, hd', ?_⟩
  have hk : keysL d'.entries = keysL d.entries := by
    rw [he, he', keys_keyed, keys_keyed]; exact (keyed_zip ms ms' names 0 hs).symm
  have hv : d.entries.map Prod.snd = ms.flatten := by rw [he, values_keyed ms names h]
  have hv' : d'.entries.map Prod.snd = ms'.flatten := by rw [he', values_keyed ms' names (h.trans hl)]
  rw [← hv, ← hv']
  have : ∀ (l l' : List (String × M)) (c : String → Option S), keysL l' = keysL l →
      (∀ e ∈ l, c e.1 = some (state e.2)) →
      (l'.mapM fun e => match c e.1 with | some s => (Except.ok (e.2, s) : Except Err (M × S)) | none => .error .key) =
        .ok ((l'.map Prod.snd).zip ((l.map Prod.snd).map state)) := by
    intro l
    induction l with
    | nil => intro l' c h1 _; cases l' with
      | nil => rfl
      | cons => simp at h1
    | cons e l ih => intro l' c h1 h2; cases l' with
      | nil => simp at h1
      | cons e' l' =>
        simp only [keysL_cons, List.cons.injEq] at h1
        rw [List.mapM_cons, ih l' c h1.2 (fun e he => h2 e (by simp [he])), h1.1, h2 e (by simp)]
        rfl
  refine this d.entries d'.entries (saveModels state d).get? hk ?_
  intro e he
  rw [saveModels, Dict.get?_mapVal, Dict.get?_eq_some.2 (show (e.1, e.2) ∈ d.entries from he)]
  rfl

/-- Three groups as in `save_nvi_model` (experiments/annealing/utils.py:64-72), two with the same name. -/
example : ∃ d, modelsAsDict (.list [[10, 11], [12], []]) ["g", "g", "r_0"] = .ok d ∧
    d.entries = [("0_g_0", 10), ("0_g_1", 11), ("1_g_0", 12)] := by
  obtain ⟨d, h, he⟩ := (C34_every_model [[10, 11], [12], []] ["g", "g", "r_0"]).1 rfl
  exact ⟨d, h, he.trans (by decide +kernel)⟩

end Verif
