import Verif.Proofs.Trace
import Verif.Props.Toy
/-
C17, C18, C33, C40: the trace utilities.
-/
namespace Verif
open Spec
variable {L : Lang}

/-- C17, LastWriteWins: never raises; the addresses are the non-excluded ones in order of first occurrence, each with
its last variable. -/
theorem C17_last_write_wins (ex : String → Bool) (ts : List (Trace L)) :
    ∃ r, copytraces .lastWriteWins ex ts = .ok r ∧
      r.keys = (((allEntries ts).map (·.1)).filter (fun k => !ex k)).eraseDups ∧
      ∀ k, r.get? k = if ex k then none else lastOf (allEntries ts) k := by
  obtain ⟨r, h1, h2, h3⟩ := copy_last ex (allEntries ts) Dict.empty
  refine ⟨r, ?_, by simpa [keysL] using h2, fun k => by simpa using h3 k⟩
  unfold copytraces
  rw [copytraces_flat, h1]

/-- C17, FirstWriteWins: the same with the first variable. -/
theorem C17_first_write_wins (ex : String → Bool) (ts : List (Trace L)) :
    ∃ r, copytraces .firstWriteWins ex ts = .ok r ∧
      r.keys = (((allEntries ts).map (·.1)).filter (fun k => !ex k)).eraseDups ∧
      ∀ k, r.get? k = if ex k then none else firstOf (allEntries ts) k := by
  obtain ⟨r, h1, h2, h3⟩ := copy_first ex (allEntries ts) Dict.empty
  refine ⟨r, ?_, by simpa [keysL] using h2, fun k => by simpa using h3 k⟩
  unfold copytraces
  rw [copytraces_flat, h1]

/-- No two of the traces share a non-excluded address. -/
def Spec.NoSharedAddress (ex : String → Bool) (ts : List (Trace L)) : Prop :=
  ts.Pairwise (fun a b => ∀ k, ex k = false → ¬ (k ∈ a.keys ∧ k ∈ b.keys))

theorem nodup_allEntries (ex : String → Bool) (ts : List (Trace L)) :
    ((keysL (allEntries ts)).filter (fun k => !ex k)).Nodup ↔ NoSharedAddress ex ts := by
  induction ts with
  | nil => simp [allEntries, NoSharedAddress]
  | cons t ts ih =>
    have e : keysL (allEntries (t :: ts)) = t.keys ++ keysL (allEntries ts) := by
      simp [allEntries, Dict.keys]
    rw [e, List.filter_append, List.nodup_append, ih]
    have hmem : ∀ k, k ∈ keysL (allEntries ts) ↔ ∃ s ∈ ts, k ∈ s.keys := by
      intro k
      simp only [allEntries, keysL, List.mem_map, List.mem_flatMap, Dict.keys]
      constructor
      · rintro ⟨e, ⟨s, hs, he⟩, rfl⟩; exact ⟨s, hs, e, he, rfl⟩
      · rintro ⟨s, hs, e, he, rfl⟩; exact ⟨e, ⟨s, hs, he⟩, rfl⟩
    constructor
    · rintro ⟨-, h2, h3⟩
      refine List.pairwise_cons.2 ⟨fun s hs k hk ⟨h4, h5⟩ => ?_, h2⟩
      exact h3 k (by simp [h4, hk]) k (by simp only [List.mem_filter, hmem]; exact ⟨⟨s, hs, h5⟩, by simp [hk]⟩) rfl
    · intro h
      obtain ⟨h1, h2⟩ := List.pairwise_cons.1 h
      refine ⟨t.nodup_keys.filter _, h2, ?_⟩
      rintro a ha b hb rfl
      simp only [List.mem_filter, Bool.not_eq_true'] at ha hb
      obtain ⟨s, hs, h3⟩ := (hmem a).1 hb.1
      exact h1 s hs a ha.2 ⟨ha.1, h3⟩

/-- C18. With NoOverlaps copytraces raises exactly when two of the traces share a non-excluded address; otherwise it
returns all the non-excluded entries in order. -/
theorem C18_no_overlaps (ex : String → Bool) (ts : List (Trace L)) :
    (NoSharedAddress ex ts → ∃ r, copytraces .noOverlaps ex ts = .ok r ∧
        r.entries = (allEntries ts).filter (fun e => !ex e.1)) ∧
      (¬ NoSharedAddress ex ts → copytraces .noOverlaps ex ts = .error .runtime) := by
  unfold copytraces
  rw [copytraces_flat, ← nodup_allEntries]
  rcases copy_noOverlaps ex (allEntries ts) Dict.empty with ⟨r, h1, h2, h3⟩ | ⟨h1, h2⟩
  · exact ⟨fun _ => ⟨r, h1, by simpa using h3⟩, fun h => absurd (by simpa using h2) h⟩
  · exact ⟨fun h => absurd (by simpa using h) h2, fun _ => h1⟩

/-- C18. A copy of one trace equals it (in every mode). -/
theorem C18_copy_identity (mode : WriteMode) (t : Trace L) : copytraces mode (fun _ => false) [t] = .ok t := by
  cases mode with
  | noOverlaps => exact copytrace1_ok t
  | lastWriteWins =>
    obtain ⟨r, h1, h2, h3⟩ := C17_last_write_wins (fun _ => false) [t]
    rw [h1]
    congr 1
    have hn : (t.entries.map (·.1)).Nodup := t.nodup
    apply Dict.ext_get?
    · rw [h2]
      simp only [allEntries, List.flatMap_cons, List.flatMap_nil, List.append_nil, Bool.not_false, List.filter_true]
      exact eraseDups_of_nodup hn
    · intro k
      rw [h3]
      simp only [Bool.false_eq_true, if_false, allEntries, List.flatMap_cons, List.flatMap_nil, List.append_nil, lastOf,
        firstOf_eq_getL]
      have hr : (keysL t.entries.reverse).Nodup := by
        rw [keysL, List.map_reverse]
        exact List.pairwise_reverse.2 (List.Pairwise.imp Ne.symm hn)
      cases h : t.get? k with
      | none =>
        rw [getL_eq_none]; rw [Dict.get?_eq_none] at h
        simpa [keysL, Dict.keys] using h
      | some v =>
        rw [Dict.get?_eq_some] at h
        exact mem_getL hr (by simpa using h)
  | firstWriteWins =>
    obtain ⟨r, h1, h2, h3⟩ := C17_first_write_wins (fun _ => false) [t]
    rw [h1]
    congr 1
    apply Dict.ext_get?
    · rw [h2]
      simp only [allEntries, List.flatMap_cons, List.flatMap_nil, List.append_nil, Bool.not_false, List.filter_true]
      exact eraseDups_of_nodup t.nodup
    · intro k
      rw [h3]
      simp [allEntries, firstOf_eq_getL, Dict.get?]

/-- Both cases of C18 occur: overlapping traces, and the same traces with the overlap excluded. -/
example : ¬ NoSharedAddress (fun _ => false) [Toy.one "x" 1, Toy.one "y" 2, Toy.one "x" 3] ∧
    NoSharedAddress (fun k => k == "x") [Toy.one "x" 1, Toy.one "y" 2, Toy.one "x" 3] := by
  constructor
  · intro h
    have h := (List.pairwise_cons.1 h).1 (Toy.one "x" 3) (by simp) "x" rfl
    exact h ⟨by simp [Toy.one, Dict.mem_keys_insert], by simp [Toy.one, Dict.mem_keys_insert]⟩
  · simp only [NoSharedAddress, Toy.one, Dict.mem_keys_insert, Dict.keys_empty, List.not_mem_nil, or_false,
      List.pairwise_cons, List.mem_cons, beq_eq_false_iff_ne]
    refine ⟨?_, ?_, by simp, by simp⟩
    · rintro b (rfl | rfl) k h1 ⟨h2, -⟩ <;> exact h1 h2
    · rintro b rfl k h1 ⟨-, h2⟩
      exact h1 (by simpa [Dict.mem_keys_insert] using h2)

/-- The names that `valeq` compares: the given ones, else the shared ones, or all if strict. -/
def Spec.compared (t1 t2 : Trace L) (nodes : NodesArg) (strict : Bool) (n : String) : Prop :=
  match nodes with
  | .dict names => n ∈ names
  | .pairs _ => False
  | .none => if strict then n ∈ t1.keys ∨ n ∈ t2.keys else n ∈ t1.keys ∧ n ∈ t2.keys

/-- `torch.equal` on the values under `n`, which must exist in both. -/
def Spec.SameValue (t1 t2 : Trace L) (n : String) : Prop :=
  ∃ a b, t1.get? n = some a ∧ t2.get? n = some b ∧ L.veq a.value b.value = true

theorem traceEq_iff (t1 t2 : Trace L) (n : String) : traceEq t1 t2 n = true ↔ SameValue t1 t2 n := by
  unfold traceEq SameValue
  cases t1.get? n <;> cases t2.get? n <;> simp

/-- C33. valeq returns True or raises, never False. -/
theorem C33_never_false (t1 t2 : Trace L) (nodes : NodesArg) (ce strict : Bool) :
    valeq t1 t2 nodes ce strict = .ok true ∨ ∃ e, valeq t1 t2 nodes ce strict = .error e := by
  cases h : valeq t1 t2 nodes ce strict with
  | error e => exact Or.inr ⟨e, rfl⟩
  | ok b =>
    left
    cases b with
    | true => rfl
    | false =>
      exfalso
      revert h
      unfold valeq
      rcases nodes with _ | names | (_ | ⟨p, ps⟩)
      · cases strict <;> dsimp only <;> split_ifs <;> simp
      · dsimp only; split_ifs <;> simp
      · dsimp only; split_ifs <;> simp
      · simp

theorem valeq_finish (t1 t2 : Trace L) (names : List String) :
    (if !(names.all (fun n => t1.contains n && t2.contains n)) then (.error (.other 1) : Except Err Bool)
      else if !(names.filter (fun n => !traceEq t1 t2 n)).isEmpty then .error (.other 2)
      else .ok true) = .ok true ↔ ∀ n ∈ names, SameValue t1 t2 n := by
  constructor
  · intro h n hn
    split at h
    · cases h
    · split at h
      · cases h
      · rename_i _ h2
        simp only [Bool.not_eq_true, Bool.not_eq_false', List.isEmpty_iff, List.filter_eq_nil_iff] at h2
        rw [← traceEq_iff]
        simpa using h2 n hn
  · intro h
    rw [if_neg, if_neg]
    · simp only [Bool.not_eq_true, Bool.not_eq_false', List.isEmpty_iff, List.filter_eq_nil_iff]
      intro n hn
      simp [(traceEq_iff t1 t2 n).2 (h n hn)]
    · simp only [Bool.not_eq_true, Bool.not_eq_false', List.all_eq_true, Bool.and_eq_true, Dict.contains_iff,
        Dict.mem_keys_iff]
      intro n hn
      obtain ⟨a, b, h1, h2, -⟩ := h n hn
      exact ⟨⟨a, h1⟩, ⟨b, h2⟩⟩

/-- C33. valeq returns True exactly when every compared name exists in both traces with equal values (a non-empty list
of pairs is not implemented and raises). -/
theorem C33_true_iff (t1 t2 : Trace L) (nodes : NodesArg) (ce strict : Bool) :
    valeq t1 t2 nodes ce strict = .ok true ↔
      (match nodes with | .pairs ps => ps = [] | _ => True) ∧
      ∀ n, compared t1 t2 nodes strict n → SameValue t1 t2 n := by
  unfold valeq
  rcases nodes with _ | names | (_ | ⟨p, ps⟩)
  · cases strict
    · dsimp only
      rw [if_neg (by simp), valeq_finish]
      simp only [List.mem_filter, Dict.contains_iff, compared, true_and]
      simp
    · dsimp only
      rw [if_pos rfl, valeq_finish]
      simp only [compared, true_and, if_true]
      constructor
      · intro h n hn
        apply h
        by_cases h1 : n ∈ t1.keys
        · simp [h1]
        · simp only [h1, false_or] at hn
          simp [hn, h1, Dict.contains_eq_false]
      · intro h n hn
        apply h
        rcases List.mem_append.1 hn with h1 | h1
        · exact Or.inl h1
        · exact Or.inr (List.mem_filter.1 h1).1
  · dsimp only
    rw [valeq_finish]; simp [compared]
  · dsimp only
    rw [valeq_finish]; simp [compared]
  · simp

/-- C33. `check_exist` has no effect. -/
theorem C33_check_exist_ignored (t1 t2 : Trace L) (nodes : NodesArg) (ce ce' strict : Bool) :
    valeq t1 t2 nodes ce strict = valeq t1 t2 nodes ce' strict := rfl

/-- C33, both outcomes: equal on the shared name, not equal when strict. -/
example : valeq (Toy.one "x" 1) ((Toy.one "x" 1).insert "y" (RV.mk' (L := Toy.L) 1 (2, 0) .sampled true)) .none true false
      = .ok true ∧
    valeq (Toy.one "x" 1) ((Toy.one "x" 1).insert "y" (RV.mk' (L := Toy.L) 1 (2, 0) .sampled true)) .none true true
      = .error (.other 1) := ⟨rfl, rfl⟩

theorem rerun_fold (l : List (String × RV L)) (acc : Trace L) (hn : (acc.keys ++ keysL l).Nodup) :
    (∃ r, l.foldlM (fun (new : Trace L) e => do let rv ← rerunRV e.2; .ok (new.insert e.1 rv)) acc = .ok r ∧
        (∃ m, r.entries = acc.entries ++ m ∧ List.Forall₂ (fun e e' => e'.1 = e.1 ∧ Rerun e.2 e'.2) l m)) ∨
      (l.foldlM (fun (new : Trace L) e => do let rv ← rerunRV e.2; .ok (new.insert e.1 rv)) acc
          = .error .notImplemented ∧ ∃ e ∈ l, e.2.kind = .other) := by
  induction l generalizing acc with
  | nil => exact Or.inl ⟨acc, rfl, [], by simp, .nil⟩
  | cons e l ih =>
    obtain ⟨k, rv⟩ := e
    simp only [List.foldlM_cons]
    have hk : k ∉ acc.keys := by
      intro h
      rw [List.nodup_append] at hn
      exact hn.2.2 k h k (by simp) rfl
    have hn' : ∀ rv', ((acc.insert k rv').keys ++ keysL l).Nodup := by
      intro rv'
      rw [Dict.keys_insert, if_neg hk]
      simpa using hn
    have hcase : (∃ rv', rerunRV rv = .ok rv' ∧ Rerun rv rv') ∨ (rerunRV rv = .error .notImplemented ∧ rv.kind = .other) := by
      obtain ⟨kind, value, lp, prov, rep, res⟩ := rv
      cases kind with
      | proper d => exact Or.inl ⟨_, rfl, rfl, rfl, rfl, rfl, rfl, rfl⟩
      | improper f => exact Or.inl ⟨_, rfl, rfl, rfl, rfl, rfl, rfl⟩
      | other => exact Or.inr ⟨rfl, rfl⟩
    rcases hcase with ⟨rv', e1, e2⟩ | ⟨e1, e2⟩
    · rcases ih (acc.insert k rv') (hn' rv') with ⟨r, h1, m, h2, h3⟩ | ⟨h1, e', h2, h3⟩
      · refine Or.inl ⟨r, ?_, (k, rv') :: m, ?_, .cons ⟨rfl, e2⟩ h3⟩
        · rw [e1]; exact h1
        · rw [h2, Dict.entries_insert_of_not_mem rv' hk]; simp
      · refine Or.inr ⟨?_, e', List.mem_cons_of_mem _ h2, h3⟩
        rw [e1]; exact h1
    · exact Or.inr ⟨by rw [e1]; rfl, _, List.mem_cons_self, e2⟩

/-- C40. rerun_with_detached_values keeps the addresses in order; every variable keeps its provenance and distribution
(or log density function), gets the detached value and the log_prob recomputed from it. It raises (NotImplementedError)
exactly when a variable is neither a RandomVariable nor an ImproperRandomVariable. -/
theorem C40_rerun (t : Trace L) :
    ((∀ e ∈ t.entries, e.2.kind ≠ .other) →
      ∃ r, rerunDetached t = .ok r ∧ List.Forall₂ (fun e e' => e'.1 = e.1 ∧ Rerun e.2 e'.2) t.entries r.entries) ∧
    ((∃ e ∈ t.entries, e.2.kind = .other) → rerunDetached t = .error .notImplemented) := by
  have hn : ((Dict.empty : Trace L).keys ++ keysL t.entries).Nodup := by simpa using t.nodup
  rcases rerun_fold t.entries Dict.empty hn with ⟨r, h1, m, h2, h3⟩ | ⟨h1, e, h2, h3⟩
  · refine ⟨fun _ => ⟨r, h1, ?_⟩, fun ⟨e, he, hk⟩ => ?_⟩
    · have : r.entries = m := by simpa using h2
      rw [this]; exact h3
    · exfalso
      have : ∃ e' ∈ m, e'.1 = e.1 ∧ Rerun e.2 e'.2 := by
        clear h1 h2 hn
        revert he h3
        generalize t.entries = l
        intro h3 he
        induction h3 with
        | nil => simp at he
        | cons h hs ih =>
          rcases List.mem_cons.1 he with rfl | he
          · exact ⟨_, List.mem_cons_self, h⟩
          · obtain ⟨e', h4, h5⟩ := ih he
            exact ⟨e', List.mem_cons_of_mem _ h4, h5⟩
      obtain ⟨e', -, -, -, -, h6⟩ := this
      rw [hk] at h6
      exact h6
  · exact ⟨fun h => absurd h3 (h e h2), fun _ => h1⟩

/-- Both cases of C40 occur. -/
example : (∀ e ∈ (Toy.one "x" 1).entries, e.2.kind ≠ .other) ∧
    ∃ e ∈ ((Toy.one "x" 1).insert "y" { RV.mk' (L := Toy.L) 1 (2, 0) .sampled true with kind := .other }).entries,
      e.2.kind = .other := by
  constructor
  · intro e he
    have : e = ("x", RV.mk' (L := Toy.L) 1 (1, 0) .sampled true) := by simpa [Toy.one, Dict.insert, insertL] using he
    subst this
    simp [RV.mk']
  · exact ⟨("y", _), by simp [Toy.one, Dict.insert, insertL]; rfl, rfl⟩

end Verif
