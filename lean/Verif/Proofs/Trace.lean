import Verif.Spec.Trace
/-
Lemmas about logJoint, copytraces and rerun_with_detached_values.
-/
namespace Verif
open Spec

namespace LW
variable {W : Type} [AddCommGroup W]
@[simp] theorem val_float0 : (float0 : LW W).val = 0 := rfl
@[simp] theorem val_tensor (w : W) : (tensor w).val = w := rfl
@[simp] theorem val_add (a b : LW W) : (a.add b).val = a.val + b.val := by
  cases a <;> cases b <;> simp [add, val]
@[simp] theorem val_sub (a b : LW W) : (a.sub b).val = a.val - b.val := by
  cases a <;> cases b <;> simp [sub, val]
end LW

section
variable {L : Lang}

theorem logJoint_foldl_val (l : List (String × RV L)) (acc : LW L.W) :
    (l.foldl (fun acc e => acc.add (.tensor e.2.logProb)) acc).val = acc.val + (l.map (fun e => e.2.logProb)).sum := by
  induction l generalizing acc with
  | nil => simp
  | cons e t ih => simp [ih, add_assoc]

theorem logJoint_val (t : Trace L) (nodes : String → Bool) :
    (logJoint t nodes).val = sumLogProb t (fun k _ => nodes k) := by
  simp [logJoint, logJoint_foldl_val, sumLogProb]

theorem logJoint_foldl_tensor (l : List (String × RV L)) (w : L.W) :
    ∃ w', l.foldl (fun acc e => acc.add (.tensor e.2.logProb)) (LW.tensor w) = .tensor w' := by
  induction l generalizing w with
  | nil => exact ⟨w, rfl⟩
  | cons e t ih => exact ih _

/-- `log_joint` is the Python float exactly when no node is selected. -/
theorem logJoint_eq_float0 (t : Trace L) (nodes : String → Bool) :
    logJoint t nodes = .float0 ↔ ∀ k ∈ t.keys, nodes k = false := by
  unfold logJoint
  constructor
  · intro h k hk
    cases hl : t.entries.filter (fun e => nodes e.1) with
    | nil =>
      rw [List.filter_eq_nil_iff] at hl
      obtain ⟨v, hv⟩ := Dict.mem_keys_iff.1 hk
      simpa using hl _ (Dict.get?_eq_some.1 hv)
    | cons e l =>
      rw [hl] at h
      obtain ⟨w, hw⟩ := logJoint_foldl_tensor l e.2.logProb
      rw [List.foldl_cons, show LW.add LW.float0 (.tensor e.2.logProb) = .tensor e.2.logProb from rfl, hw] at h
      cases h
  · intro h
    have : t.entries.filter (fun e => nodes e.1) = [] := by
      rw [List.filter_eq_nil_iff]
      intro e he
      simp [h e.1 (Dict.mem_keys_of_mem (v := e.2) he)]
    rw [this]; rfl

/-- Two selections that agree on the trace's entries have the same sum. -/
theorem sumLogProb_congr (t : Trace L) {P Q : String → RV L → Bool}
    (h : ∀ k rv, t.get? k = some rv → P k rv = Q k rv) : sumLogProb t P = sumLogProb t Q := by
  unfold sumLogProb
  congr 2
  apply List.filter_congr
  intro e he
  exact h e.1 e.2 (Dict.get?_eq_some.2 he)

theorem tauAddrs_of_get {t : Trace L} {k : String} {rv : RV L} (h : t.get? k = some rv) :
    tauAddrs t k = rv.isTau := by simp [tauAddrs, h]

/-! ### copytraces -/

theorem copytraces_flat (mode : WriteMode) (ex : String → Bool) (ts : List (Trace L)) (acc : Trace L) :
    ts.foldlM (fun new tr => tr.entries.foldlM (copyStep mode ex) new) acc =
      (allEntries ts).foldlM (copyStep mode ex) acc := by
  induction ts generalizing acc with
  | nil => rfl
  | cons t ts ih =>
    simp only [List.foldlM_cons, allEntries, List.flatMap_cons, List.foldlM_append]
    congr 1
    funext a
    exact ih a

theorem insert_insert (t : Trace L) (k : String) (v v' : RV L) : (t.insert k v).insert k v' = t.insert k v' := by
  apply Dict.ext_get?
  · rw [Dict.keys_insert, if_pos]
    · rw [Dict.keys_insert, Dict.keys_insert]
    · rw [Dict.mem_keys_insert]; exact Or.inl rfl
  · intro j; simp only [Dict.get?_insert]; split <;> rfl

theorem eraseDups_mid {A B : List String} {k : String} (h : k ∈ A) :
    (A ++ k :: B).eraseDups = (A ++ B).eraseDups := by
  rw [List.eraseDups_append, List.eraseDups_append]
  congr 2
  simp [List.removeAll, h]

theorem eraseDups_of_nodup {A : List String} (h : A.Nodup) : A.eraseDups = A := by
  induction A with
  | nil => rfl
  | cons a A ih =>
    rw [List.eraseDups_cons]
    rw [List.nodup_cons] at h
    have : A.filter (fun b => !b == a) = A := by
      rw [List.filter_eq_self]
      intro b hb
      simp only [Bool.not_eq_true', beq_eq_false_iff_ne]
      rintro rfl; exact h.1 hb
    rw [this, ih h.2]

theorem firstOf_cons {α : Type} (e : String × α) (l : List (String × α)) (k : String) :
    firstOf (e :: l) k = if e.1 = k then some e.2 else firstOf l k := by
  unfold firstOf
  by_cases h : e.1 = k
  · rw [if_pos h, List.find?_cons_of_pos (by simpa using h)]; rfl
  · rw [if_neg h, List.find?_cons_of_neg (by simpa using h)]

theorem firstOf_append {α : Type} (l m : List (String × α)) (k : String) :
    firstOf (l ++ m) k = (firstOf l k).or (firstOf m k) := by
  induction l with
  | nil => simp [firstOf]
  | cons e l ih =>
    rw [List.cons_append, firstOf_cons, firstOf_cons, ih]
    split <;> simp

theorem lastOf_cons {α : Type} (e : String × α) (l : List (String × α)) (k : String) :
    lastOf (e :: l) k = (lastOf l k).or (if e.1 = k then some e.2 else none) := by
  unfold lastOf
  rw [List.reverse_cons, firstOf_append]
  congr 1
  rw [firstOf_cons]; simp [firstOf]

theorem firstOf_eq_getL {α : Type} (l : List (String × α)) (k : String) : firstOf l k = getL l k := by
  induction l with
  | nil => rfl
  | cons e l ih => rw [firstOf_cons, getL.eq_def, ih]

theorem copy_last (ex : String → Bool) (l : List (String × RV L)) (acc : Trace L) :
    ∃ r, l.foldlM (copyStep .lastWriteWins ex) acc = .ok r ∧
      r.keys = (acc.keys ++ (keysL l).filter (fun k => !ex k)).eraseDups ∧
      ∀ k, r.get? k = (if ex k then none else lastOf l k).or (acc.get? k) := by
  induction l generalizing acc with
  | nil => exact ⟨acc, rfl, by simp [eraseDups_of_nodup acc.nodup_keys], by intro k; simp [lastOf, firstOf]⟩
  | cons e l ih =>
    obtain ⟨k, rv⟩ := e
    simp only [List.foldlM_cons]
    by_cases hex : ex k = true
    · simp only [copyStep, hex, if_true]
      obtain ⟨r, h1, h2, h3⟩ := ih acc
      refine ⟨r, h1, by simpa [hex] using h2, fun j => ?_⟩
      rw [h3 j, lastOf_cons]
      by_cases hj : k = j
      · subst hj; simp [hex]
      · simp [hj]
    · have hstep : copyStep .lastWriteWins ex acc (k, rv) = .ok (acc.insert k rv) := by
        simp only [copyStep, hex, insert_insert]
        split <;> simp_all
      rw [hstep]
      obtain ⟨r, h1, h2, h3⟩ := ih (acc.insert k rv)
      refine ⟨r, h1, ?_, fun j => ?_⟩
      · rw [h2, Dict.keys_insert]
        simp only [keysL_cons, hex, Bool.not_false, List.filter_cons_of_pos]
        split
        · rename_i hk
          rw [eraseDups_mid hk]
        · simp
      · rw [h3 j, lastOf_cons, Dict.get?_insert]
        by_cases hj : j = k
        · subst hj; simp only [hex]; simp
        · have : ¬ k = j := fun e => hj e.symm
          simp [hj, this]

theorem copy_first (ex : String → Bool) (l : List (String × RV L)) (acc : Trace L) :
    ∃ r, l.foldlM (copyStep .firstWriteWins ex) acc = .ok r ∧
      r.keys = (acc.keys ++ (keysL l).filter (fun k => !ex k)).eraseDups ∧
      ∀ k, r.get? k = (acc.get? k).or (if ex k then none else firstOf l k) := by
  induction l generalizing acc with
  | nil => exact ⟨acc, rfl, by simp [eraseDups_of_nodup acc.nodup_keys], by intro k; simp [firstOf]⟩
  | cons e l ih =>
    obtain ⟨k, rv⟩ := e
    simp only [List.foldlM_cons]
    by_cases hex : ex k = true
    · simp only [copyStep, hex, if_true]
      obtain ⟨r, h1, h2, h3⟩ := ih acc
      refine ⟨r, h1, by simpa [hex] using h2, fun j => ?_⟩
      rw [h3 j, firstOf_cons]
      by_cases hj : k = j
      · subst hj; simp [hex]
      · simp [hj]
    · by_cases hc : acc.contains k = true
      · have hstep : copyStep .firstWriteWins ex acc (k, rv) = .ok acc := by
          simp [copyStep, hex, hc]
        rw [hstep]
        obtain ⟨r, h1, h2, h3⟩ := ih acc
        refine ⟨r, h1, ?_, fun j => ?_⟩
        · rw [h2]
          simp only [keysL_cons, hex, Bool.not_false, List.filter_cons_of_pos]
          rw [eraseDups_mid (Dict.contains_iff.1 hc)]
        · rw [h3 j, firstOf_cons]
          by_cases hj : k = j
          · subst hj
            obtain ⟨v, hv⟩ := Dict.mem_keys_iff.1 (Dict.contains_iff.1 hc)
            simp [hv]
          · simp [hj]
      · have hstep : copyStep .firstWriteWins ex acc (k, rv) = .ok (acc.insert k rv) := by
          simp [copyStep, hex, hc]
        rw [hstep]
        have hk : k ∉ acc.keys := fun h => hc (Dict.contains_iff.2 h)
        obtain ⟨r, h1, h2, h3⟩ := ih (acc.insert k rv)
        refine ⟨r, h1, ?_, fun j => ?_⟩
        · rw [h2, Dict.keys_insert, if_neg hk]
          simp [hex]
        · rw [h3 j, firstOf_cons, Dict.get?_insert]
          by_cases hj : j = k
          · subst hj; simp [hex, Dict.get?_eq_none.2 hk]
          · have : ¬ k = j := fun e => hj e.symm
            simp [hj, this]

/-- NoOverlaps succeeds exactly when the kept addresses are new and distinct, and then appends. -/
theorem copy_noOverlaps (ex : String → Bool) (l : List (String × RV L)) (acc : Trace L) :
    (∃ r, l.foldlM (copyStep .noOverlaps ex) acc = .ok r ∧
        (acc.keys ++ (keysL l).filter (fun k => !ex k)).Nodup ∧
        r.entries = acc.entries ++ l.filter (fun e => !ex e.1)) ∨
      (l.foldlM (copyStep .noOverlaps ex) acc = .error .runtime ∧
        ¬ (acc.keys ++ (keysL l).filter (fun k => !ex k)).Nodup) := by
  induction l generalizing acc with
  | nil => exact Or.inl ⟨acc, rfl, by simpa using acc.nodup_keys, by simp⟩
  | cons e l ih =>
    obtain ⟨k, rv⟩ := e
    simp only [List.foldlM_cons]
    by_cases hex : ex k = true
    · simp only [copyStep, hex, if_true, keysL_cons, Bool.not_true, List.filter_cons_of_neg, Bool.false_eq_true,
        not_false_eq_true]
      exact ih acc
    · by_cases hc : acc.contains k = true
      · right
        have hstep : copyStep .noOverlaps ex acc (k, rv) = .error .runtime := by simp [copyStep, hex, hc]
        rw [hstep]
        refine ⟨rfl, fun h => ?_⟩
        simp only [keysL_cons, hex, Bool.not_false, List.filter_cons_of_pos] at h
        rw [List.nodup_append] at h
        exact h.2.2 k (Dict.contains_iff.1 hc) k (by simp) rfl
      · have hstep : copyStep .noOverlaps ex acc (k, rv) = .ok (acc.insert k rv) := by
          simp [copyStep, hex, hc]
        have hk : k ∉ acc.keys := fun h => hc (Dict.contains_iff.2 h)
        rw [hstep]
        have e1 : (acc.insert k rv).keys ++ (keysL l).filter (fun k => !ex k) =
            acc.keys ++ (keysL ((k, rv) :: l)).filter (fun k => !ex k) := by
          rw [Dict.keys_insert, if_neg hk]; simp [hex]
        have e2 : (acc.insert k rv).entries ++ l.filter (fun e => !ex e.1) =
            acc.entries ++ ((k, rv) :: l).filter (fun e => !ex e.1) := by
          rw [Dict.entries_insert_of_not_mem rv hk]; simp [hex]
        have := ih (acc.insert k rv)
        rw [e1, e2] at this
        exact this

theorem copytrace1_ok (t : Trace L) : copytrace1 t = .ok t := by
  unfold copytrace1 copytraces
  rw [copytraces_flat]
  have hnd : (keysL (allEntries [t])).Nodup := by simpa [allEntries] using t.nodup
  rcases copy_noOverlaps (fun _ => false) (allEntries [t]) (Dict.empty : Trace L) with ⟨r, h1, _, h3⟩ | ⟨_, h2⟩
  · rw [h1]
    congr 1
    apply Dict.ext'
    simpa [allEntries] using h3
  · exact absurd (by simpa using hnd) h2

/-- Copying one trace with exclusions never fails and filters. -/
theorem copytraces_single (ex : String → Bool) (t : Trace L) :
    copytraces .noOverlaps ex [t] = .ok (t.filterKeys (fun k => !ex k)) := by
  unfold copytraces
  rw [copytraces_flat]
  have hnd : ((keysL (allEntries [t])).filter (fun k => !ex k)).Nodup := by
    have : (keysL (allEntries [t])).Nodup := by simpa [allEntries] using t.nodup
    exact this.filter _
  rcases copy_noOverlaps ex (allEntries [t]) (Dict.empty : Trace L) with ⟨r, h1, _, h3⟩ | ⟨_, h2⟩
  · rw [h1]
    congr 1
    apply Dict.ext'
    simpa [allEntries, Dict.filterKeys] using h3
  · exact absurd (by simpa using hnd) h2


end
end Verif
