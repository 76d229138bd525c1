import Verif.Model.Store
/-
C31: the global store.
-/
namespace Verif
variable {L : Lang}

/-- An access to the store: `global_store[k]` or `global_store[k] = v`. -/
inductive Spec.Access (L : Lang) where
  | get (k : String)
  | set (k : String) (v : PyVal L)

open Spec

/-- Perform accesses one after the other; a failed one raises and the history goes on (the caller caught it). -/
def runAccesses : List (Access L) → Store L → List (Except Err (Option (PyVal L))) × Store L
  | [], s => ([], s)
  | .get k :: as, s =>
    let r := s.getItem k
    let rest := runAccesses as r.2
    (r.1.map some :: rest.1, rest.2)
  | .set k v :: as, s =>
    let r := s.setItem k v
    let rest := runAccesses as r.2
    (r.1.map (fun _ => none) :: rest.1, rest.2)

/-- The value that was last assigned to `k`. -/
def Spec.lastSet (k : String) : List (Access L) → Option (PyVal L)
  | [] => none
  | .get _ :: as => lastSet k as
  | .set k' v :: as =>
    match lastSet k as with
    | some x => some x
    | none => if k' = k then some v else none

/-- What an access after `before` should give: reading gives the last value assigned under this key, or KeyError. -/
def Spec.answer (before : List (Access L)) : Access L → Except Err (Option (PyVal L))
  | .get k =>
    match lastSet k before with
    | some v => .ok (some v)
    | none => .error .key
  | .set _ _ => .ok none

theorem getItem_noop {s : Store L} (h : s.hooks = Hooks.noop) (k : String) :
    s.getItem k = (match s.data.get? k with | some v => .ok v | none => .error .key, s) := by
  obtain ⟨data, hooks⟩ := s
  simp only at h
  subst h
  unfold Store.getItem
  simp only [Hooks.noop]
  cases data.get? k <;> rfl

theorem setItem_noop {s : Store L} (h : s.hooks = Hooks.noop) (k : String) (v : PyVal L) :
    s.setItem k v = (.ok (), { s with data := s.data.insert k v }) := by
  obtain ⟨data, hooks⟩ := s
  simp only at h
  subst h
  rfl

theorem lastSet_append (k : String) (as bs : List (Access L)) :
    lastSet k (as ++ bs) = match lastSet k bs with | some v => some v | none => lastSet k as := by
  induction as with
  | nil => cases h : lastSet k bs <;> simp [lastSet, h]
  | cons a as ih =>
    cases a with
    | get k' => simpa [lastSet] using ih
    | set k' v =>
      simp only [List.cons_append, lastSet, ih]
      cases lastSet k bs <;> rfl

theorem runAccesses_noop (as before : List (Access L)) (s : Store L) (h : s.hooks = Hooks.noop)
    (hd : ∀ k, s.data.get? k = lastSet k before) :
    (runAccesses as s).1 = (List.range as.length).filterMap (fun i => as[i]?.map (answer (before ++ as.take i))) ∧
      (runAccesses as s).2.hooks = Hooks.noop ∧ ∀ k, (runAccesses as s).2.data.get? k = lastSet k (before ++ as) := by
  induction as generalizing before s with
  | nil => simpa [runAccesses] using ⟨h, hd⟩
  | cons a as ih =>
    have key : ∀ s' : Store L, s'.hooks = Hooks.noop → (∀ k, s'.data.get? k = lastSet k (before ++ [a])) →
        ∀ r, r = answer before a →
        r :: (runAccesses as s').1 =
          (List.range (as.length + 1)).filterMap (fun i => (a :: as)[i]?.map (answer (before ++ (a :: as).take i))) ∧
        (runAccesses as s').2.hooks = Hooks.noop ∧
        ∀ k, (runAccesses as s').2.data.get? k = lastSet k (before ++ a :: as) := by
      intro s' h1 h2 r hr
      obtain ⟨i1, i2, i3⟩ := ih (before ++ [a]) s' h1 h2
      refine ⟨?_, i2, by simpa using i3⟩
      rw [i1, List.range_succ_eq_map, List.filterMap_cons]
      simp [hr, List.filterMap_map, Function.comp_def]
    cases a with
    | get k =>
      simp only [runAccesses, List.length_cons, getItem_noop h]
      apply key s h (by intro k; rw [hd, lastSet_append]; rfl)
      rw [hd]
      simp only [answer]
      generalize lastSet k before = x
      cases x <;> rfl
    | set k v =>
      simp only [runAccesses, List.length_cons, setItem_noop h]
      refine key { s with data := s.data.insert k v } h ?_ _ rfl
      intro k'
      rw [Dict.get?_insert, lastSet_append, hd]
      simp only [lastSet]
      by_cases hk : k = k'
      · subst hk; simp
      · simp only [if_neg hk]
        rw [if_neg (fun h => hk h.symm)]

/-- C31. With the default hooks, in every history of accesses on a new store every read gives the value last assigned under
its key, or KeyError if there was none, and every assignment succeeds. -/
theorem C31_dict (as : List (Access L)) :
    (runAccesses as Store.init).1 = (List.range as.length).filterMap (fun i => as[i]?.map (answer (as.take i))) := by
  have := (runAccesses_noop as [] Store.init rfl (fun _ => rfl)).1
  simpa using this

/-- C31: two keys, an overwritten one, a missing one. -/
example : (runAccesses (L := L) [.get "a", .set "a" (.int 1), .set "b" .none, .set "a" (.int 2), .get "a", .get "b"]
    Store.init).1 = [.error .key, .ok none, .ok none, .ok none, .ok (some (.int 2)), .ok (some .none)] := rfl

/-- C31. Reading with hooks: `pre_get` runs first and can raise (then nothing else happens); the item is looked up in
what it left; `post_get` runs last, on the item found, can raise, and its result replaces the item unless it is None. -/
theorem C31_get_hooks (s : Store L) (k : String) :
    let pre := s.hooks.preGet s.data k
    (∀ e, pre.1 = .error e → s.getItem k = (.error e, { s with data := pre.2 })) ∧
    (pre.1 = .ok () → pre.2.get? k = none → s.getItem k = (.error .key, { s with data := pre.2 })) ∧
    ∀ v, pre.1 = .ok () → pre.2.get? k = some v →
      let post := s.hooks.postGet pre.2 k v
      (s.getItem k).2 = { s with data := post.2 } ∧
      (∀ e, post.1 = .error e → (s.getItem k).1 = .error e) ∧
      (post.1 = .ok .none → (s.getItem k).1 = .ok v) ∧
      ∀ o, post.1 = .ok o → o ≠ .none → (s.getItem k).1 = .ok o := by
  intro pre
  have hpre : s.hooks.preGet s.data k = (pre.1, pre.2) := rfl
  refine ⟨fun e he => ?_, fun he hk => ?_, fun v he hk => ?_⟩
  · unfold Store.getItem; rw [hpre, he]
  · unfold Store.getItem; rw [hpre, he]; simp only [hk]
  · intro post
    have hpost : s.hooks.postGet pre.2 k v = (post.1, post.2) := rfl
    have hget : s.getItem k = match (post.1, post.2) with
      | (.error e, d') => (.error e, { s with data := d' })
      | (.ok .none, d') => (.ok v, { s with data := d' })
      | (.ok o, d') => (.ok o, { s with data := d' }) := by
      unfold Store.getItem
      rw [hpre, he]
      simp only [hk, hpost]
      generalize post.1 = x
      rcases x with e | o
      · rfl
      · cases o <;> rfl
    rw [hget]
    cases hp : post.1 with
    | error e => exact ⟨rfl, fun e he => by cases he; rfl, (by intro h; cases h), (by intro o h; cases h)⟩
    | ok o =>
      refine ⟨?_, (by intro e h; cases h), fun h => by cases h; rfl, fun o' h hne => ?_⟩
      · cases o <;> rfl
      · cases h
        cases o <;> first | rfl | exact absurd rfl hne

/-- C31. Writing with hooks: `pre_set`, then the assignment in what it left, then `post_set`; each can raise, after which
nothing else happens (so a raising `post_set` leaves the item assigned). -/
theorem C31_set_hooks (s : Store L) (k : String) (v : PyVal L) :
    let pre := s.hooks.preSet s.data k v
    let post := s.hooks.postSet (pre.2.insert k v) k v
    (∀ e, pre.1 = .error e → s.setItem k v = (.error e, { s with data := pre.2 })) ∧
    (pre.1 = .ok () → s.setItem k v = (post.1, { s with data := post.2 })) := by
  intro pre post
  have hpre : s.hooks.preSet s.data k v = (pre.1, pre.2) := rfl
  have hpost : s.hooks.postSet (pre.2.insert k v) k v = (post.1, post.2) := rfl
  refine ⟨fun e he => ?_, fun he => ?_⟩
  · unfold Store.setItem; rw [hpre, he]
  · unfold Store.setItem; rw [hpre, he]; simp only [hpost]
    cases post.1 <;> rfl

/-- C31: a `post_get` hook that turns 1 into "one", and a `pre_set` hook that forbids the key "ro". -/
example : ∃ s s' : Store L, (Store.init.setHook (.postGet fun d _ v => match v with
      | .int 1 => (.ok (.str "one"), d)
      | _ => (.ok .none, d))) = (.ok (), s) ∧
    s.setHook (.preSet fun d k _ => if k = "ro" then (.error .value, d) else (.ok (), d)) = (.ok (), s') ∧
    (runAccesses [.set "a" (.int 1), .set "b" (.int 2), .set "ro" (.int 3), .get "a", .get "b", .get "ro"] s').1 =
      [.ok none, .ok none, .error .value, .ok (some (.str "one")), .ok (some (.int 2)), .error .key] :=
  ⟨_, _, rfl, rfl, rfl⟩

/-- C31. `set_hook` with one of the five names replaces that hook and nothing else; with another name it raises and changes
nothing. -/
theorem C31_set_hook (s : Store L) :
    (∀ f, s.setHook (.preGet f) = (.ok (), { s with hooks := { s.hooks with preGet := f } })) ∧
    (∀ f, s.setHook (.postGet f) = (.ok (), { s with hooks := { s.hooks with postGet := f } })) ∧
    (∀ f, s.setHook (.preSet f) = (.ok (), { s with hooks := { s.hooks with preSet := f } })) ∧
    (∀ f, s.setHook (.postSet f) = (.ok (), { s with hooks := { s.hooks with postSet := f } })) ∧
    (∀ f, s.setHook (.resampleUpdate f) = (.ok (), { s with hooks := { s.hooks with resampleUpdate := f } })) ∧
    ∀ name, s.setHook (.unknown name) = (.error .assertion, s) :=
  ⟨fun _ => rfl, fun _ => rfl, fun _ => rfl, fun _ => rfl, fun _ => rfl, fun _ => rfl⟩

/-- C31. Resample's notification (`global_store.resample_update(trace, resampled)`) calls the hook with the dict, the trace before and the
trace after resampling, in this order; what it raises is raised, and the hooks stay. -/
theorem C31_resample_hook (s : Store L) (before after : Trace L) :
    (s.resampleUpdate before after).1 = (s.hooks.resampleUpdate s.data before after).1 ∧
    (s.resampleUpdate before after).2 = { s with data := (s.hooks.resampleUpdate s.data before after).2 } :=
  ⟨rfl, rfl⟩

/-- C31: a hook that stores the number of variables before, and one that refuses. -/
example : ∃ s s' : Store L, Store.init.setHook (.resampleUpdate fun d t _ => (.ok (), d.insert "size" (.int t.keys.length))) = (.ok (), s) ∧
    s.resampleUpdate Dict.empty Dict.empty = (.ok (), s') ∧ (s'.getItem "size").1 = .ok (.int 0) :=
  ⟨_, _, rfl, rfl, rfl⟩

end Verif
