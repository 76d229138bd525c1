import Verif.Spec.Apg
import Verif.Proofs.Draws
import Verif.Proofs.Annealing
import Verif.Props.ApgKeys
/-
The programs of the amortized Gibbs sampler.
-/
namespace Verif
open Spec Apg
variable {L : Lang} {E : Err → Prop}

theorem getL_filter_key {α : Type} (l : List (String × α)) (p : String → Bool) (k : String) :
    getL (l.filter fun e => p e.1) k = if p k then getL l k else none := by
  induction l with
  | nil => simp [getL]
  | cons e l ih =>
    obtain ⟨k', v⟩ := e
    by_cases hp : p k' = true
    · rw [List.filter_cons_of_pos (by simpa using hp)]
      simp only [getL, ih]
      by_cases hk : k' = k
      · subst hk; simp [hp]
      · simp [hk]
    · rw [List.filter_cons_of_neg (by simpa using hp), ih]
      simp only [getL]
      by_cases hk : k' = k
      · subst hk; simp [hp]
      · simp [hk]

theorem ixOf_received (s : ArgSpec) (h : "ix" ∈ s.args) (kw : Kw L) (ix : ApgIx) (hk : kw.ix = ix.toPy) :
    ixOf (receivedKwargs s kw) = .ok ix := by
  unfold ixOf receivedKwargs
  rw [getL_filter_key (p := fun k => decide (s.varkw = true ∨ k ∈ s.kwonly ∨ k ∈ s.args))]
  rw [if_pos (by simp [h])]
  have : getL (offeredKwargs kw) "ix" = some ix.toPy := by simp [offeredKwargs, getL, hk]
  rw [this]
  rfl

theorem total_insert {t : Trace L} {k : String} (rv : RV L) (h : t.contains k = false) : total (t.insert k rv) = total t + rv.logProb := by
  unfold total sumLogProb
  rw [Dict.entries_insert_of_not_mem _ (Dict.contains_eq_false.1 h)]
  simp

theorem total_empty : total (Dict.empty : Trace L) = 0 := rfl

theorem total_union {t a b : Trace L} (h : IsUnion t a b) : total t = total a + total b := by
  unfold total sumLogProb
  rw [h]
  simp

/-- log_joint over all variables. -/
theorem logJoint_total {t : Trace L} {nodes : String → Bool} (h : ∀ k ∈ t.keys, nodes k = true) : (logJoint t nodes).val = total t := by
  rw [logJoint_val]
  exact sumLogProb_congr t fun k rv hk => h k (Dict.mem_keys_iff.2 ⟨rv, hk⟩)

theorem weightNodes_held {c t : Trace L} {k : String} {rv crv : RV L} (h : t.get? k = some rv) (hc : c.get? k = some crv)
    (hp : crv.prov ≠ .observed) : weightNodes (some c) t k = true := by
  rw [weightNodes_of_get h]
  have : held (some c) k = some crv := hc
  rw [this]
  simp [hp]

theorem apg_getItem {same : L.V → L.V → Bool} {s : Store L} (hs : s.hooks = apgHooks same) {k : String} {v : L.V}
    (h : s.data.get? k = some (.weakref v)) : s.getItem k = (.ok (.weakref v), s) := by
  obtain ⟨d, hk⟩ := s
  subst hs
  unfold Store.getItem
  simp only [apgHooks, Hooks.noop, h]

theorem apg_setItem {same : L.V → L.V → Bool} {s : Store L} (hs : s.hooks = apgHooks same) (k : String) (v : L.V) :
    s.setItem k (.weakref v) = (.ok (), { s with data := s.data.insert k (.weakref v) }) := by
  obtain ⟨d, hk⟩ := s
  subst hs
  unfold Store.setItem
  simp only [apgHooks, Hooks.noop, preSetHook]

theorem andThen_ok {α : Type} {x : Except Err α} {a : α} {k : α → MTree L} (h : x = .ok a) : andThen x k = k a := by
  rw [h]; rfl

theorem whereAt_inj {n : Nat} {s : Int} {i j : Nat} (h : whereAt n s i = whereAt n s j) : i = j := by
  have := ((C42_z_where_injective _ _ _ _).1 h).1
  omega

theorem whereAt_lt {n : Nat} {s : Int} {i : Nat} (h : i < n) : whereAt n s i = zWhereName i s := by
  simp [whereAt, h]

theorem whereAt_ge {n : Nat} {s : Int} {i : Nat} (h : n ≤ i) : whereAt n s i = zWhereName i (s - 1) := by
  simp [whereAt, Nat.not_lt.2 h]

/-! ### The decoder -/

section dec
variable {N : ApgNet L} {same : L.V → L.V → Bool} {T n : Nat} {s : Int} {c : Trace L} {w : World L} {val : Nat → L.V}

/-- The trace of the decoder after the first `a` times. -/
def WheresUpTo (N : ApgNet L) (n : Nat) (s : Int) (val : Nat → L.V) (a : Nat) (t : Trace L) : Prop :=
  (∀ k, t.contains k = true ↔ ∃ i, i < a ∧ k = whereAt n s i) ∧
  (∀ i, i < a → t.get? (whereAt n s i) = some (RV.mk' (prior N n val i) (val i) .reused N.reparam)) ∧
  total t = ∑ i ∈ Finset.range a, L.logProb (prior N n val i) (val i)

theorem WheresUpTo.next {a : Nat} {t : Trace L} (h : WheresUpTo N n s val a t) :
    t.contains (whereAt n s a) = false ∧
    WheresUpTo N n s val (a + 1) (t.insert (whereAt n s a) (RV.mk' (prior N n val a) (val a) .reused N.reparam)) := by
  have hn : t.contains (whereAt n s a) = false := by
    rw [Bool.eq_false_iff]
    intro hc
    obtain ⟨i, hi, he⟩ := (h.1 _).1 hc
    have := whereAt_inj he
    omega
  refine ⟨hn, ?_, ?_, by rw [total_insert _ hn, h.2.2, Finset.sum_range_succ]; rfl⟩
  · intro k
    rw [Dict.contains_iff, Dict.mem_keys_insert, ← Dict.contains_iff, h.1]
    constructor
    · rintro (rfl | ⟨i, hi, rfl⟩)
      · exact ⟨a, by omega, rfl⟩
      · exact ⟨i, by omega, rfl⟩
    · rintro ⟨i, hi, rfl⟩
      rcases Nat.lt_or_ge i a with h' | h'
      · exact Or.inr ⟨i, h', rfl⟩
      · have : i = a := by omega
        subst this; exact Or.inl rfl
  · intro i hi
    rw [Dict.get?_insert]
    by_cases h' : i = a
    · subst h'; simp
    · rw [if_neg (fun e => h' (whereAt_inj e)), h.2.1 i (by omega)]

theorem done_whereFrom {src name : String} {k : L.V → MTree L} {t : Trace L} {loc : L.V} {rv : RV L} {Q}
    (hw : w.store.hooks = apgHooks same) (hs : w.store.data.get? src = some (.weakref loc)) (hn : t.contains name = false)
    (hc : c.get? name = some rv)
    (h : (runModel (some c) (k rv.value) (t.insert name (RV.mk' (N.whereT loc) rv.value .reused N.reparam))).Done w Q) :
    (runModel (some c) (whereFrom N src name k) t).Done w Q := by
  unfold whereFrom
  simp only [runModel]
  refine Exec.Done.onStore_bind (apg_getItem hw hs) ?_
  rw [andThen_ok (show deref (.weakref loc) = .ok loc from rfl)]
  refine done_reused hn hc ?_
  simp only [runModel]
  rw [andThen_ok (a := rv.value) (by simp [traceValue, RV.mk'])]
  exact h

theorem done_decWheres (ix : ApgIx) (hix : ix.sweep = s) (hn : (n : Int) = min (ix.t + 1) T) (hpos : 0 < n)
    (hw : w.store.hooks = apgHooks same)
    (hval : ∀ i, i < T → ∃ rv, c.get? (whereAt n s i) = some rv ∧ rv.value = val i)
    (hst : ∀ i, i < n → w.store.data.get? (zWhereName i s) = some (.weakref (val i)))
    {k : List L.V → MTree L} {Q} (a m : Nat) (ham : a + m = T) (t : Trace L) (ht : WheresUpTo N n s val a t)
    (hk : ∀ t', WheresUpTo N n s val T t' → (runModel (some c) (k ((List.range T).map val)) t').Done w Q) :
    (runModel (some c) (decWheres N ix (List.range' a m) ((List.range a).map val) k) t).Done w Q := by
  subst hix
  induction m generalizing a t with
  | zero =>
    have : a = T := by omega
    subst this
    exact hk t ht
  | succ m ih =>
    obtain ⟨h1, h2⟩ := ht.next
    obtain ⟨rv, h3, h4⟩ := hval a (by omega)
    have h5 := ih (a + 1) (by omega) _ h2
    rw [List.range_succ, List.map_append, List.map_singleton] at h5
    simp only [List.range'_succ]
    unfold decWheres
    rw [← h4] at h2 h5
    by_cases ha : (a : Int) ≤ ix.t
    · rw [if_pos ha]
      have han : a < n := by omega
      rw [whereAt_lt han] at h1 h3 h5
      by_cases h0 : a = 0
      · subst h0
        rw [if_pos rfl]
        refine done_reused h1 h3 ?_
        simp only [runModel]
        rw [andThen_ok (a := rv.value) (by simp [traceValue, RV.mk'])]
        simp only [prior, if_true] at h5
        exact h5
      · rw [if_neg h0]
        have e : ((a : Int) - 1) = ((a - 1 : Nat) : Int) := by omega
        rw [e]
        refine done_whereFrom hw (hst (a - 1) (by omega)) h1 h3 ?_
        have : min (a - 1) (n - 1) = a - 1 := by omega
        simpa only [prior, h0, if_false, this] using h5
    · rw [if_neg ha]
      have han : n ≤ a := by omega
      have hixt : ix.t = ((n - 1 : Nat) : Int) := by omega
      rw [whereAt_ge han] at h1 h3 h5
      have h0 : a ≠ 0 := by omega
      have : min (a - 1) (n - 1) = n - 1 := by omega
      simp only [prior, h0, if_false, this] at h5
      split
      · rw [hixt]; exact done_whereFrom hw (hst (n - 1) (by omega)) h1 h3 h5
      · rw [hixt]; exact done_whereFrom hw (hst (n - 1) (by omega)) h1 h3 h5

theorem done_decOutput (ix : ApgIx) (hw : w.store.hooks = apgHooks same) {k : List (String × PyVal L) → MTree L} {Q} (t : Trace L)
    (hst : ∀ i, i < n → w.store.data.get? (zWhereName i ix.sweep) = some (.weakref (val i)))
    (a m : Nat) (ham : a + m = n) (kvs : List (String × PyVal L)) (hnd : (keysL kvs).Nodup)
    (hkeys : ∀ k, k ∈ keysL kvs ↔ ∃ i, i < a ∧ k = zWhereName i ix.sweep) (hall : ∀ i, i < a → getL kvs (zWhereName i ix.sweep) = some (.tensor (val i)))
    (hk : ∀ kvs, (keysL kvs).Nodup → (∀ k, k ∈ keysL kvs ↔ ∃ i, i < n ∧ k = zWhereName i ix.sweep) →
      (∀ i, i < n → getL kvs (zWhereName i ix.sweep) = some (.tensor (val i))) → (runModel (some c) (k kvs) t).Done w Q) :
    (runModel (some c) (decOutput ix (List.range' a m) kvs k) t).Done w Q := by
  induction m generalizing a kvs with
  | zero =>
    have : a = n := by omega
    subst this
    exact hk kvs hnd hkeys hall
  | succ m ih =>
    simp only [List.range'_succ]
    unfold decOutput
    simp only [runModel]
    refine Exec.Done.onStore_bind (apg_getItem hw (hst a (by omega))) ?_
    rw [andThen_ok (show deref (.weakref (val a)) = .ok (val a) from rfl)]
    refine ih (a + 1) (by omega) _ (nodup_insertL hnd _ _) ?_ ?_
    · intro k
      have hni : zWhereName a ix.sweep ∉ keysL kvs := by
        rw [hkeys]
        rintro ⟨i, hi, he⟩
        have := ((C42_z_where_injective _ _ _ _).1 he).1
        omega
      rw [insertL_of_not_mem _ hni, keysL_append, List.mem_append, hkeys]
      simp only [keysL_cons, keysL_nil, List.mem_singleton]
      constructor
      · rintro (⟨i, hi, rfl⟩ | rfl)
        · exact ⟨i, by omega, rfl⟩
        · exact ⟨a, by omega, rfl⟩
      · rintro ⟨i, hi, rfl⟩
        rcases Nat.lt_or_ge i a with h' | h'
        · exact Or.inl ⟨i, h', rfl⟩
        · have : i = a := by omega
          subst this; exact Or.inr rfl
    · intro i hi
      rw [getL_insertL]
      by_cases h' : i = a
      · subst h'; rw [if_pos rfl]
      · rw [if_neg, hall i (by omega)]
        intro he
        have := ((C42_z_where_injective _ _ _ _).1 he).1
        omega

/-- The decoder run on a trace that holds all its latent variables. -/
theorem done_dec (i : ObjId) (ix : ApgIx) (hix : ix.sweep = s) (hn : (n : Int) = min (ix.t + 1) T) (hpos : 0 < n) (zw : Int)
    (hzw : whatIndex T ix = .ok zw) (frames : L.V) (hT : N.timesteps frames = T) (inp : PyVal L)
    (hinp : item inp "frames" = .ok frames) (kw : Kw L) (hkw : KwOk kw) (hkix : kw.ix = ix.toPy) (what : L.V)
    (hw : w.store.hooks = apgHooks same) (hc : w.cond i = some c)
    (hval : ∀ i, i < T → ∃ rv, c.get? (whereAt n s i) = some rv ∧ rv.value = val i)
    (hwhat : ∃ rv, c.get? (zWhatName zw) = some rv ∧ rv.value = what)
    (hst : ∀ i, i < n → w.store.data.get? (zWhereName i s) = some (.weakref (val i))) :
    (eval (.prog i (decProg N)) inp kw).Done w fun o w' => w' = w ∧
      (∃ x, o.logWeight = .tensor x ∧
        ((∀ k rv, c.get? k = some rv → rv.prov = .observed → k = "recon") → x = total o.trace)) ∧ o.loss = none ∧
      (∀ k, o.trace.contains k = true ↔ Addr T n s zw k) ∧
      IsOutput N T (fun k => k = "frames" ∨ k = zWhatName zw ∨ ∃ i, i < n ∧ k = zWhereName i s) o.output ∧
      item o.output "frames" = .ok frames ∧ item o.output (zWhatName zw) = .ok what ∧
      (∀ i, i < n → item o.output (zWhereName i s) = .ok (val i)) ∧
      Latents N T n s zw frames val what o.trace := by
  apply done_prog (bindModel_ok hkw (by rfl))
  rw [hc]
  simp only [decProg, decModel]
  rw [andThen_ok (ixOf_received _ (by simp) _ _ hkix), andThen_ok hinp, hT, List.range_eq_range']
  refine done_decWheres ix hix hn hpos hw hval hst 0 T (by omega) _ ⟨by simp [Dict.contains], by simp, by simp [total_empty]⟩ ?_
  intro t ht
  rw [andThen_ok hzw]
  obtain ⟨rvw, hw1, rfl⟩ := hwhat
  have d1 : t.contains (zWhatName zw) = false := by
    rw [Bool.eq_false_iff]; intro hcon
    obtain ⟨j, -, he⟩ := (ht.1 _).1 hcon
    exact (C42_kinds_disjoint _ _ _).1 he.symm
  refine done_reused d1 hw1 ?_
  simp only [runModel]
  rw [andThen_ok (a := ()) (by simp [unpackWhat, RV.mk'])]
  have d2 : (t.insert (zWhatName zw) (RV.mk' N.what rvw.value .reused N.reparam)).contains "recon" = false := by
    rw [Bool.eq_false_iff, Ne, Dict.contains_iff, Dict.mem_keys_insert, ← Dict.contains_iff, ht.1]
    rintro (he | ⟨j, -, he⟩)
    · exact (C42_kinds_disjoint 0 0 _).2.2.1 he.symm
    · exact (C42_kinds_disjoint _ _ 0).2.1 he.symm
  refine done_given d2 ?_
  have hnn : (min (ix.t + 1) (T : Int)).toNat = n := by omega
  rw [hnn, List.range_eq_range']
  subst hix
  refine done_decOutput ix hw _ hst 0 n (by omega) [] (by simp) (by simp) (by simp) ?_
  intro kvs hnd hkeys hall
  refine Exec.Done.pure ?_
  have hg1 : ∀ k, ((t.insert (zWhatName zw) (RV.mk' N.what rvw.value .reused N.reparam)).insert "recon"
      (RV.mk' (N.recon ((List.range T).map val) rvw.value) frames .observed N.reparam)).get? k =
      if k = "recon" then some (RV.mk' (N.recon ((List.range T).map val) rvw.value) frames .observed N.reparam)
      else if k = zWhatName zw then some (RV.mk' N.what rvw.value .reused N.reparam) else t.get? k := by
    intro k; rw [Dict.get?_insert, Dict.get?_insert]
  have hadd : ∀ k, ((t.insert (zWhatName zw) (RV.mk' N.what rvw.value .reused N.reparam)).insert "recon"
      (RV.mk' (N.recon ((List.range T).map val) rvw.value) frames .observed N.reparam)).contains k = true ↔ Addr T n ix.sweep zw k := by
    intro k
    rw [Dict.contains_iff, Dict.mem_keys_insert, Dict.mem_keys_insert, ← Dict.contains_iff, ht.1]
    rfl
  have hlat : Latents N T n ix.sweep zw frames val rvw.value ((t.insert (zWhatName zw) (RV.mk' N.what rvw.value .reused N.reparam)).insert "recon"
      (RV.mk' (N.recon ((List.range T).map val) rvw.value) frames .observed N.reparam)) := by
    refine ⟨fun j hj => ?_, ?_, ?_, ?_⟩
    · rw [hg1, if_neg, if_neg, ht.2.1 j hj]
      · exact fun he => (C42_kinds_disjoint _ _ _).1 he
      · exact fun he => (C42_kinds_disjoint _ _ 0).2.1 he
    · rw [hg1, if_neg, if_pos rfl]
      exact fun he => (C42_kinds_disjoint 0 0 _).2.2.1 he
    · rw [hg1, if_pos rfl]
    · rw [total_insert _ d2, total_insert _ d1, ht.2.2]
      rfl
  have e1 : ∀ (l : List (String × PyVal L)) a v k, k ∈ keysL (insertL l a v) ↔ k = a ∨ k ∈ keysL l := by
    intro l a v k
    rw [← getL_isSome, getL_insertL]
    by_cases h : k = a
    · simp [h]
    · simp [h, getL_isSome]
  refine ⟨rfl, ?_, rfl, hadd, ?_, ?_, ?_, ?_, hlat⟩
  · simp only [Out.logWeight_mk, Out.trace_mk]
    generalize ((t.insert (zWhatName zw) _).insert "recon" _) = full at hadd hlat
    have hr : weightNodes (some c) full "recon" = true := by
      rw [weightNodes_of_get hlat.recon]; simp [RV.mk']
    cases hl : logJoint full (weightNodes (some c) full) with
    | float0 =>
      rw [logJoint_eq_float0] at hl
      have h1 := hl "recon" (Dict.mem_keys_iff.2 ⟨_, hlat.recon⟩)
      rw [hr] at h1
      cases h1
    | tensor x =>
      refine ⟨x, rfl, fun hm => ?_⟩
      rw [show x = (LW.tensor x).val from rfl, ← hl]
      refine logJoint_total fun k hk => ?_
      rcases (hadd k).1 (Dict.contains_iff.2 hk) with rfl | rfl | ⟨j, hj, rfl⟩
      · exact hr
      · exact weightNodes_held hlat.appearance hw1 fun he => (C42_kinds_disjoint 0 0 _).2.2.1 (hm _ _ hw1 he)
      · obtain ⟨rv, h1, -⟩ := hval j hj
        exact weightNodes_held (hlat.wheres j hj) h1 fun he => (C42_kinds_disjoint _ _ 0).2.1 (hm _ _ h1 he)
  · refine ⟨_, rfl, ?_, ?_, frames, ?_, hT⟩
    · intro k
      rw [e1, e1, hkeys]
    · intro k v hkv
      have := mem_getL (nodup_insertL (nodup_insertL hnd _ _) _ _) hkv
      rw [getL_insertL, getL_insertL] at this
      split at this
      · exact ⟨_, (Option.some.inj this).symm⟩
      · split at this
        · exact ⟨_, (Option.some.inj this).symm⟩
        · have hk := getL_mem this
          have hk2 : k ∈ keysL kvs := by rw [← getL_isSome, this]; rfl
          obtain ⟨i, hi, rfl⟩ := (hkeys k).1 hk2
          rw [hall i hi] at this
          exact ⟨_, (Option.some.inj this).symm⟩
    · rw [getL_insertL, if_pos rfl]
  · simp only [Out.output_mk, item]
    rw [getL_insertL, if_pos rfl]
  · simp only [Out.output_mk, item]
    rw [getL_insertL, if_neg, getL_insertL, if_pos rfl]
    exact fun he => (C42_kinds_disjoint 0 0 _).2.2.2.2 he
  · intro i hi
    simp only [Out.output_mk, item]
    rw [getL_insertL, if_neg, getL_insertL, if_neg, hall i hi]
    · exact fun he => (C42_kinds_disjoint _ _ _).1 he
    · exact fun he => (C42_kinds_disjoint _ _ 0).2.2.2.1 he

end dec
end Verif
