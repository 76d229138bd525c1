import Verif.Proofs.Exec
import Verif.Spec.Program
/-
Running models: invariants of `runModel`.
-/
namespace Verif
open Spec
variable {L : Lang}

theorem RetD_bind {α β : Type} (m : Comp L α) (f : α → Comp L β) (ds : List (L.D × Bool × L.V)) (r : β) :
    RetD (m.bind f) ds r ↔ ∃ d1 d2 a, ds = d1 ++ d2 ∧ RetD m d1 a ∧ RetD (f a) d2 r := by
  induction m generalizing ds with
  | ret a =>
    constructor
    · intro h; exact ⟨[], ds, a, rfl, ⟨rfl, rfl⟩, h⟩
    · rintro ⟨d1, d2, a', rfl, ⟨rfl, rfl⟩, h⟩; exact h
  | draw d b k ih =>
    constructor
    · rintro ⟨v, ds', rfl, h⟩
      obtain ⟨d1, d2, a, rfl, h1, h2⟩ := (ih v ds').1 h
      exact ⟨(d, b, v) :: d1, d2, a, rfl, ⟨v, d1, rfl, h1⟩, h2⟩
    · rintro ⟨d1, d2, a, rfl, ⟨v, d1', rfl, h1⟩, h2⟩
      exact ⟨v, d1' ++ d2, rfl, (ih v _).2 ⟨d1', d2, a, rfl, h1, h2⟩⟩
  | rand k => simp [RetD]

theorem Spec.RetD.ret {α : Type} {m : Comp L α} {ds : List (L.D × Bool × L.V)} {a : α} (h : RetD m ds a) : m.Ret a := by
  induction m generalizing ds with
  | ret b => exact h.2
  | draw d b k ih => obtain ⟨v, ds', _, h⟩ := h; exact ⟨v, ih v h⟩
  | rand k => exact h.elim

theorem onStore_bind_apply {α β : Type} (f : Store L → Except Err α × Store L) (g : α → Exec L β) (w : World L) :
    Exec.bind (Exec.onStore f) g w =
      match (f w.store).1 with
      | .ok a => g a { w with store := (f w.store).2 }
      | .error e => .ret (.error e, { w with store := (f w.store).2 }) := by
  simp only [Exec.bind, Exec.onStore, Comp.bind_ret]
  cases (f w.store).1 <;> rfl

/-- A plain model's run is described by the calls it makes: values, entries and draws are as specified. -/
theorem runModel_plain (cond : Option (Trace L)) (m : MTree L) (hm : Plain m) (t : Trace L) (w : World L)
    (ds : List (L.D × Bool × L.V)) (o : PyVal L) (t' : Trace L) (w' : World L)
    (h : RetD (runModel cond m t w) ds (.ok (o, t'), w')) :
    ∃ rs, Steps m rs o ∧ t'.entries = t.entries ++ rs.map (expectedEntry cond) ∧ (∀ r ∈ rs, Answered cond r) ∧
      expectedDraws cond rs = ds := by
  induction m generalizing t w ds with
  | ret out =>
    obtain ⟨rfl, h⟩ := h
    simp only [Prod.mk.injEq, Except.ok.injEq] at h
    obtain ⟨⟨rfl, rfl⟩, -⟩ := h
    exact ⟨[], ⟨rfl, rfl⟩, by simp, by simp, rfl⟩
  | raise e => obtain ⟨_, h⟩ := h; simp at h
  | «variable» name d value prov rep k ih =>
    obtain ⟨rfl, hk⟩ := hm
    simp only [runModel] at h
    by_cases hc : t.contains name = true
    · rw [if_pos hc] at h; obtain ⟨_, h⟩ := h; simp at h
    · rw [if_neg hc] at h
      have hn : name ∉ t.keys := fun h' => hc (Dict.contains_iff.2 h')
      -- one step, whatever provenance it records
      have key : ∀ (v : L.V) (p : Prov) (ds' : List (L.D × Bool × L.V)),
          RetD (runModel cond (k v) (t.insert name (RV.mk' d v p rep)) w) ds' (.ok (o, t'), w') →
          p = expectedProv cond ⟨name, d, value, rep, v⟩ → Answered cond ⟨name, d, value, rep, v⟩ →
          ∃ rs, Steps (.variable name d value none rep k) rs o ∧
            t'.entries = t.entries ++ rs.map (expectedEntry cond) ∧ (∀ r ∈ rs, Answered cond r) ∧
            expectedDraws cond rs = expectedDraws cond [⟨name, d, value, rep, v⟩] ++ ds' := by
        intro v p ds' hr h1 h2
        obtain ⟨rs, e0, e1, e2, e3⟩ := ih v (hk v) _ _ _ hr
        refine ⟨⟨name, d, value, rep, v⟩ :: rs, ⟨_, rs, rfl, rfl, rfl, rfl, rfl, e0⟩, ?_, ?_, ?_⟩
        · rw [e1, Dict.entries_insert_of_not_mem _ hn]; simp [expectedEntry, RV.mk', h1]
        · intro r hr
          rcases List.mem_cons.1 hr with rfl | hr
          · exact h2
          · exact e2 r hr
        · rw [← e3]
          simp only [expectedDraws, List.filter_cons, List.filter_nil]
          split <;> simp
      cases value with
      | some v =>
        obtain ⟨rs, e0, e1, e2, e3⟩ := key v .observed ds h rfl rfl
        exact ⟨rs, e0, e1, e2, by simpa [expectedDraws] using e3⟩
      | none =>
        cases hh : held cond name with
        | some rv =>
          have hv : variableValue cond name none none = some (rv.value, .reused) := by
            cases cond with
            | none => cases hh
            | some c =>
              simp only [held] at hh
              simp [variableValue, hh]
          rw [hv] at h
          obtain ⟨rs, e0, e1, e2, e3⟩ := key rv.value .reused ds h (by simp [expectedProv, hh])
            (by intro rv' h'; rw [hh] at h'; cases h'; rfl)
          exact ⟨rs, e0, e1, e2, by simpa [expectedDraws, hh] using e3⟩
        | none =>
          have hv : variableValue cond name none none = none := by
            cases cond with
            | none => rfl
            | some c => simpa [variableValue, held] using hh
          rw [hv] at h
          obtain ⟨v, ds', rfl, h⟩ := h
          obtain ⟨rs, e0, e1, e2, e3⟩ := key v .sampled ds' h (by simp [expectedProv, hh])
            (by intro rv' h'; rw [hh] at h'; cases h')
          exact ⟨rs, e0, e1, e2, by simpa [expectedDraws, hh] using e3⟩
  | inject => exact hm.elim
  | getCond => exact hm.elim
  | getTrace => exact hm.elim
  | storeGet key k ih =>
    simp only [runModel, onStore_bind_apply] at h
    split at h
    · obtain ⟨rs, h0, h1⟩ := ih _ (hm _) _ _ _ h
      exact ⟨rs, ⟨_, h0⟩, h1⟩
    · obtain ⟨_, h⟩ := h; simp at h
  | storeSet key v k ih =>
    simp only [runModel, onStore_bind_apply] at h
    split at h
    · exact ih hm _ _ _ h
    · obtain ⟨_, h⟩ := h; simp at h
  | sampleFree => exact hm.elim

/-- Names recorded by a replayable model stay as they are. -/
theorem runModel_mono (cond : Option (Trace L)) (m : MTree L) (hm : Replayable m) (t : Trace L) (w : World L)
    (o : PyVal L) (t' : Trace L) (w' : World L)
    (h : (runModel cond m t).Runs w (.ok (o, t')) w') : ∀ k rv, t.get? k = some rv → t'.get? k = some rv := by
  induction m generalizing t w with
  | ret out =>
    simp only [runModel, Exec.Runs_pure', Except.ok.injEq, Prod.mk.injEq] at h
    obtain ⟨⟨-, rfl⟩, -⟩ := h
    intro k rv h; exact h
  | raise e => simp [runModel] at h
  | «variable» name d value prov rep k ih =>
    simp only [runModel] at h
    by_cases hc : t.contains name = true
    · rw [if_pos hc] at h; simp at h
    · rw [if_neg hc] at h
      have step : ∀ v p w, (runModel cond (k v) (t.insert name (RV.mk' d v p rep))).Runs w (.ok (o, t')) w' →
          ∀ j rv, t.get? j = some rv → t'.get? j = some rv := by
        intro v p w h j rv hj
        apply ih v (hm v) _ _ h
        rw [Dict.get?_insert, if_neg, hj]
        rintro rfl
        exact hc (Dict.contains_iff.2 (Dict.mem_keys_iff.2 ⟨rv, hj⟩))
      split at h
      · exact step _ _ _ h
      · obtain ⟨v, h⟩ := h; exact step _ _ _ h
  | inject => exact hm.elim
  | getCond => exact hm.elim
  | getTrace => exact hm.elim
  | storeGet key k ih =>
    simp only [runModel, ← Exec.bind_eq, Exec.Runs_bind_ok] at h
    obtain ⟨v, w1, -, h⟩ := h
    exact ih v (hm v) _ _ h
  | storeSet key v k ih =>
    simp only [runModel, ← Exec.bind_eq, Exec.Runs_bind_ok] at h
    obtain ⟨_, w1, -, h⟩ := h
    exact ih hm _ _ h
  | sampleFree => exact hm.elim

/-- The replayed trace: what was sampled or reused is now reused, the rest is as it was. `same` says so entrywise. -/
def ReplayOf (t t' : Trace L) : Prop :=
  t'.keys = t.keys ∧ ∀ k rv rv', t.get? k = some rv → t'.get? k = some rv' →
    SameUpToProv rv rv' ∧ (rv.prov = .observed ↔ rv'.prov = .observed)

theorem ReplayOf.insert {t t' : Trace L} (h : ReplayOf t t') (name : String) (d : L.D) (v : L.V) (p p' : Prov)
    (rep : Bool) (hp : p = .observed ↔ p' = .observed) :
    ReplayOf (t.insert name (RV.mk' d v p rep)) (t'.insert name (RV.mk' d v p' rep)) := by
  refine ⟨by rw [Dict.keys_insert, Dict.keys_insert, h.1], ?_⟩
  intro k rv rv' h1 h2
  rw [Dict.get?_insert] at h1 h2
  by_cases hk : k = name
  · rw [if_pos hk] at h1 h2
    cases h1; cases h2
    exact ⟨rfl, hp⟩
  · rw [if_neg hk] at h1 h2
    exact h.2 k rv rv' h1 h2

theorem runModel_replay (cond : Option (Trace L)) (m : MTree L) (hm : Replayable m) (t s : Trace L) (w w2 : World L)
    (o : PyVal L) (tf : Trace L) (w' : World L) (hts : ReplayOf t s) (hw : w2.store = w.store)
    (h : (runModel cond m t).Runs w (.ok (o, tf)) w') :
    ∃ sf w2', runModel (some tf) m s w2 = .ret (.ok (o, sf), w2') ∧ ReplayOf tf sf ∧ w2'.store = w'.store ∧
      w2'.cond = w2.cond := by
  induction m generalizing t s w w2 with
  | ret out =>
    simp only [runModel, Exec.Runs_pure', Except.ok.injEq, Prod.mk.injEq] at h
    obtain ⟨⟨rfl, rfl⟩, rfl⟩ := h
    exact ⟨s, w2, rfl, hts, hw, rfl⟩
  | raise e => simp [runModel] at h
  | «variable» name d value prov rep k ih =>
    have hmono := runModel_mono cond _ hm t w o tf w' h
    simp only [runModel] at h ⊢
    by_cases hc : t.contains name = true
    · rw [if_pos hc] at h; simp at h
    · rw [if_neg hc] at h
      have hcs : ¬ s.contains name = true := by
        rw [Dict.contains_iff, hts.1, ← Dict.contains_iff]; exact hc
      rw [if_neg hcs]
      -- the value found in the first run is the one in its final trace
      have step : ∀ v p w, p ≠ .observed → w2.store = w.store →
          (runModel cond (k v) (t.insert name (RV.mk' d v p rep))).Runs w (.ok (o, tf)) w' →
          ∃ sf w2', (match variableValue (some tf) name none prov with
            | some vp => runModel (some tf) (k vp.1) (s.insert name (RV.mk' d vp.1 vp.2 rep))
            | none => fun w => .draw d rep fun v =>
              runModel (some tf) (k v) (s.insert name (RV.mk' d v .sampled rep)) w) w2 =
              .ret (.ok (o, sf), w2') ∧ ReplayOf tf sf ∧ w2'.store = w'.store ∧ w2'.cond = w2.cond := by
        intro v p w hp hw h
        have hv : tf.get? name = some (RV.mk' d v p rep) :=
          runModel_mono cond _ (hm v) _ _ _ _ _ h name _ (Dict.get?_insert_self _ _ _)
        simp only [variableValue, hv, Option.map_some]
        exact ih v (hm v) _ _ w w2 (hts.insert name d v p .reused rep (by simp [hp])) hw h
      cases value with
      | some v => exact ih v (hm v) _ _ w w2 (hts.insert name d v _ _ rep Iff.rfl) hw h
      | none =>
        cases cond with
        | none =>
          obtain ⟨v, h⟩ := h; exact step _ _ _ (by simp) hw h
        | some c =>
          cases hg : c.get? name with
          | none =>
            simp only [variableValue, hg, Option.map_none] at h
            obtain ⟨v, h⟩ := h; exact step _ _ _ (by simp) hw h
          | some rv =>
            simp only [variableValue, hg, Option.map_some] at h
            exact step _ _ _ (by simp) hw h
  | inject => exact hm.elim
  | getCond => exact hm.elim
  | getTrace => exact hm.elim
  | storeGet key k ih =>
    simp only [runModel, ← Exec.bind_eq, Exec.Runs_bind_ok, Exec.Runs_onStore] at h
    obtain ⟨v, w1, ⟨h1, rfl⟩, h⟩ := h
    simp only [runModel, onStore_bind_apply]
    rw [hw, ← h1]
    obtain ⟨sf, w2', h1, h2, h3, h4⟩ := ih v (hm v) t s
      { w with store := (w.store.getItem key).2 } { w2 with store := (w.store.getItem key).2 } hts rfl h
    exact ⟨sf, w2', h1, h2, h3, h4⟩
  | storeSet key v k ih =>
    simp only [runModel, ← Exec.bind_eq, Exec.Runs_bind_ok, Exec.Runs_onStore] at h
    obtain ⟨_, w1, ⟨h1, rfl⟩, h⟩ := h
    simp only [runModel, onStore_bind_apply]
    rw [hw, ← h1]
    obtain ⟨sf, w2', h1, h2, h3, h4⟩ := ih hm t s
      { w with store := (w.store.setItem key v).2 } { w2 with store := (w.store.setItem key v).2 } hts rfl h
    exact ⟨sf, w2', h1, h2, h3, h4⟩
  | sampleFree => exact hm.elim


/-! ### Program objects -/

theorem received_eq (s : ArgSpec) (kw : Kw L) :
    ([("sample_dims", kw.sampleDims), ("batch_dim", kw.batchDim), ("reparameterized", kw.reparam)] ++
      ([("_debug", .bool kw.debug), ("ix", kw.ix)] ++ kw.shared)).filter (fun e => checkPassable e.1 s) =
    receivedKwargs s kw := by
  unfold receivedKwargs offeredKwargs
  rw [← List.append_assoc]
  apply List.filter_congr
  intro e _
  rw [Bool.eq_iff_iff]
  simp [checkPassable, or_assoc]

/-- Calling a program: bind the arguments, run the body on an empty trace, sum up the weight. -/
theorem eval_prog_apply (i : ObjId) (s : ProgSpec L) (c : PyVal L) (kw : Kw L) (w : World L) :
    eval (.prog i s) c kw w =
      match bindModel s.sig (receivedKwargs s.sig kw) with
      | .error e => .ret (.error e, w)
      | .ok () => (runModel (w.cond i) (s.model c (receivedKwargs s.sig kw)) Dict.empty w).bind fun r =>
        .ret (match r.1 with
          | .ok (o, t) => .ok (Out.mk t (logJoint t (weightNodes (w.cond i) t)) o (.program s.name) none none none none [])
          | .error e => .error e, r.2) := by
  simp only [eval, programForward, received_eq]
  simp only [Exec.bind_eq, Exec.pure_eq, Exec.bind, Exec.getCond, Exec.lift, Exec.pure, Comp.bind_ret]
  cases bindModel s.sig (receivedKwargs s.sig kw) with
  | error e => rfl
  | ok u =>
    simp only [Comp.bind_assoc]
    congr 1
    funext r
    rcases r with ⟨r | ⟨o, t⟩, w'⟩ <;> rfl

theorem eval_prog_Runs (i : ObjId) (s : ProgSpec L) (c : PyVal L) (kw : Kw L) (w w' : World L) (out : Out L) :
    (eval (.prog i s) c kw).Runs w (.ok out) w' ↔
      bindModel s.sig (receivedKwargs s.sig kw) = .ok () ∧
      ∃ o t, (runModel (w.cond i) (s.model c (receivedKwargs s.sig kw)) Dict.empty).Runs w (.ok (o, t)) w' ∧
        out = Out.mk t (logJoint t (weightNodes (w.cond i) t)) o (.program s.name) none none none none [] := by
  simp only [Exec.Runs, eval_prog_apply]
  cases bindModel s.sig (receivedKwargs s.sig kw) with
  | error e => simp
  | ok u =>
    simp only [Comp.bind_Ret, Comp.ret_Ret, true_and]
    constructor
    · rintro ⟨⟨r | ⟨o, t⟩, w1⟩, h1, h2⟩
      · simp at h2
      · simp only [Prod.mk.injEq, Except.ok.injEq] at h2
        obtain ⟨rfl, rfl⟩ := h2
        exact ⟨o, t, h1, rfl⟩
    · rintro ⟨o, t, h1, rfl⟩
      exact ⟨_, h1, rfl⟩

theorem eval_prog_RetD (i : ObjId) (s : ProgSpec L) (c : PyVal L) (kw : Kw L) (w w' : World L) (out : Out L)
    (ds : List (L.D × Bool × L.V)) (h : RetD (eval (.prog i s) c kw w) ds (.ok out, w')) :
    ∃ o t, RetD (runModel (w.cond i) (s.model c (receivedKwargs s.sig kw)) Dict.empty w) ds (.ok (o, t), w') ∧
        out = Out.mk t (logJoint t (weightNodes (w.cond i) t)) o (.program s.name) none none none none [] := by
  rw [eval_prog_apply] at h
  cases hb : bindModel s.sig (receivedKwargs s.sig kw) with
  | error e => rw [hb] at h; simp [RetD] at h
  | ok u =>
    rw [hb] at h
    simp only [RetD_bind] at h
    obtain ⟨d1, d2, ⟨r, w1⟩, rfl, h1, h2⟩ := h
    obtain ⟨rfl, h2⟩ := h2
    rcases r with r | ⟨o, t⟩
    · simp at h2
    · simp only [Prod.mk.injEq, Except.ok.injEq] at h2
      obtain ⟨rfl, rfl⟩ := h2
      exact ⟨o, t, by simpa using h1, rfl⟩

theorem weightNodes_of_get {cond : Option (Trace L)} {t : Trace L} {k : String} {rv : RV L}
    (h : t.get? k = some rv) :
    weightNodes cond t k = (rv.prov == .observed || (match held cond k with
      | some c => c.prov != .observed
      | none => false)) := by
  have hc : t.contains k = true := Dict.contains_iff.2 (Dict.mem_keys_iff.2 ⟨rv, h⟩)
  simp only [weightNodes, hc, tauAddrs_of_get h, RV.isTau, Bool.true_and]
  cases cond with
  | none => cases rv.prov <;> rfl
  | some c =>
    simp only [held, tauAddrs]
    cases c.get? k with
    | none => cases rv.prov <;> rfl
    | some rv' =>
      simp only [RV.isTau]
      cases rv.prov <;> cases rv'.prov <;> rfl

end Verif
