import Verif.Proofs.Program
import Verif.Props.Toy
/-
C01-C03: calling a program.
-/
namespace Verif
open Spec
variable {L : Lang}

/-- C01. Without a conditioning trace the log weight is the sum of the log_probs of exactly the OBSERVED variables of
the returned trace. -/
theorem C01_unconditioned_weight (i : ObjId) (s : ProgSpec L) (c : PyVal L) (kw : Kw L) (w w' : World L) (out : Out L)
    (hcond : w.cond i = none) (h : (eval (.prog i s) c kw).Runs w (.ok out) w') :
    out.logWeight.val = sumLogProb out.trace (fun _ rv => rv.prov == .observed) := by
  rw [eval_prog_Runs] at h
  obtain ⟨-, o, t, -, rfl⟩ := h
  simp only [Out.logWeight_mk, Out.trace_mk, logJoint_val]
  apply sumLogProb_congr
  intro k rv hk
  rw [weightNodes_of_get hk, hcond]
  simp [held]

/-- C01, the type of the weight: it is the Python float 0.0 (not a tensor) exactly when nothing was observed. -/
theorem C01_float_iff (i : ObjId) (s : ProgSpec L) (c : PyVal L) (kw : Kw L) (w w' : World L) (out : Out L)
    (hcond : w.cond i = none) (h : (eval (.prog i s) c kw).Runs w (.ok out) w') :
    out.logWeight = .float0 ↔ ∀ k rv, out.trace.get? k = some rv → rv.prov ≠ .observed := by
  rw [eval_prog_Runs] at h
  obtain ⟨-, o, t, -, rfl⟩ := h
  simp only [Out.logWeight_mk, Out.trace_mk, logJoint_eq_float0]
  constructor
  · intro h k rv hk
    have := h k (Dict.mem_keys_iff.2 ⟨rv, hk⟩)
    rw [weightNodes_of_get hk, hcond] at this
    simpa [held] using this
  · intro h k hk
    obtain ⟨rv, hrv⟩ := Dict.mem_keys_iff.1 hk
    rw [weightNodes_of_get hrv, hcond]
    simpa [held] using h k rv hrv

/-- The run of `obsModel` in which x = 5 (tangent 1): a latent x and an observed y. -/
example : ∃ out w', (eval (.prog 0 Toy.obsModel) .none {}).Runs Toy.w0 (.ok out) w' ∧
    Toy.w0.cond 0 = none ∧ out.logWeight = .tensor (18, 3) ∧ out.trace.keys = ["x", "y"] := by
  have hr : ∃ o t, (runModel none (Toy.obsModel.model .none []) Dict.empty).Runs Toy.w0 (.ok (o, t)) Toy.w0 ∧
      logJoint t (weightNodes none t) = .tensor (18, 3) ∧ t.keys = ["x", "y"] :=
    ⟨_, _, by
      simp only [Toy.obsModel, runModel, variableValue]
      exact ⟨(5, 1), rfl⟩, rfl, rfl⟩
  obtain ⟨o, t, h1, h2, h3⟩ := hr
  exact ⟨_, _, (eval_prog_Runs ..).2 ⟨rfl, o, t, h1, rfl⟩, rfl, h2, h3⟩

/-- C02, weight, for every model: the log weight is the sum of the log_probs of the OBSERVED variables and of those
whose name the conditioning trace holds as a non-OBSERVED variable. -/
theorem C02_conditioned_weight (i : ObjId) (s : ProgSpec L) (c : PyVal L) (kw : Kw L) (w w' : World L) (out : Out L)
    (cond : Trace L) (hcond : w.cond i = some cond) (h : (eval (.prog i s) c kw).Runs w (.ok out) w') :
    out.logWeight.val = sumLogProb out.trace (fun k rv => rv.prov == .observed ||
      (match cond.get? k with | some rv' => rv'.prov != .observed | none => false)) := by
  rw [eval_prog_Runs] at h
  obtain ⟨-, o, t, -, rfl⟩ := h
  simp only [Out.logWeight_mk, Out.trace_mk, logJoint_val]
  apply sumLogProb_congr
  intro k rv hk
  rw [weightNodes_of_get hk, hcond]
  rfl

/-- C02, values, provenances and randomness, for models that use their trace through `trace.variable`: for the draws
`ds` of the run there are the calls `rs` the model made, such that it returned the output it returns on those answers;
a call without a given value is answered from the conditioning trace when that holds the name (recorded REUSED) and by
the next of the draws `ds` when it does not (recorded SAMPLED); a given value is recorded OBSERVED; the trace consists
of exactly these variables in order, and no other randomness is used. -/
theorem C02_values_provenance_draws (i : ObjId) (s : ProgSpec L) (c : PyVal L) (kw : Kw L) (w w' : World L)
    (out : Out L) (ds : List (L.D × Bool × L.V)) (hplain : ∀ c kws, Plain (s.model c kws))
    (h : RetD (eval (.prog i s) c kw w) ds (.ok out, w')) :
    ∃ rs, Steps (s.model c (receivedKwargs s.sig kw)) rs out.output ∧
      out.trace.entries = rs.map (expectedEntry (w.cond i)) ∧ (∀ r ∈ rs, Answered (w.cond i) r) ∧
      expectedDraws (w.cond i) rs = ds := by
  obtain ⟨o, t, h1, rfl⟩ := eval_prog_RetD i s c kw w w' out ds h
  obtain ⟨rs, e0, e1, e2, e3⟩ := runModel_plain _ _ (hplain _ _) _ _ _ _ _ _ h1
  exact ⟨rs, e0, by simpa using e1, e2, e3⟩

/-- C02, weight, in the words of the property, for these models: OBSERVED variables plus those REUSED from a
non-OBSERVED variable. -/
theorem C02_weight_reused (i : ObjId) (s : ProgSpec L) (c : PyVal L) (kw : Kw L) (w w' : World L)
    (out : Out L) (ds : List (L.D × Bool × L.V)) (cond : Trace L) (hcond : w.cond i = some cond)
    (hplain : ∀ c kws, Plain (s.model c kws)) (h : RetD (eval (.prog i s) c kw w) ds (.ok out, w')) :
    out.logWeight.val = sumLogProb out.trace (fun k rv => rv.prov == .observed ||
      (rv.prov == .reused && (match cond.get? k with | some rv' => rv'.prov != .observed | none => false))) := by
  rw [C02_conditioned_weight i s c kw w w' out cond hcond h.ret]
  apply sumLogProb_congr
  intro k rv hk
  obtain ⟨rs, -, e1, -, -⟩ := C02_values_provenance_draws i s c kw w w' out ds hplain h
  rw [Dict.get?_eq_some, e1, List.mem_map] at hk
  obtain ⟨r, -, hr⟩ := hk
  simp only [expectedEntry, Prod.mk.injEq] at hr
  obtain ⟨rfl, rfl⟩ := hr
  simp only [expectedProv, hcond, held]
  cases hg : cond.get? r.name with
  | none => cases r.given <;> simp
  | some rv' => cases r.given <;> cases hp : rv'.prov <;> simp [hp]

/-- A conditioned run: x is reused from the trace, "y" is observed, no randomness; and a run where the conditioning
trace does not hold x, which is drawn. -/
example : ∃ out w', RetD (eval (.prog 0 Toy.obsModel) .none {}
      (Toy.w0.setCond 0 (some (Dict.empty.insert "x" (RV.mk' (L := Toy.L) 7 (4, 1) .sampled true))))) [] (.ok out, w') ∧
    (∀ c kws, Plain (Toy.obsModel.model c kws)) ∧ out.logWeight = .tensor (23, 5) := by
  rw [eval_prog_apply]
  refine ⟨_, _, ⟨rfl, rfl⟩, ?_, rfl⟩
  intro c kws
  simp only [Toy.obsModel, Plain, true_and]
  intro v
  split <;> simp [Plain]

/-- C03. Running a program on the trace it produced (from any earlier, possibly conditioned, run with the same input and
keyword arguments and the same store) draws nothing and gives the same addresses in the same order, the same
variables up to provenance, the same output and the same store; its log weight is the sum of all log_probs of the trace.
Nothing OBSERVED becomes latent or vice versa. -/
theorem C03_replay (i j : ObjId) (s : ProgSpec L) (c : PyVal L) (kw : Kw L) (w w2 w' : World L) (out : Out L)
    (hs : ∀ c kws, Replayable (s.model c kws)) (hstore : w2.store = w.store)
    (h : (eval (.prog i s) c kw).Runs w (.ok out) w') :
    ∃ out2 w2', eval (.prog j s) c kw (w2.setCond j (some out.trace)) = .ret (.ok out2, w2') ∧
      out2.trace.keys = out.trace.keys ∧
      (∀ k rv rv', out.trace.get? k = some rv → out2.trace.get? k = some rv' →
        SameUpToProv rv rv' ∧ (rv.prov = .observed ↔ rv'.prov = .observed)) ∧
      out2.output = out.output ∧ w2'.store = w'.store ∧
      out2.logWeight.val = sumLogProb out2.trace (fun _ _ => true) ∧
      out2.logWeight.val = sumLogProb out.trace (fun _ _ => true) := by
  rw [eval_prog_Runs] at h
  obtain ⟨hb, o, t, h1, rfl⟩ := h
  obtain ⟨sf, w2', e1, e2, e3, e4⟩ := runModel_replay (w.cond i) _ (hs c (receivedKwargs s.sig kw)) Dict.empty Dict.empty
    w (w2.setCond j (some t)) o t w' ⟨rfl, by simp⟩ hstore h1
  have hsum : (logJoint sf (weightNodes (some t) sf)).val = sumLogProb sf (fun _ _ => true) := by
    rw [logJoint_val]
    apply sumLogProb_congr
    intro k rv' hk
    rw [weightNodes_of_get hk]
    have : k ∈ t.keys := by rw [← e2.1]; exact Dict.mem_keys_iff.2 ⟨_, hk⟩
    obtain ⟨rv, hrv⟩ := Dict.mem_keys_iff.1 this
    have := (e2.2 k rv rv' hrv hk).2
    simp only [held, hrv]
    cases hp : rv.prov <;> simp_all
  have hsame : sumLogProb sf (fun _ _ => true) = sumLogProb t (fun _ _ => true) := by
    have key : ∀ (l m : List (String × RV L)), keysL l = keysL m → (keysL l).Nodup →
        (∀ k rv rv', getL m k = some rv → getL l k = some rv' → rv'.logProb = rv.logProb) →
        l.map (fun e => e.2.logProb) = m.map (fun e => e.2.logProb) := by
      intro l
      induction l with
      | nil => intro m hm _ _; cases m <;> simp_all
      | cons a l ih =>
        intro m hm hn hg
        cases m with
        | nil => simp at hm
        | cons b m =>
          obtain ⟨ka, va⟩ := a
          obtain ⟨kb, vb⟩ := b
          simp only [keysL_cons, List.cons.injEq, List.nodup_cons] at hm hn
          obtain ⟨rfl, hm⟩ := hm
          simp only [List.map_cons, List.cons.injEq]
          refine ⟨hg ka vb va (by simp [getL]) (by simp [getL]), ih m hm hn.2 ?_⟩
          intro k rv rv' h1 h2
          have hk : ka ≠ k := by
            rintro rfl
            rw [getL_eq_none.2 hn.1] at h2; cases h2
          exact hg k rv rv' (by simpa [getL, hk] using h1) (by simpa [getL, hk] using h2)
    unfold sumLogProb
    simp only [List.filter_true]
    rw [key sf.entries t.entries e2.1 sf.nodup]
    intro k rv rv' h1 h2
    have := (e2.2 k rv rv' h1 h2).1
    rw [← this]
  refine ⟨Out.mk sf (logJoint sf (weightNodes (some t) sf)) o (.program s.name) none none none none [], w2', ?_, e2.1,
    e2.2, rfl, e3, hsum, hsum.trans hsame⟩
  rw [eval_prog_apply, hb]
  simp only [World.setCond_cond, if_true, Out.trace_mk, e1, Comp.bind_ret]

/-- The hypotheses of C03 hold for `obsModel` and the run with x = 5. -/
example : (∀ c kws, Replayable (Toy.obsModel.model c kws)) ∧
    ∃ out w', (eval (.prog 0 Toy.obsModel) .none {}).Runs Toy.w0 (.ok out) w' ∧ out.trace.keys = ["x", "y"] := by
  constructor
  · intro c kws v
    dsimp only
    split <;> simp [Replayable]
  · have hr : ∃ o t, (runModel none (Toy.obsModel.model .none []) Dict.empty).Runs Toy.w0 (.ok (o, t)) Toy.w0 ∧
        t.keys = ["x", "y"] :=
      ⟨_, _, by
        simp only [Toy.obsModel, runModel, variableValue]
        exact ⟨(5, 1), rfl⟩, rfl⟩
    obtain ⟨o, t, h1, h2⟩ := hr
    exact ⟨_, _, (eval_prog_Runs ..).2 ⟨rfl, o, t, h1, rfl⟩, h2⟩

end Verif
