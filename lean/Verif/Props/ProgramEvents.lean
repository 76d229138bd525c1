import Verif.Spec.Events
import Verif.Props.Programs
/-
C02, C03 for models of every kind.
-/
namespace Verif
open Spec
variable {L : Lang}

/-- A model's run is described by what it does. -/
theorem runModel_does (cond : Option (Trace L)) (m : MTree L) (t : Trace L) (w : World L)
    (ds : List (L.D × Bool × L.V)) (o : PyVal L) (t' : Trace L) (w' : World L)
    (h : RetD (runModel cond m t w) ds (.ok (o, t'), w')) :
    ∃ es, Does cond t m es o ∧ t' = es.foldl (Event.after cond) t ∧ ds = es.filterMap (Event.draw cond) := by
  induction m generalizing t w ds with
  | ret out =>
    obtain ⟨rfl, h⟩ := h
    simp only [Prod.mk.injEq, Except.ok.injEq] at h
    obtain ⟨⟨rfl, rfl⟩, -⟩ := h
    exact ⟨[], ⟨rfl, rfl⟩, rfl, rfl⟩
  | raise e => obtain ⟨_, h⟩ := h; simp at h
  | «variable» name d value prov rep k ih =>
    simp only [runModel] at h
    by_cases hc : t.contains name = true
    · rw [if_pos hc] at h; obtain ⟨_, h⟩ := h; simp at h
    · rw [if_neg hc] at h
      have hn : t.get? name = none := by
        cases hg : t.get? name with
        | none => rfl
        | some rv => exact absurd (Dict.contains_iff.2 (Dict.mem_keys_iff.2 ⟨rv, hg⟩)) hc
      have key : ∀ (v : L.V) (p : Prov) (ds' : List (L.D × Bool × L.V)),
          RetD (runModel cond (k v) (t.insert name (RV.mk' d v p rep)) w) ds' (.ok (o, t'), w') →
          t.insert name (RV.mk' d v p rep) = Event.after cond t (.call ⟨name, d, value, rep, v⟩ prov) →
          Answered cond ⟨name, d, value, rep, v⟩ →
          ∃ es, Does cond t (.variable name d value prov rep k) es o ∧ t' = es.foldl (Event.after cond) t ∧
            es.filterMap (Event.draw cond) = (Event.draw cond (.call ⟨name, d, value, rep, v⟩ prov)).toList ++ ds' := by
        intro v p ds' hr h1 h2
        rw [h1] at hr
        obtain ⟨es, e0, e1, e2⟩ := ih v _ _ _ hr
        refine ⟨.call ⟨name, d, value, rep, v⟩ prov :: es, ⟨hn, v, es, rfl, h2, e0⟩, e1, ?_⟩
        rw [List.filterMap_cons, e2]
        cases Event.draw cond (.call ⟨name, d, value, rep, v⟩ prov) <;> rfl
      cases value with
      | some v =>
        obtain ⟨es, e0, e1, e2⟩ := key v (prov.getD .observed) ds h rfl rfl
        exact ⟨es, e0, e1, e2.symm⟩
      | none =>
        cases hh : held cond name with
        | some rv =>
          have hv : variableValue cond name none prov = some (rv.value, .reused) := by
            cases cond with
            | none => cases hh
            | some c =>
              simp only [held] at hh
              simp [variableValue, hh]
          rw [hv] at h
          obtain ⟨es, e0, e1, e2⟩ := key rv.value .reused ds h (by simp [Event.after, RV.mk', hh])
            (by intro rv' h'; rw [hh] at h'; cases h'; rfl)
          exact ⟨es, e0, e1, by simpa [Event.draw, hh] using e2.symm⟩
        | none =>
          have hv : variableValue cond name none prov = none := by
            cases cond with
            | none => rfl
            | some c => simpa [variableValue, held] using hh
          rw [hv] at h
          obtain ⟨v, ds', rfl, h⟩ := h
          obtain ⟨es, e0, e1, e2⟩ := key v .sampled ds' h (by simp [Event.after, RV.mk', hh])
            (by intro rv' h'; rw [hh] at h'; cases h')
          exact ⟨es, e0, e1, by simpa [Event.draw, hh] using e2.symm⟩
  | inject name rv k ih =>
    obtain ⟨es, e0, e1, e2⟩ := ih _ _ _ h
    exact ⟨.injected name rv :: es, ⟨es, rfl, e0⟩, e1, e2⟩
  | getCond k ih =>
    obtain ⟨es, e0, e1, e2⟩ := ih _ _ _ _ h
    exact ⟨es, e0, e1, e2⟩
  | getTrace k ih =>
    obtain ⟨es, e0, e1, e2⟩ := ih _ _ _ _ h
    exact ⟨es, e0, e1, e2⟩
  | storeGet key k ih =>
    simp only [runModel, onStore_bind_apply] at h
    split at h
    · obtain ⟨es, e0, e1⟩ := ih _ _ _ _ h
      exact ⟨es, ⟨_, e0⟩, e1⟩
    · obtain ⟨_, h⟩ := h; simp at h
  | storeSet key v k ih =>
    simp only [runModel, onStore_bind_apply] at h
    split at h
    · exact ih _ _ _ h
    · obtain ⟨_, h⟩ := h; simp at h
  | sampleFree d rep k ih =>
    obtain ⟨v, ds', rfl, h⟩ := h
    obtain ⟨es, e0, e1, e2⟩ := ih v _ _ _ h
    exact ⟨.sampled d rep v :: es, ⟨v, es, rfl, e0⟩, e1, by rw [e2]; rfl⟩

/-- C02 for every model, also one that names provenances, injects variables, reads its traces or samples outside of them: for the
draws `ds` of a run there is what the model did, `es`, such that every `trace.variable` without a given value got the value
that the conditioning trace holds (recorded REUSED, without a draw), or else a draw (recorded SAMPLED); the trace is what these
calls and the injected variables leave, and `ds` are exactly the draws for the sampled variables and those outside of the trace. -/
theorem C02_every_model (i : ObjId) (s : ProgSpec L) (c : PyVal L) (kw : Kw L) (w w' : World L)
    (out : Out L) (ds : List (L.D × Bool × L.V)) (h : RetD (eval (.prog i s) c kw w) ds (.ok out, w')) :
    ∃ es, Does (w.cond i) Dict.empty (s.model c (receivedKwargs s.sig kw)) es out.output ∧
      out.trace = es.foldl (Event.after (w.cond i)) Dict.empty ∧ ds = es.filterMap (Event.draw (w.cond i)) := by
  obtain ⟨o, t, h1, rfl⟩ := eval_prog_RetD i s c kw w w' out ds h
  exact runModel_does _ _ _ _ _ _ _ _ h1

namespace EventsExample
open Toy

/-- Samples "x" in its trace and once more outside of it, injects "z", and observes "y" with a provenance of its own. -/
def model : MTree Toy.L :=
  .variable "x" 7 none none true fun x => .sampleFree 3 false fun _ =>
    .inject "z" (RV.mk' (L := Toy.L) 2 (9, 0) .sampled true) <|
      .variable "y" 1 (some (4, 0)) (some .reused) true fun _ => .ret (.tensor x)

/-- Draws without recording what it draws. -/
def outside : MTree Toy.L := .sampleFree 3 false fun v => .ret (.tensor v)

/-- Returns something else under a conditioning trace. -/
def asks : MTree Toy.L := .getCond fun c => .ret (.bool c.isSome)

/-- A program with the given model. -/
def prog (m : MTree Toy.L) : ProgSpec Toy.L := { Toy.obsModel with model := fun _ _ => m }

end EventsExample
open EventsExample

/-- A run of such a model under a conditioning trace that holds "x": one draw, outside of the trace. -/
example : ∃ out w', RetD (eval (.prog 0 (prog model)) .none {}
      (Toy.w0.setCond 0 (some (Dict.empty.insert "x" (RV.mk' (L := Toy.L) 7 (4, 1) .sampled true))))) [(3, false, (8, 0))] (.ok out, w') ∧
    out.trace.keys = ["x", "z", "y"] ∧ out.output = .tensor (4, 1) := by
  rw [eval_prog_apply]
  exact ⟨_, _, ⟨(8, 0), [], rfl, rfl, rfl⟩, rfl, rfl⟩

/-- C03, the restriction is needed: a model that samples outside of its trace draws again when it is run on the trace that it
produced, and one that asks for its conditioning trace may return something else. -/
theorem C03_needs_restriction :
    (∃ out w', (eval (.prog 0 (prog outside)) .none {}).Runs Toy.w0 (.ok out) w' ∧
      ∃ d b k, eval (.prog 0 (prog outside)) .none {} (Toy.w0.setCond 0 (some out.trace)) = .draw d b k) ∧
    ∃ out w' out2 w2', eval (.prog 0 (prog asks)) .none {} Toy.w0 = .ret (.ok out, w') ∧
      eval (.prog 0 (prog asks)) .none {} (Toy.w0.setCond 0 (some out.trace)) = .ret (.ok out2, w2') ∧ out2.output ≠ out.output := by
  refine ⟨?_, ?_⟩
  · have hr : ∃ o t, (runModel none ((prog outside).model .none []) Dict.empty).Runs Toy.w0 (.ok (o, t)) Toy.w0 :=
      ⟨_, _, by
        simp only [prog, outside, runModel]
        exact ⟨(5, 1), rfl⟩⟩
    obtain ⟨o, t, h1⟩ := hr
    refine ⟨_, _, (eval_prog_Runs ..).2 ⟨rfl, o, t, h1, rfl⟩, ?_⟩
    rw [eval_prog_apply]
    exact ⟨_, _, _, rfl⟩
  · have h (cond : Option (Trace Toy.L)) : eval (.prog 0 (prog asks)) .none {} (Toy.w0.setCond 0 cond) =
        .ret (.ok (Out.mk Dict.empty (logJoint Dict.empty (weightNodes cond Dict.empty)) (.bool cond.isSome)
          (.program (prog asks).name) none none none none []), Toy.w0.setCond 0 cond) := by
      rw [eval_prog_apply]
      rfl
    have h0 : Toy.w0.setCond 0 none = Toy.w0 := by
      simp only [World.setCond, Toy.w0]
      congr
      funext i
      split <;> rfl
    refine ⟨_, _, _, _, h0 ▸ h none, h _, ?_⟩
    intro h
    cases h

end Verif
