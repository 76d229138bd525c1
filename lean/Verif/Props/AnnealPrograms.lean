import Verif.Proofs.Annealing
import Verif.Props.Annealing
/-
The programs of the annealing experiment, called on their own.
-/
namespace Verif
variable {L : Lang}

/-- The result of a program with a single variable. -/
structure Single (name cls : String) (rv : RV L) (weight : LW L.W) (o : Out L) : Prop where
  trace : o.trace.entries = [(name, rv)]
  output : o.output = .dict [(name, .tensor rv.value)]
  weight : o.logWeight = weight
  type : o.type = .program cls
  loss : o.loss = none

theorem single_weight (cond : Option (Trace L)) (a : String) (r : RV L) (hr : r.prov ≠ .observed) :
    logJoint (tr1 a r) (weightNodes cond (tr1 a r)) =
      match cond.bind (·.get? a) with
      | some rv => if rv.prov = .observed then .float0 else .tensor r.logProb
      | none => .float0 := by
  rw [logJoint_tr1]
  cases cond with
  | none => simp [weightNodes, tauAddrs, RV.isTau, hr, Dict.contains]
  | some t =>
    cases h : t.get? a with
    | none => simp [weightNodes, tauAddrs, RV.isTau, hr, Dict.contains, h]
    | some rv =>
      by_cases ho : rv.prov = .observed <;> simp [weightNodes, tauAddrs, RV.isTau, hr, Dict.contains, h, ho]

/-- C70. A Density (also Tempered, GMM) called without a conditioning trace, or with one in which its variable is missing, raises
AssertionError; otherwise it draws nothing, takes the value over, and its weight is its log density there - unless the variable was
OBSERVED in the conditioning trace, then the weight is 0.0. -/
theorem C70_density (i : ObjId) (cls name : String) (f : L.V → L.W) (c : PyVal L) (kw : Kw L) (w : World L) (hk : KwOk kw) :
    ((w.cond i).bind (·.get? name) = none → eval (.prog i (densityProg cls name f)) c kw w = .ret (.error .assertion, w)) ∧
    ∀ rv, (w.cond i).bind (·.get? name) = some rv → ∃ o, eval (.prog i (densityProg cls name f)) c kw w = .ret (.ok o, w) ∧
      ∃ r : RV L, r.value = rv.value ∧ r.logProb = f rv.value ∧ r.prov = .reused ∧ r.kind = .improper f ∧
        Single name cls r (if rv.prov = .observed then .float0 else .tensor (f rv.value)) o := by
  constructor
  · intro h
    rw [eval_prog_apply, bindModel_ok hk (by rfl)]
    simp only [densityProg, densityModel, runModel, h]
    rfl
  · intro rv h
    rw [eval_prog_apply, bindModel_ok hk (by rfl)]
    have hwn := single_weight (w.cond i) name (RV.mkImproper f rv.value .reused) (by simp [RV.mkImproper])
    rw [h] at hwn
    simp only [densityProg, densityModel, runModel, h, insert_empty]
    refine ⟨_, rfl, RV.mkImproper f rv.value .reused, rfl, rfl, rfl, rfl, ⟨rfl, rfl, hwn, rfl, rfl⟩⟩

/-- C70. A Distribution (also FixedMultivariateNormal) draws one value with weight 0.0 unless its variable is in the conditioning
trace; then it draws nothing, takes the value over, and the weight is its log_prob there (0.0 if the variable was OBSERVED). -/
theorem C70_distribution (i : ObjId) (cls name : String) (d : L.D) (rep : Bool) (c : PyVal L) (kw : Kw L) (w : World L) (hk : KwOk kw) :
    ((w.cond i).bind (·.get? name) = none → ∃ F : L.V → Out L,
      eval (.prog i (distributionProg cls name d rep)) c kw w = .draw d rep (fun v => .ret (.ok (F v), w)) ∧
      ∀ v, Single name cls (RV.mk' d v .sampled rep) .float0 (F v)) ∧
    ∀ rv, (w.cond i).bind (·.get? name) = some rv → ∃ o, eval (.prog i (distributionProg cls name d rep)) c kw w = .ret (.ok o, w) ∧
      Single name cls (RV.mk' d rv.value .reused rep) (if rv.prov = .observed then .float0 else .tensor (L.logProb d rv.value)) o := by
  constructor
  · intro h
    rw [eval_prog_apply, bindModel_ok hk (by rfl)]
    simp only [distributionProg, distributionModel, maybeSample, Option.getD_some, runModel, h, insert_empty, Comp.bind_draw]
    refine ⟨_, rfl, fun v => ⟨rfl, rfl, ?_, rfl, rfl⟩⟩
    have hwn := single_weight (w.cond i) name (RV.mk' d v .sampled rep) (by simp [RV.mk'])
    rw [h] at hwn
    exact hwn
  · intro rv h
    rw [eval_prog_apply, bindModel_ok hk (by rfl)]
    have hwn := single_weight (w.cond i) name (RV.mk' d rv.value .reused rep) (by simp [RV.mk'])
    rw [h] at hwn
    simp only [distributionProg, distributionModel, maybeSample, Option.getD_some, runModel, h, insert_empty]
    exact ⟨_, rfl, ⟨rfl, rfl, hwn, rfl, rfl⟩⟩

theorem variableValue_free (cond : Option (Trace L)) (name : String) :
    variableValue cond name none none = (cond.bind (·.get? name)).map fun rv => (rv.value, .reused) := by
  cases cond <;> rfl

/-- C70. A kernel raises KeyError if its input does not have the variable it starts from; otherwise it behaves as the distribution that its
network makes of that variable's value. -/
theorem C70_kernel (i : ObjId) (a b : String) (net : L.V → L.D) (rep : Bool) (kvs : List (String × PyVal L)) (kw : Kw L) (w : World L)
    (hk : KwOk kw) :
    (getL kvs a = none → eval (.prog i (kernelProg a b net rep)) (.dict kvs) kw w = .ret (.error .key, w)) ∧
    ∀ x, getL kvs a = some (.tensor x) →
      ((w.cond i).bind (·.get? b) = none → ∃ F : L.V → Out L,
        eval (.prog i (kernelProg a b net rep)) (.dict kvs) kw w = .draw (net x) rep (fun v => .ret (.ok (F v), w)) ∧
        ∀ v, Single b "ConditionalMultivariateNormal" (RV.mk' (net x) v .sampled rep) .float0 (F v)) ∧
      ∀ rv, (w.cond i).bind (·.get? b) = some rv → ∃ o, eval (.prog i (kernelProg a b net rep)) (.dict kvs) kw w = .ret (.ok o, w) ∧
        Single b "ConditionalMultivariateNormal" (RV.mk' (net x) rv.value .reused rep)
          (if rv.prov = .observed then .float0 else .tensor (L.logProb (net x) rv.value)) o := by
  constructor
  · intro h
    rw [eval_prog_apply, bindModel_ok hk (by rfl)]
    simp only [kernelProg, kernelModel, kernelInput, h, runModel]
    rfl
  · intro x hx
    have hc : kernelInput (.dict kvs) a = .ok x := by simp only [kernelInput, hx]
    constructor
    · intro h
      rw [eval_prog_apply, bindModel_ok hk (by rfl)]
      have hv : variableValue (w.cond i) b none none = none := by rw [variableValue_free, h]; rfl
      have hn : (Dict.empty : Trace L).contains b = false := rfl
      simp only [kernelProg, kernelModel, hc, runModel, hv, hn, Bool.false_eq_true, if_false, insert_empty, Comp.bind_draw]
      refine ⟨_, rfl, fun v => ⟨rfl, rfl, ?_, rfl, rfl⟩⟩
      have hwn := single_weight (w.cond i) b (RV.mk' (net x) v .sampled rep) (by simp [RV.mk'])
      rw [h] at hwn
      exact hwn
    · intro rv h
      rw [eval_prog_apply, bindModel_ok hk (by rfl)]
      have hwn := single_weight (w.cond i) b (RV.mk' (net x) rv.value .reused rep) (by simp [RV.mk'])
      rw [h] at hwn
      have hv : variableValue (w.cond i) b none none = some (rv.value, .reused) := by rw [variableValue_free, h]; rfl
      have hn : (Dict.empty : Trace L).contains b = false := rfl
      simp only [kernelProg, kernelModel, hc, runModel, hv, hn, Bool.false_eq_true, if_false, insert_empty]
      exact ⟨_, rfl, ⟨rfl, rfl, hwn, rfl, rfl⟩⟩

/-- C70. maybe_sample: a value in the trace is taken over as REUSED, otherwise one is drawn and SAMPLED; without `reparameterized` the
distribution's `has_rsample` decides. -/
theorem C70_maybe_sample (trace : Option (Trace L)) (reparam : Option Bool) (d : L.D) (has : Bool) (name : String)
    (k : L.V → Prov → Bool → MTree L) (rep : Bool) (hr : reparam = some rep ∨ (reparam = none ∧ rep = has)) :
    (trace.bind (·.get? name) = none → maybeSample trace reparam d has name k = .sampleFree d rep fun v => k v .sampled rep) ∧
    ∀ rv, trace.bind (·.get? name) = some rv → maybeSample trace reparam d has name k = k rv.value .reused rep := by
  have : reparam.getD has = rep := by rcases hr with rfl | ⟨rfl, rfl⟩ <;> rfl
  constructor
  · intro h
    simp only [maybeSample, h, this]
  · intro rv h
    simp only [maybeSample, h, this]

namespace Toy
/-- Object 7 has the conditioning trace {g1: (3, 0)} of the given provenance. -/
def condG1 (p : Prov) : World Toy.L := { w0 with cond := fun j => if j = 7 then some (tr1 "g1" (RV.mk' (L := Toy.L) 2 (3, 0) p false)) else none }
/-- A density that squares. -/
def square : ProgSpec Toy.L := densityProg "GMM" "g1" fun v => (v.1 * v.1, 0)
end Toy

/-- C70: a density called alone, on a sampled value and on an observed one. -/
example : eval (.prog 6 Toy.square) .none {} (Toy.condG1 .sampled) =
      .ret (.error .assertion, Toy.condG1 .sampled) ∧
    (∃ o, eval (.prog 7 Toy.square) .none {} (Toy.condG1 .sampled) =
      .ret (.ok o, Toy.condG1 .sampled) ∧ o.logWeight = .tensor (9, 0)) ∧
    ∃ o, eval (.prog 7 Toy.square) .none {} (Toy.condG1 .observed) =
      .ret (.ok o, Toy.condG1 .observed) ∧ o.logWeight = .float0 := by
  have hk : KwOk ({} : Kw Toy.L) := fun e he => by cases he
  refine ⟨(C70_density 6 _ _ _ _ _ _ hk).1 rfl, ?_, ?_⟩
  · obtain ⟨o, h, r, -, -, -, -, hs⟩ := (C70_density (L := Toy.L) 7 "GMM" "g1" (fun v : Int × Int => (v.1 * v.1, 0)) .none {} (Toy.condG1 .sampled) hk).2 _ rfl
    exact ⟨o, h, hs.weight⟩
  · obtain ⟨o, h, r, -, -, -, -, hs⟩ := (C70_density (L := Toy.L) 7 "GMM" "g1" (fun v : Int × Int => (v.1 * v.1, 0)) .none {} (Toy.condG1 .observed) hk).2 _ rfl
    exact ⟨o, h, hs.weight⟩

end Verif
