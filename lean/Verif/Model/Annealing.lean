import Verif.Model.Inference
import Verif.Model.ApgTrain
/-
experiments/annealing: models.py (Density, Distribution, ConditionalMultivariateNormal), vsmc.py, stl_trace of objectives.py,
traverse_proposals and get_stats of utils.py.
-/
namespace Verif
variable {L : Lang}

/-- `{name: value}` -/
def outDict (name : String) (v : L.V) : PyVal L := .dict [(name, .tensor v)]

/-- `Density.model` (experiments/annealing/models.py:73-83). -/
def densityModel (name : String) (f : L.V → L.W) : MTree L :=
  .getCond fun cond =>
    match cond.bind (·.get? name) with
    | none => .raise .assertion
    | some rv => .inject name (RV.mkImproper f rv.value .reused) (.ret (outDict name rv.value))

/-- A `Density` object of class `cls` (experiments/annealing/models.py:65-86); `Tempered` and `GMM` differ in the density. -/
def densityProg (cls name : String) (f : L.V → L.W) : ProgSpec L where
  name := cls
  sig := { args := ["self", "trace", "c"], varargs := false, kwonly := [], varkw := false }
  debugAttr := none
  model _ _ := densityModel name f

/-- `maybe_sample(trace, sample_shape, reparameterized)(dist, name)` (combinators/trace/utils.py:50-77), followed by `k` on the
triple it returns. `hasRsample` is `dist.has_rsample`; the sample shape is part of the draw. -/
def maybeSample (trace : Option (Trace L)) (reparam : Option Bool) (d : L.D) (hasRsample : Bool) (name : String)
    (k : L.V → Prov → Bool → MTree L) : MTree L :=
  let rep := reparam.getD hasRsample
  match trace.bind (·.get? name) with
  | some rv => k rv.value .reused rep
  | none => .sampleFree d rep fun v => k v .sampled rep

/-- `Distribution.model` (experiments/annealing/models.py:101-115). `has_rsample` is not read, `reparameterized` is given. -/
def distributionModel (name : String) (d : L.D) (reparam : Bool) : MTree L :=
  .getCond fun cond =>
    maybeSample cond (some reparam) d false name fun value prov _ =>
      .inject name (RV.mk' d value prov reparam) (.ret (outDict name value))

/-- A `Distribution` object (experiments/annealing/models.py:89-118). -/
def distributionProg (cls name : String) (d : L.D) (reparam : Bool) : ProgSpec L where
  name := cls
  sig := { args := ["self", "trace", "c", "sample_shape"], varargs := false, kwonly := [], varkw := false }
  debugAttr := none
  model _ _ := distributionModel name d reparam

/-- `c[ext_from]`, used as a tensor (experiments/annealing/models.py:152). -/
def kernelInput (c : PyVal L) (extFrom : String) : Except Err L.V :=
  match c with
  | .dict kvs =>
    match getL kvs extFrom with
    | some (.tensor v) => .ok v
    | some _ => .error .type
    | none => .error .key
  | _ => .error .type

/-- `ConditionalMultivariateNormal.model` (experiments/annealing/models.py:151-162); `net` stands for the network and the
distribution built from its output. -/
def kernelModel (extFrom extTo : String) (net : L.V → L.D) (reparam : Bool) (c : PyVal L) : MTree L :=
  match kernelInput c extFrom with
  | .error e => .raise e
  | .ok v => .variable extTo (net v) none none reparam fun x => .ret (outDict extTo x)

/-- A `ConditionalMultivariateNormal` object (experiments/annealing/models.py:130-162). -/
def kernelProg (extFrom extTo : String) (net : L.V → L.D) (reparam : Bool) : ProgSpec L where
  name := "ConditionalMultivariateNormal"
  sig := { args := ["self", "trace", "c"], varargs := true, kwonly := [], varkw := false }
  debugAttr := none
  model c _ := kernelModel extFrom extTo net reparam c

/-- `lambda out, loss: loss_fn(out) + loss` (experiments/annealing/vsmc.py:24). -/
def addLoss (lossFn : Out L → Except Err L.Lo) : Out L → L.Lo → Except Err L.Lo := fun out loss =>
  match lossFn out with
  | .ok l => .ok (l + loss)
  | .error e => .error e

/-- One step of `vsmc` without the resampling (experiments/annealing/vsmc.py:21-29). `i`, `i + 1`, `i + 2` are the
identities of the new objects. -/
def vsmcPropose (i : ObjId) (k : Nat) (lossFn : Out L → Except Err L.Lo)
    (transf : Option (Trace L → Kw L → Except Err (Trace L))) (fwd rev p q : Node L) : Except Err (Node L) :=
  mkPropose (i + 2) (mkExtend i p rev none none .none false) (mkCompose (i + 1) fwd q none none .none true)
    (some (addLoss lossFn)) none (.int k) transf true false

/-- One step of `vsmc` (experiments/annealing/vsmc.py:20-31). `n` is `len(forwards)`, `fresh` is larger than the identity of
every object that exists. The resampler is `Resample`'s default, here a parameter. -/
def vsmcStep (fresh : ObjId) (n : Nat) (lossFn : Out L → Except Err L.Lo)
    (transf : Option (Trace L → Kw L → Except Err (Trace L))) (resample : Option (ResamplerFn L)) (q : Node L)
    (s : (Node L × Node L × Node L) × Nat) : Except Err (Node L) :=
  match vsmcPropose (fresh + 4 * s.2) s.2 lossFn transf s.1.1 s.1.2.1 s.1.2.2 q with
  | .error e => .error e
  | .ok q =>
    match resample with
    | some r => .ok (if s.2 + 1 < n then mkResample (fresh + 4 * s.2 + 3) r q none .none false else q)
    | none => .ok q

/-- `vsmc` (experiments/annealing/vsmc.py:18-32). `transf` is `None` for nvo_avo and `stl_trace` otherwise. -/
def vsmc (fresh : ObjId) (targets forwards reverses : List (Node L)) (lossFn : Out L → Except Err L.Lo)
    (transf : Option (Trace L → Kw L → Except Err (Trace L))) (resample : Option (ResamplerFn L)) : Except Err (Node L) :=
  match targets with
  | [] => .error .index
  | q :: ps => (forwards.zip (reverses.zip ps)).zipIdx.foldlM (vsmcStep fresh forwards.length lossFn transf resample) q

/-- `_eval_detached` (experiments/annealing/objectives.py:36-48). `detachD` rebuilds a distribution with detached
parameters, `weq` is `torch.equal` on log probabilities. The provenance of the new variable is not read by anything. -/
def evalDetached (detachD : L.D → L.D) (weq : L.W → L.W → Bool) (rv : RV L) : Except Err (RV L) :=
  match rv.kind with
  | .proper d =>
    let rv' := RV.mk' (detachD d) rv.value rv.prov rv.reparam
    if weq rv.logProb rv'.logProb then .ok rv' else .error .assertion
  | _ => .error .value

/-- `stl_trace(q_out_trace, ix)` (experiments/annealing/objectives.py:51-59), called through `dispatch` with the `ix` of the
Propose (combinators/inference.py:386). `exclude_nodes` is a string, so that `k in exclude_nodes` is a substring test
(combinators/trace/utils.py:231). -/
def stlTrace (detachD : L.D → L.D) (weq : L.W → L.W → Bool) (t : Trace L) (kw : Kw L) : Except Err (Trace L) :=
  match kw.ix with
  | .int ix => do
    let name := "g" ++ toString (ix + 1)
    let new ← copytraces .noOverlaps (fun k => pyStrIn k name) [t]
    match t.get? name with
    | none => .error .key
    | some rv => do
      let rv' ← evalDetached detachD weq rv
      return new.insert name rv'
  | _ => .error .type

/-- `out.name` for a debugging entry: AttributeError when absent (combinators/out.py:23-27). -/
def subOut (o : Out L) (name : String) : Option (Out L) := getL o.subs name

theorem sizeOf_getL_lt (l : List (String × Out L)) (name : String) (o : Out L) (h : getL l name = some o) :
    sizeOf o < sizeOf l := by
  induction l with
  | nil => simp [getL] at h
  | cons e l ih =>
    obtain ⟨k, x⟩ := e
    simp only [getL] at h
    split at h
    · cases h
      simp only [List.cons.sizeOf_spec, Prod.mk.sizeOf_spec]
      omega
    · have := ih h
      simp only [List.cons.sizeOf_spec]
      omega

theorem sizeOf_subOut_lt (o s : Out L) (name : String) (h : subOut o name = some s) : sizeOf s < sizeOf o := by
  cases o with
  | mk t w out ty i l m p subs =>
    have := sizeOf_getL_lt subs name s h
    simp only [Out.mk.sizeOf_spec]
    omega

/-- `t in [Compose, Propose, Resample]` (experiments/annealing/utils.py:30-32). -/
def isInfType : OutTy → Bool
  | .compose | .propose | .resample => true
  | _ => false

/-- `traverse_proposals(fn, out, memo)` (experiments/annealing/utils.py:24-43). `fn` may raise. `Condition` is not defined
there: NameError when the type is not one of the four combinators. -/
def traverseProposals {α : Type} (fn : Out L → Except Err α) (out : Out L) (memo : List α) : Except Err (List α) :=
  match out.type with
  | .propose =>
    match fn out with
    | .error e => .error e
    | .ok a =>
      match h : subOut out "q_out" with
      | none => .error .attribute
      | some q => traverseProposals fn q (a :: memo)
  | .extend => .error .value
  | .compose =>
    match h1 : subOut out "q1_out" with
    | none => .error .attribute
    | some q1 =>
      match h2 : subOut out "q2_out" with
      | none => .error .attribute
      | some q2 =>
        if !(isInfType q1.type ^^ isInfType q2.type) then .ok memo
        else if isInfType q1.type then traverseProposals fn q1 memo
        else traverseProposals fn q2 memo
  | .resample =>
    match h : subOut out "q_out" with
    | none => .error .attribute
    | some q => traverseProposals fn q memo
  | .program _ => .error .name
termination_by sizeOf out
decreasing_by
  all_goals first
    | exact sizeOf_subOut_lt _ _ _ h
    | exact sizeOf_subOut_lt _ _ _ h1
    | exact sizeOf_subOut_lt _ _ _ h2

/-- One row of `get_stats` (experiments/annealing/utils.py:47-53): log weight, loss, proposal and target trace, the result. -/
structure StatRow (L : Lang) where
  lw : LW L.W
  loss : L.Lo
  proposalTrace : Trace L
  targetTrace : Trace L
  out : Out L

/-- `fn` of `get_stats`: a float has no `.detach`, and the result must have a loss and the entries of a Propose. Detaching
losses is not modelled. -/
def statRow (out : Out L) : Except Err (StatRow L) :=
  match detachLW out.logWeight, out.loss, out.px with
  | .ok lw, some l, some px => .ok { lw, loss := l, proposalTrace := px.proposalTrace, targetTrace := px.targetTrace, out }
  | _, _, _ => .error .attribute

/-- `get_stats(out)` as its rows (experiments/annealing/utils.py:46-62): unpacking `zip(*ret)` into five raises ValueError
when there is no row. -/
def getStats (out : Out L) : Except Err (List (StatRow L)) :=
  match traverseProposals statRow out [] with
  | .error e => .error e
  | .ok [] => .error .value
  | .ok rows => .ok rows

end Verif
