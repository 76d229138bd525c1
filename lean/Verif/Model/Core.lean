import Mathlib.Algebra.Group.Defs
import Verif.Model.Dict
/-
Values, random variables and traces, and the pure functions of combinators/trace/utils.py.
-/
namespace Verif

/-- Exceptions the code can raise, by Python class (messages are not modelled). -/
inductive Err where
  | assertion | attribute | type | value | key | runtime | name | notImplemented | index | other (n : Nat)
deriving DecidableEq, Repr

/-- probtorch.stochastic.Provenance, as used in combinators/trace/utils.py:61,65 and combinators/inference.py:208. -/
inductive Prov where
  | sampled | observed | reused
deriving DecidableEq, Repr

/-- What the code takes from torch and torch.distributions, as a parameter of the model.
* `V`  tensor objects (values of random variables, inputs, outputs);
* `W`  log-probability and log-weight tensors of one fixed shape (no broadcasting), an additive group;
* `D`  torch distributions, with `logProb d v` for `d.log_prob(v)` reduced to the weight's shape;
* `U`  results of `torch.rand`;
* `Lo` losses.
`detachV`, `detachW` are `Tensor.detach`; `veq` is `torch.equal`; `isZero w` is "`assert w == 0.0` passes" on a tensor. -/
structure Lang where
  V : Type
  W : Type
  D : Type
  U : Type
  Lo : Type
  grpW : AddCommGroup W
  monLo : AddCommMonoid Lo
  logProb : D → V → W
  detachV : V → V
  detachW : W → W
  veq : V → V → Bool
  isZero : W → Bool
  isZero_spec : ∀ w, isZero w = true → w = grpW.zero

attribute [instance] Lang.grpW Lang.monLo

/-- Python values that reach the combinators as inputs, outputs and keyword arguments.
`opaque` stands for objects the code only passes around. -/
inductive PyVal (L : Lang) where
  | none
  | bool (b : Bool)
  | int (i : Int)
  | str (s : String)
  | tensor (v : L.V)
  | weakref (v : L.V)
  | tuple (xs : List (PyVal L))
  | dict (kvs : List (String × PyVal L))
  | opaque (n : Nat)

/-- The class of a probtorch random variable together with what its log density is computed from:
`RandomVariable` (has `.dist`), `ImproperRandomVariable` (has `.log_density_fn`), or another subclass
(combinators/trace/utils.py:256,263,267; combinators/resamplers.py:91,99,106). -/
inductive RVKind (L : Lang) where
  | proper (d : L.D)
  | improper (f : L.V → L.W)
  | other

/-- A probtorch `_RandomVariable`: the attributes that /repo reads. -/
structure RV (L : Lang) where
  kind : RVKind L
  value : L.V
  logProb : L.W
  prov : Prov
  reparam : Bool
  resamplable : Bool

/-- probtorch `Trace._nodes`. The `_cond_trace` attribute is passed separately. -/
abbrev Trace (L : Lang) := Dict (RV L)

/-- A log weight: `log_joint` starts from the Python float `0.0`, which has no `.detach`, and becomes a tensor with
the first summand (probtorch `Trace.log_joint`; combinators/inference.py:206,416,423). -/
inductive LW (W : Type) where
  | float0
  | tensor (w : W)

namespace LW
variable {W : Type} [AddCommGroup W]
/-- The number(s) denoted. -/
def val : LW W → W
  | float0 => 0
  | tensor w => w
/-- Python `a + b` on floats `0.0` and tensors. -/
def add : LW W → LW W → LW W
  | float0, b => b
  | a, float0 => a
  | tensor a, tensor b => tensor (a + b)
/-- Python `a - b`. -/
def sub : LW W → LW W → LW W
  | float0, float0 => float0
  | float0, tensor b => tensor (-b)
  | tensor a, float0 => tensor a
  | tensor a, tensor b => tensor (a - b)
end LW

section
variable {L : Lang}

/-- `RandomVariable(dist=d, value=v, provenance=.., reparameterized=..)` without a `log_prob` argument:
`rv.log_prob = dist.log_prob(value)` (experiments/annealing/models.py:108-113). New variables are resamplable
(combinators/resamplers.py:83 reads the flag; probtorch's default). -/
def RV.mk' (d : L.D) (v : L.V) (p : Prov) (rep : Bool) : RV L :=
  { kind := .proper d, value := v, logProb := L.logProb d v, prov := p, reparam := rep, resamplable := true }

/-- `ImproperRandomVariable(log_density_fn=f, value=v, provenance=..)`
(experiments/annealing/models.py:77-81, combinators/trace/utils.py:264). -/
def RV.mkImproper (f : L.V → L.W) (v : L.V) (p : Prov) : RV L :=
  { kind := .improper f, value := v, logProb := f v, prov := p, reparam := true, resamplable := true }

/-- `lambda rv: isinstance(rv, _RandomVariable) and rv.provenance != Provenance.OBSERVED`
(combinators/program.py:89-92, combinators/inference.py:377-380). Every stored node is a `_RandomVariable`. -/
def RV.isTau (rv : RV L) : Bool := rv.prov != .observed

/-- `{k for k, rv in trace.items() if tau_filter(rv)}`, as a membership test
(combinators/program.py:93, combinators/inference.py:381-382). -/
def tauAddrs (t : Trace L) (k : String) : Bool :=
  match t.get? k with
  | some rv => rv.isTau
  | none => false

/-- probtorch `Trace.log_joint(nodes=...)`: `log_prob = 0.0; for n in nodes: if n in self._nodes: log_prob += ...`.
`nodes` is a membership test. Simplified: the reparameterization argument has no effect, the node order is the
trace's (a Python set has no fixed order; addition is commutative), no broadcasting.
Called in combinators/program.py:100, combinators/inference.py:220,387. -/
def logJoint (t : Trace L) (nodes : String → Bool) : LW L.W :=
  (t.entries.filter (fun e => nodes e.1)).foldl (fun acc e => acc.add (.tensor e.2.logProb)) .float0

/-- combinators/trace/utils.py:214-218 -/
inductive WriteMode where
  | lastWriteWins | firstWriteWins | noOverlaps
deriving DecidableEq, Repr

/-- Loop body of `copytraces` for one item `k, rv` (combinators/trace/utils.py:230-243). -/
def copyStep (mode : WriteMode) (exclude : String → Bool) (new : Trace L) (e : String × RV L) :
    Except Err (Trace L) :=
  if exclude e.1 then .ok new
  else if new.contains e.1 then
    match mode with
    | .lastWriteWins => .ok ((new.insert e.1 e.2).insert e.1 e.2)
    | .firstWriteWins => .ok new
    | .noOverlaps => .error .runtime
  else .ok (new.insert e.1 e.2)

/-- `copytraces(*traces, exclude_nodes=exclude, mode=mode)` (combinators/trace/utils.py:221-244).
`exclude` is the membership test `k in exclude_nodes`. -/
def copytraces (mode : WriteMode) (exclude : String → Bool) (traces : List (Trace L)) : Except Err (Trace L) :=
  traces.foldlM (fun new tr => tr.entries.foldlM (copyStep mode exclude) new) Dict.empty

/-- `copytraces(t)` with default arguments. -/
def copytrace1 (t : Trace L) : Except Err (Trace L) := copytraces .noOverlaps (fun _ => false) [t]

/-- `rerun_rv` (combinators/trace/utils.py:254-270). -/
def rerunRV (rv : RV L) : Except Err (RV L) :=
  match rv.kind with
  | .proper d => .ok (RV.mk' d (L.detachV rv.value) rv.prov rv.reparam)
  | .improper f => .ok (RV.mkImproper f (L.detachV rv.value) rv.prov)
  | .other => .error .notImplemented

/-- `rerun_with_detached_values` (combinators/trace/utils.py:247-275). -/
def rerunDetached (t : Trace L) : Except Err (Trace L) :=
  t.entries.foldlM (fun new e => do let rv ← rerunRV e.2; .ok (new.insert e.1 rv)) Dict.empty

/-- `trace_eq` (combinators/trace/utils.py:210-211). -/
def traceEq (t0 t1 : Trace L) (name : String) : Bool :=
  match t0.get? name, t1.get? name with
  | some a, some b => L.veq a.value b.value
  | _, _ => false

/-- The `nodes` argument of `valeq`: `None`, a dict (only its keys are used), or a list of pairs of names. -/
inductive NodesArg where
  | none
  | dict (names : List String)
  | pairs (ps : List (String × String))

/-- `valeq` (combinators/trace/utils.py:81-132). `check_exist` is accepted and ignored, as in the code.
The two `raise Exception` are `Err.other 1` (missing names) and `Err.other 2` (different values). An empty list of pairs
is used as the (empty) collection of names. -/
def valeq (t1 t2 : Trace L) (nodes : NodesArg) (_checkExist strict : Bool) : Except Err Bool :=
  let finish (names : List String) : Except Err Bool :=
    if !(names.all (fun n => t1.contains n && t2.contains n)) then .error (.other 1)
    else if !(names.filter (fun n => !traceEq t1 t2 n)).isEmpty then .error (.other 2)
    else .ok true
  match nodes with
  | .none =>
    if strict then finish (t1.keys ++ t2.keys.filter (fun k => !t1.contains k))
    else finish (t1.keys.filter (fun k => t2.contains k))
  | .pairs [] => finish []
  | .pairs (_ :: _) => .error .notImplemented
  | .dict names => finish names

end
end Verif
