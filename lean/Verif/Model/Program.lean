import Verif.Model.Store
/-
combinators/program.py
-/
namespace Verif
variable {L : Lang}

/-- What `inspect.getfullargspec` reports about a callable (combinators/program.py:117). -/
structure ArgSpec where
  args : List String
  varargs : Bool
  kwonly : List String
  varkw : Bool

/-- `check_passable_kwarg` (combinators/program.py:115-122). -/
def checkPassable (name : String) (s : ArgSpec) : Bool :=
  s.varkw || s.kwonly.contains name || s.args.contains name

/-- `kwargs_for` (combinators/program.py:128-136). -/
def kwargsFor (s : ArgSpec) (nxt prev : List (String × PyVal L)) : List (String × PyVal L) :=
  nxt.filter (fun e => checkPassable e.1 s && !(keysL prev).contains e.1)

/-- What `dispatch` inspects: a function; an `nn.Module` (its `__call__` and `forward`); a `Program` (also `model`)
(combinators/program.py:138-152). -/
inductive Callable where
  | function (s : ArgSpec)
  | nnModule (call forward : ArgSpec)
  | program (call forward model : ArgSpec)

/-- The keyword arguments that `dispatch` passes on (combinators/program.py:125-154). -/
def dispatchKwargs (f : Callable) (kwargs : List (String × PyVal L)) : List (String × PyVal L) :=
  match f with
  | .function s => kwargsFor s kwargs []
  | .nnModule call forward =>
    let d := kwargsFor call kwargs []
    kwargsFor forward kwargs d ++ d
  | .program call forward model =>
    let d := kwargsFor call kwargs []
    let d := kwargsFor forward kwargs d ++ d
    kwargsFor model kwargs d ++ d

/-- `torch.nn.Module.__call__`: `(*args, **kwargs)`. -/
def moduleCallSpec : ArgSpec := { args := ["self"], varargs := true, kwonly := [], varkw := true }

/-- `Program.forward` (combinators/program.py:60-67). -/
def programForwardSpec : ArgSpec :=
  { args := ["self"], varargs := true, kwonly := ["sample_dims", "batch_dim", "reparameterized"], varkw := true }

/-- `__call__` of the four combinators (combinators/inference.py:95-104,178-187,264-273,350-359). -/
def infCallSpec : ArgSpec :=
  { args := ["self", "c", "sample_dims", "batch_dim", "_debug", "reparameterized", "ix"], varargs := false,
    kwonly := [], varkw := true }

/-- Keyword arguments of a call to a combinator: the named ones and `**shared_kwargs`. `None` is `PyVal.none`. -/
structure Kw (L : Lang) where
  sampleDims : PyVal L := .none
  batchDim : PyVal L := .none
  reparam : PyVal L := .bool true
  debug : Bool := false
  ix : PyVal L := .none
  shared : List (String × PyVal L) := []

/-- The call's keyword arguments as the dict `{**inf_kwargs, **shared_kwargs}`
(combinators/inference.py:114-116,197-203,283-287,369-374). -/
def Kw.toList (kw : Kw L) : List (String × PyVal L) :=
  [("_debug", .bool kw.debug), ("ix", kw.ix), ("sample_dims", kw.sampleDims), ("batch_dim", kw.batchDim),
    ("reparameterized", kw.reparam)] ++ kw.shared

/-- The callee's view after some keyword arguments have been filtered out: a missing named one takes the default
(combinators/inference.py:98-103). -/
def Kw.restrict (kw : Kw L) (keep : String → Bool) : Kw L where
  sampleDims := if keep "sample_dims" then kw.sampleDims else .none
  batchDim := if keep "batch_dim" then kw.batchDim else .none
  reparam := if keep "reparameterized" then kw.reparam else .bool true
  debug := if keep "_debug" then kw.debug else false
  ix := if keep "ix" then kw.ix else .none
  shared := kw.shared.filter (fun e => keep e.1)

/-- `dispatch(fn, c, **inf_kwargs, **shared_kwargs)` as seen by `fn`. -/
def dispatchKw (f : Callable) (kw : Kw L) : Kw L :=
  kw.restrict (fun k => (keysL (dispatchKwargs f kw.toList)).contains k)

/-- A model function as the tree of its interactions with its trace, the random generator and the global store.
It may branch on everything it has seen, and raise anywhere.
* `variable name d value prov reparam k`: `trace.variable(dist, value=.., provenance=.., name=..)` (probtorch), see
  `runModel`;
* `inject name rv k`: `trace._inject(rv, name=name)` (experiments/annealing/models.py:86,118);
* `getCond k`: reading `trace._cond_trace` (experiments/annealing/models.py:74,103);
* `getTrace k`: reading the trace built so far;
* `storeGet`, `storeSet`: `global_store[..]`;
* `sampleFree d reparam k`: sampling outside the trace. -/
inductive MTree (L : Lang) where
  | ret (out : PyVal L)
  | raise (e : Err)
  | variable (name : String) (d : L.D) (value : Option L.V) (prov : Option Prov) (reparam : Bool)
      (k : L.V → MTree L)
  | inject (name : String) (rv : RV L) (k : MTree L)
  | getCond (k : Option (Trace L) → MTree L)
  | getTrace (k : Trace L → MTree L)
  | storeGet (key : String) (k : PyVal L → MTree L)
  | storeSet (key : String) (v : PyVal L) (k : MTree L)
  | sampleFree (d : L.D) (reparam : Bool) (k : L.V → MTree L)

/-- The value and provenance that `Trace.variable` records without sampling, if any (probtorch, assumed, see DESIGN.md):
a given value is OBSERVED unless a provenance is given; otherwise the value comes from the conditioning trace (REUSED)
when the name is there. -/
def variableValue (cond : Option (Trace L)) (name : String) (value : Option L.V) (prov : Option Prov) :
    Option (L.V × Prov) :=
  match value with
  | some v => some (v, prov.getD .observed)
  | none =>
    match cond with
    | some c => (c.get? name).map fun rv => (rv.value, .reused)
    | none => none

/-- Running a model body on a trace. In `Trace.variable` (probtorch, assumed, see DESIGN.md) a duplicate name raises, and
a value that is neither given nor in the conditioning trace is sampled (SAMPLED). -/
def runModel (cond : Option (Trace L)) : MTree L → Trace L → Exec L (PyVal L × Trace L)
  | .ret o, t => Exec.pure (o, t)
  | .raise e, _ => Exec.throw e
  | .variable name d value prov reparam k, t =>
    if t.contains name then Exec.throw .value
    else
      match variableValue cond name value prov with
      | some vp => runModel cond (k vp.1) (t.insert name (RV.mk' d vp.1 vp.2 reparam))
      | none => fun w => .draw d reparam fun v =>
          runModel cond (k v) (t.insert name (RV.mk' d v .sampled reparam)) w
  | .inject name rv k, t => runModel cond k (t.insert name rv)
  | .getCond k, t => runModel cond (k cond) t
  | .getTrace k, t => runModel cond (k t) t
  | .storeGet key k, t => Exec.bind (Exec.onStore (·.getItem key)) fun v => runModel cond (k v) t
  | .storeSet key v k, t => Exec.bind (Exec.onStore (·.setItem key v)) fun _ => runModel cond k t
  | .sampleFree d reparam k, t => fun w => .draw d reparam fun v => runModel cond (k v) t w

/-- A `Program` object: its class name, the signature of `model`, whether the object happens to carry a `_debug`
attribute (Program itself defines none, combinators/program.py:49-54), and `model` as a function of the input and the
keyword arguments it is given. -/
structure ProgSpec (L : Lang) where
  name : String
  sig : ArgSpec
  debugAttr : Option Bool
  model : PyVal L → List (String × PyVal L) → MTree L

/-- Binding `self.model(trace, c, **kwargs)`: Python raises TypeError when the positional arguments do not fit or a
keyword repeats one of them. (A missing required argument is left to `model`, which may raise.) -/
def bindModel (s : ArgSpec) (kwargs : List (String × PyVal L)) : Except Err Unit :=
  if s.args.length < 3 && !s.varargs then .error .type
  else if kwargs.any (fun e => (s.args.take 3).contains e.1) then .error .type
  else .ok ()

/-- The addresses whose log densities make up the weight, `rho - (tau - tau')` (combinators/program.py:88-101). -/
def weightNodes (cond : Option (Trace L)) (t : Trace L) (k : String) : Bool :=
  let rho := t.contains k
  let tau := tauAddrs t k
  let tau' := match cond with
    | some c => tauAddrs c k
    | none => false
  rho && !(tau && !tau')

/-- `Program.forward(c, sample_dims=.., batch_dim=.., reparameterized=.., **kwargs)` up to the construction of `Out`
(combinators/program.py:60-112): the trace, the log weight and the output. `cond` is `self._cond_trace`. -/
def programForward (s : ProgSpec L) (cond : Option (Trace L)) (c : PyVal L)
    (sampleDims batchDim reparam : PyVal L) (kwargs : List (String × PyVal L)) :
    Exec L (Trace L × LW L.W × PyVal L) := do
  let allKwargs := [("sample_dims", sampleDims), ("batch_dim", batchDim), ("reparameterized", reparam)] ++ kwargs
  let passed := allKwargs.filter (fun e => checkPassable e.1 s.sig)
  Exec.lift (bindModel s.sig passed)
  let (out, t) ← runModel cond (s.model c passed) Dict.empty
  return (t, logJoint t (weightNodes cond t), out)

end Verif
