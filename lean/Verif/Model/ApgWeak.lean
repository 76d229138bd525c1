import Verif.Model.Apg
/-
Weak references that die: the programs of the amortized Gibbs sampler when a tensor stays alive only through the traces at hand.

`Model/Apg` lets `global_store[k]()` return the tensor of a weak reference whatever has become of it. Here a read succeeds only while a
variable of the trace that the program is building, or of the conditioning trace that it holds as `_cond_trace`
(combinators/program.py:30,77), has that very tensor as its value. Frames further up the stack may hold more, so that this is the least
that is alive.
-/
namespace Verif
variable {L : Lang}

/-- A variable of the trace holds the tensor; `same` is Python's `is` on tensors. -/
def heldBy (same : L.V → L.V → Bool) (t : Trace L) (v : L.V) : Bool := t.entries.any fun e => same v e.2.value

/-- Whether an entry of the store still refers to a tensor: a weak reference needs a variable of the conditioning trace or of the trace
being built that holds it. -/
def refAlive (same : L.V → L.V → Bool) (cond : Option (Trace L)) (t : Trace L) : PyVal L → Bool
  | .weakref v => heldBy same t v || (match cond with | some c => heldBy same c v | none => false)
  | _ => true

/-- A model whose reads of the store (experiments/apgs/models.py:319,328,337,393) raise `e` when the tensor is gone: a dead reference returns
`None`, which is not a tensor that `trace.normal` could use as a location. -/
def weakTree (same : L.V → L.V → Bool) (e : Err) : MTree L → MTree L
  | .ret o => .ret o
  | .raise x => .raise x
  | .variable name d value prov reparam k => .variable name d value prov reparam fun z => weakTree same e (k z)
  | .inject name rv k => .inject name rv (weakTree same e k)
  | .getCond k => .getCond fun c => weakTree same e (k c)
  | .getTrace k => .getTrace fun t => weakTree same e (k t)
  | .storeGet key k => .storeGet key fun r => .getCond fun c => .getTrace fun t =>
      if refAlive same c t r then weakTree same e (k r) else .raise e
  | .storeSet key v k => .storeSet key v (weakTree same e k)
  | .sampleFree d reparam k => .sampleFree d reparam fun z => weakTree same e (k z)

/-- A program (combinators/program.py:49-113) whose model reads references that die. -/
def weakProg (same : L.V → L.V → Bool) (e : Err) (s : ProgSpec L) : ProgSpec L :=
  { s with model := fun c kwargs => weakTree same e (s.model c kwargs) }

/-- The objects of `init_models` (experiments/apgs/models.py:28-74) and `Noop()`, with references that die. -/
def weakObjs (same : L.V → L.V → Bool) (e : Err) (N : ApgNet L) (i0 i1 i2 i3 : ObjId) (f : LW L.W → LW L.W → LW L.W → L.Lo)
    (g : LW L.W → LW L.W → L.W → L.Lo) (r : ResamplerFn L) : ApgObjs L where
  noop := .prog i0 (weakProg same e noopProg)
  coor := .prog i1 (weakProg same e (encCoorProg N))
  digit := .prog i2 (weakProg same e (encDigitProg N))
  dec := .prog i3 (weakProg same e (decProg N))
  lossIs := lossIs f
  lossApg := lossApg g
  resampler := r

/-- A nest of combinators (combinators/inference.py:70-446) whose programs all read references that die. -/
def weakNode (same : L.V → L.V → Bool) (e : Err) : Node L → Node L
  | .prog i s => .prog i (weakProg same e s)
  | .resample a r q => .resample a r (weakNode same e q)
  | .extend a p f => .extend a (weakNode same e p) (weakNode same e f)
  | .compose a q2 q1 => .compose a (weakNode same e q2) (weakNode same e q1)
  | .propose a transf noReruns p q => .propose a transf noReruns (weakNode same e p) (weakNode same e q)

end Verif
