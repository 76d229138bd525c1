import Verif.Model.Program
import Verif.Spec.Trace
/-
Specifications for running programs.
-/
namespace Verif.Spec
variable {L : Lang}

/-- `RetD m ds a`: when the draws of `m` are, in order, the distributions and values `ds` (and `torch.rand` is not
used), `m` returns `a`. -/
def RetD {α : Type} : Comp L α → List (L.D × Bool × L.V) → α → Prop
  | .ret a, ds, r => ds = [] ∧ a = r
  | .draw d b k, ds, r => ∃ v ds', ds = (d, b, v) :: ds' ∧ RetD (k v) ds' r
  | .rand _, _, _ => False

/-- Models that touch their trace only through `trace.variable`, without naming a provenance, and sample nothing
outside it. They may branch on values and use the store. -/
def Plain : MTree L → Prop
  | .ret _ => True
  | .raise _ => True
  | .variable _ _ _ prov _ k => prov = none ∧ ∀ v, Plain (k v)
  | .inject _ _ _ => False
  | .getCond _ => False
  | .getTrace _ => False
  | .storeGet _ k => ∀ v, Plain (k v)
  | .storeSet _ _ k => Plain k
  | .sampleFree _ _ _ => False

/-- One `trace.variable` call of a model and the value it got back. -/
structure Req (L : Lang) where
  name : String
  d : L.D
  given : Option L.V
  reparam : Bool
  answer : L.V

/-- `Steps m rs o`: the model body `m`, receiving the answers in `rs`, makes exactly the calls `rs` and returns `o`. -/
def Steps : MTree L → List (Req L) → PyVal L → Prop
  | .ret o, rs, o' => rs = [] ∧ o = o'
  | .variable n d value _ rep k, rs, o =>
    ∃ r rs', rs = r :: rs' ∧ r.name = n ∧ r.d = d ∧ r.given = value ∧ r.reparam = rep ∧ Steps (k r.answer) rs' o
  | .storeGet _ k, rs, o => ∃ v, Steps (k v) rs o
  | .storeSet _ _ k, rs, o => Steps k rs o
  | _, _, _ => False

/-- The variable that a conditioning trace (or its absence) holds under a name. -/
def held (cond : Option (Trace L)) (name : String) : Option (RV L) :=
  match cond with
  | some c => c.get? name
  | none => none

/-- The call got the right value: the given one, else the one held by the conditioning trace. -/
def Answered (cond : Option (Trace L)) (r : Req L) : Prop :=
  match r.given with
  | some v => r.answer = v
  | none => ∀ rv, held cond r.name = some rv → r.answer = rv.value

/-- The provenance it should be recorded with. -/
def expectedProv (cond : Option (Trace L)) (r : Req L) : Prov :=
  if r.given.isSome then .observed else if (held cond r.name).isSome then .reused else .sampled

/-- The trace entry it should leave. -/
def expectedEntry (cond : Option (Trace L)) (r : Req L) : String × RV L :=
  (r.name, { kind := .proper r.d, value := r.answer, logProb := L.logProb r.d r.answer,
             prov := expectedProv cond r, reparam := r.reparam, resamplable := true })

/-- The draws that the calls should have used: one for each call without a value from elsewhere. -/
def expectedDraws (cond : Option (Trace L)) (rs : List (Req L)) : List (L.D × Bool × L.V) :=
  (rs.filter (fun r => !r.given.isSome && !(held cond r.name).isSome)).map (fun r => (r.d, r.reparam, r.answer))

/-- The keyword arguments a call with `kw` offers to a program. -/
def offeredKwargs (kw : Kw L) : List (String × PyVal L) :=
  [("sample_dims", kw.sampleDims), ("batch_dim", kw.batchDim), ("reparameterized", kw.reparam),
    ("_debug", .bool kw.debug), ("ix", kw.ix)] ++ kw.shared

/-- Those that the model's signature can take by name. -/
def receivedKwargs (s : ArgSpec) (kw : Kw L) : List (String × PyVal L) :=
  (offeredKwargs kw).filter (fun e => decide (s.varkw = true ∨ e.1 ∈ s.kwonly ∨ e.1 ∈ s.args))

/-- Equal up to provenance. -/
def SameUpToProv (a b : RV L) : Prop := { a with prov := b.prov } = b

/-- The largest class of models for which replaying makes sense: as `Plain`, but a given value may come with any
provenance. -/
def Replayable : MTree L → Prop
  | .ret _ => True
  | .raise _ => True
  | .variable _ _ _ _ _ k => ∀ v, Replayable (k v)
  | .inject _ _ _ => False
  | .getCond _ => False
  | .getTrace _ => False
  | .storeGet _ k => ∀ v, Replayable (k v)
  | .storeSet _ _ k => Replayable k
  | .sampleFree _ _ _ => False

end Verif.Spec
