import Verif.Spec.Program
/-
What a model of any kind does, as a list of events: for C02 and C03 without restriction on the model.
-/
namespace Verif.Spec
variable {L : Lang}

/-- One thing that a model did: called `trace.variable` (with a provenance, or none named), put a variable into its trace by
hand, or sampled outside of its trace. -/
inductive Event (L : Lang) where
  | call (r : Req L) (prov : Option Prov)
  | injected (name : String) (rv : RV L)
  | sampled (d : L.D) (reparam : Bool) (v : L.V)

/-- The trace after the event: a call leaves the distribution with the answer, its log_prob, and as provenance REUSED or SAMPLED
according to the conditioning trace, or for a given value the one named (OBSERVED if none is); an injected variable stands under
its name; sampling outside leaves nothing. -/
def Event.after (cond : Option (Trace L)) (t : Trace L) : Event L → Trace L
  | .call r prov => t.insert r.name
      { kind := .proper r.d, value := r.answer, logProb := L.logProb r.d r.answer,
        prov := if r.given.isSome then prov.getD .observed else if (held cond r.name).isSome then .reused else .sampled,
        reparam := r.reparam, resamplable := true }
  | .injected name rv => t.insert name rv
  | .sampled _ _ _ => t

/-- The draw that the event used: none for a call with a given value or a name in the conditioning trace. -/
def Event.draw (cond : Option (Trace L)) : Event L → Option (L.D × Bool × L.V)
  | .call r _ => if r.given.isSome || (held cond r.name).isSome then none else some (r.d, r.reparam, r.answer)
  | .injected _ _ => none
  | .sampled d rep v => some (d, rep, v)

/-- `Does cond t m es o`: the model body `m` with the conditioning trace `cond` and the trace `t` so far does `es`, in this
order, every call getting the right answer (the given value, else that of the conditioning trace) and a name that is
not in the trace yet, and returns `o`. What it reads from the global store is not prescribed. -/
def Does (cond : Option (Trace L)) : Trace L → MTree L → List (Event L) → PyVal L → Prop
  | _, .ret o, es, o' => es = [] ∧ o = o'
  | _, .raise _, _, _ => False
  | t, .variable n d value prov rep k, es, o =>
    t.get? n = none ∧ ∃ v es', es = .call ⟨n, d, value, rep, v⟩ prov :: es' ∧ Answered cond ⟨n, d, value, rep, v⟩ ∧
      Does cond (Event.after cond t (.call ⟨n, d, value, rep, v⟩ prov)) (k v) es' o
  | t, .inject n rv k, es, o => ∃ es', es = .injected n rv :: es' ∧ Does cond (t.insert n rv) k es' o
  | t, .getCond k, es, o => Does cond t (k cond) es o
  | t, .getTrace k, es, o => Does cond t (k t) es o
  | t, .storeGet _ k, es, o => ∃ v, Does cond t (k v) es o
  | t, .storeSet _ _ k, es, o => Does cond t k es o
  | t, .sampleFree d rep k, es, o => ∃ v es', es = .sampled d rep v :: es' ∧ Does cond t (k v) es' o

end Verif.Spec
