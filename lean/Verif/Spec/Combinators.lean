import Verif.Model.Inference
import Verif.Spec.Trace
import Verif.Spec.Lexical
/-
What each combinator should do with the results of its parts.
-/
namespace Verif.Spec
variable {L : Lang}

/-- A combinator's index if it has one, else the caller's. -/
def nearest (own passed : PyVal L) : PyVal L :=
  match own with
  | .none => passed
  | _ => own

/-- The keyword arguments with which a combinator calls its parts: the caller's, with the nearest index. -/
def subKw (a : Attrs L) (kw : Kw L) : Kw L := { kw with ix := nearest a.ix kw.ix }

/-- Some address is in both traces. -/
def Overlap (a b : Trace L) : Prop := ∃ k, k ∈ a.keys ∧ k ∈ b.keys

/-- `t` has exactly the entries of `a` followed by those of `b`. -/
def IsUnion (t a b : Trace L) : Prop := t.entries = a.entries ++ b.entries

/-- The end of every combinator call: the loss is added to the result (the loss function may raise), from the sub-result's
loss or, when that has none, from loss0; when debugging, the sub-results are added. -/
def finish (a : Attrs L) (kw : Kw L) (out sub : Out L) (subs : List (String × Out L)) : Except Err (Out L) :=
  match a.lossFn out (match sub.loss with | some l => l | none => a.loss0) with
  | .error e => .error e
  | .ok l => .ok ((out.setLoss l).setSubs (if kw.debug = true ∨ a.debug = true then subs else []))

/-- The result of Compose from those of its parts. -/
def ComposeResult (a : Attrs L) (kw : Kw L) (o1 o2 : Out L) (r : Except Err (Out L)) : Prop :=
  (Overlap o1.trace o2.trace ∧ r = .error .assertion) ∨
  (¬ Overlap o1.trace o2.trace ∧ ∃ t lw, IsUnion t o2.trace o1.trace ∧
    lw.val = o1.logWeight.val + o2.logWeight.val ∧ (lw = .float0 ↔ o1.logWeight = .float0 ∧ o2.logWeight = .float0) ∧
    r = finish a kw (Out.mk t lw o2.output .compose (some (nearest a.ix kw.ix)) none none none []) o1
      [("q1_out", o1), ("q2_out", o2)])

/-- The kernel's result is acceptable to Extend: nothing OBSERVED; and without a conditioning trace also nothing REUSED
and a weight of zero. -/
def KernelOK (cond : Option (Trace L)) (o : Out L) : Prop :=
  (∀ k rv, o.trace.get? k = some rv → rv.prov ≠ .observed ∧ (cond = none → rv.prov ≠ .reused)) ∧
  (cond = none → o.logWeight = .float0 ∨ ∃ w, o.logWeight = .tensor w ∧ L.isZero w = true)

/-- The result of Extend from those of its parts. -/
def ExtendResult (a : Attrs L) (kw : Kw L) (cond : Option (Trace L)) (po fo : Out L) (r : Except Err (Out L)) : Prop :=
  ((Overlap po.trace fo.trace ∨ ¬ KernelOK cond fo) ∧ r = .error .assertion) ∨
  (¬ Overlap po.trace fo.trace ∧ KernelOK cond fo ∧ ∃ t lw, IsUnion t po.trace fo.trace ∧
    lw.val = po.logWeight.val + sumLogProb fo.trace (fun _ _ => true) ∧
    (lw = .float0 ↔ po.logWeight = .float0 ∧ fo.trace.entries = []) ∧
    r = finish a kw (Out.mk t lw fo.output .extend (some (nearest a.ix kw.ix)) none
      (some (po.trace.keys, po.output)) none []) po [("p_out", po), ("f_out", fo)])

/-- The proposal's variables that enter the denominator of the importance weight: those OBSERVED in it, and those latent
in both proposal and target. -/
def InDenominator (p : Trace L) (k : String) (rv : RV L) : Bool :=
  match rv.prov, p.get? k with
  | .observed, _ => true
  | _, some rv' => rv'.prov != .observed
  | _, none => false

end Verif.Spec
