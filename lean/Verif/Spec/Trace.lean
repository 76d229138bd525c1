import Mathlib.Algebra.BigOperators.Group.List.Basic
import Verif.Model.Core
/-
Specifications about traces, independent of the model's functions.
-/
namespace Verif.Spec
variable {L : Lang}

/-- The sum of the log_probs of the variables of `t` selected by `P`. -/
def sumLogProb (t : Trace L) (P : String → RV L → Bool) : L.W :=
  ((t.entries.filter (fun e => P e.1 e.2)).map (fun e => e.2.logProb)).sum

/-- The first entry under `k`. -/
def firstOf {α : Type} (l : List (String × α)) (k : String) : Option α :=
  (l.find? (fun e => e.1 == k)).map (·.2)

/-- The last entry under `k`. -/
def lastOf {α : Type} (l : List (String × α)) (k : String) : Option α := firstOf l.reverse k

/-- All entries of a list of traces, in order. -/
def allEntries (ts : List (Trace L)) : List (String × RV L) := ts.flatMap (·.entries)

/-- What rerunning should make of one variable. -/
def Rerun (rv rv' : RV L) : Prop :=
  rv'.prov = rv.prov ∧ rv'.value = L.detachV rv.value ∧
  match rv.kind with
  | .proper d => rv'.kind = .proper d ∧ rv'.logProb = L.logProb d (L.detachV rv.value) ∧ rv'.reparam = rv.reparam ∧
      rv'.resamplable = true
  | .improper f => rv'.kind = .improper f ∧ rv'.logProb = f (L.detachV rv.value) ∧ rv'.resamplable = true
  | .other => False

end Verif.Spec
