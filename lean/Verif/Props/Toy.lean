import Mathlib.Algebra.Group.Prod
import Mathlib.Algebra.Group.Int.Defs
import Verif.Model.Inference
/-
A concrete `Lang` for the examples: tensors are integers with a tangent (so that detaching is visible).
-/
namespace Verif.Toy

/-- Values and weights are (number, tangent); the distribution `d` has `log_prob(v) = d * v`. -/
@[reducible] def L : Lang where
  V := Int × Int
  W := Int × Int
  D := Int
  U := Unit
  Lo := Int
  grpW := inferInstance
  monLo := inferInstance
  logProb d v := (d * v.1, d * v.2)
  detachV v := (v.1, 0)
  detachW w := (w.1, 0)
  veq a b := a.1 == b.1
  isZero w := w == (0, 0)
  isZero_spec w h := by
    have : w = (0, 0) := by simpa using h
    exact this

/-- `def model(self, trace, c)` -/
def sig : ArgSpec := { args := ["self", "trace", "c"], varargs := false, kwonly := [], varkw := false }

/-- A world without conditioning traces and with a fresh store. -/
def w0 : World L := { cond := fun _ => none, store := Store.init }

/-- Samples "x", then observes "y" (whose value depends on x) only if x is positive. -/
def obsModel : ProgSpec L where
  name := "Obs"
  sig := sig
  debugAttr := none
  model _ _ := .variable "x" 2 none none true fun x =>
    if 0 < x.1 then .variable "y" 3 (some (x.1 + 1, x.2)) none true fun _ => .ret (.tensor x)
    else .ret (.tensor x)

/-- Samples "x" from distribution `d` and returns it. -/
def latent (name : String) (d : Int) : ProgSpec L where
  name := "Latent"
  sig := sig
  debugAttr := none
  model _ _ := .variable name d none none true fun x => .ret (.dict [(name, .tensor x)])

/-- A trace with one latent variable. -/
def one (name : String) (v : Int) : Trace L := Dict.empty.insert name (RV.mk' (L := L) 1 (v, 0) .sampled true)

end Verif.Toy
