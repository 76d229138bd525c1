import Verif.Spec.Combinators
/-
When two objects may be used for one another.
-/
namespace Verif.Spec
variable {L : Lang}

/-- The results hold the same variables (whatever their order), log weight and output. -/
def SameResult (o o' : Out L) : Prop :=
  (∀ k, o.trace.get? k = o'.trace.get? k) ∧ o.logWeight = o'.logWeight ∧ o.output = o'.output

/-- The same loss, where no loss counts as the default `loss0`. -/
def SameLoss (o o' : Out L) : Prop := o.loss.getD 0 = o'.loss.getD 0

/-- Every run raises. -/
def Fails {α : Type} (m : Comp L (Except Err α × World L)) : Prop := ∀ r, m.Ret r → ∃ e, r.1 = .error e

/-- The two computations make the same draws, and on every outcome either both return results in `R` and leave the same world, or both
raise (from where both can only raise they need not draw the same). -/
inductive Agree {α : Type} (R : α → α → Prop) : Comp L (Except Err α × World L) → Comp L (Except Err α × World L) → Prop
  | ok {o o' w} (h : R o o') : Agree R (.ret (.ok o, w)) (.ret (.ok o', w))
  | fail {m m'} (h : Fails m) (h' : Fails m') : Agree R m m'
  | draw {d b k k'} (h : ∀ v, Agree R (k v) (k' v)) : Agree R (.draw d b k) (.draw d b k')
  | rand {k k'} (h : ∀ u, Agree R (k u) (k' u)) : Agree R (.rand k) (.rand k')

/-- A program that records nothing and returns its input. -/
def IsIdentity (s : ProgSpec L) : Prop := ∀ c kws, s.model c kws = .ret c

end Verif.Spec
