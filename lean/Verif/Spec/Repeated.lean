import Verif.Spec.Lexical
import Verif.Spec.Population
/-
Calling combinators several times (C94).
-/
namespace Verif.Spec
open Verif MeasureTheory
open scoped ENNReal
section
variable {L : Lang}

/-- A model body that neither reads nor writes the global store. -/
def Storeless : MTree L → Prop
  | .ret _ => True
  | .raise _ => True
  | .variable _ _ _ _ _ k => ∀ v, Storeless (k v)
  | .inject _ _ k => Storeless k
  | .getCond k => ∀ t, Storeless (k t)
  | .getTrace k => ∀ t, Storeless (k t)
  | .storeGet _ _ => False
  | .storeSet _ _ _ => False
  | .sampleFree _ _ k => ∀ v, Storeless (k v)

/-- All programs of the graph are such. -/
def StorelessNode : Node L → Prop
  | .prog _ s => ∀ c kwargs, Storeless (s.model c kwargs)
  | .resample _ _ q => StorelessNode q
  | .extend _ p f => StorelessNode p ∧ StorelessNode f
  | .compose _ q2 q1 => StorelessNode q1 ∧ StorelessNode q2
  | .propose _ _ _ p q => StorelessNode q ∧ StorelessNode p

/-- The hook that Resample calls does nothing, as for a store whose hooks nobody has replaced. -/
def InertStore (w : World L) : Prop := ∀ t t', w.store.resampleUpdate t t' = (.ok (), w.store)

/-- A call `node(c, **kw)`. -/
structure Call (L : Lang) where
  node : Node L
  c : PyVal L
  kw : Kw L

/-- The call can be made at any time. -/
structure Reusable (C : Call L) : Prop where
  lexical : WellScoped false C.node
  storeless : StorelessNode C.node

/-- Nothing is left behind that concerns the call. -/
structure Clean (C : Call L) (w : World L) : Prop where
  cond : ∀ i ∈ objects C.node, w.cond i = none
  store : InertStore w

/-- `[call() for call in calls]`: the calls one after the other, until one raises. -/
def callAll : List (Call L) → Exec L (List (Out L))
  | [] => Exec.pure []
  | C :: cs => Exec.bind (eval C.node C.c C.kw) fun o => Exec.bind (callAll cs) fun os => Exec.pure (o :: os)

/-- The value of the functions `gs` at the results `os`, multiplied. -/
noncomputable def productOf {α R : Type} [Mul R] [One R] (gs : List (α → R)) (os : List α) : R := (List.zipWith (fun g o => g o) gs os).prod

end

section
variable {n b : ℕ} {X D : Type} [MeasurableSpace X] {μ : Measure X} {lp : D → X → ℝ}

/-- `g` of the result can be integrated over the draws one after the other: what is expected of it is a measurable function of each draw and each offset. (Always so when
there are countably many values and nothing is resampled.) -/
def MeasComp {α : Type} : Comp (PopLang n b X D μ lp) α → (α → ℝ≥0∞) → Prop
  | .ret _, _ => True
  | .draw _ _ k, g => Measurable (fun v : Fin n → Fin b → X => expectT (k v) g) ∧ ∀ v, MeasComp (k v) g
  | .rand k, g => Measurable (fun u : Fin b → Set.Ico (0 : ℝ) 1 => expectT (k u) g) ∧ ∀ u, MeasComp (k u) g

end
end Verif.Spec
