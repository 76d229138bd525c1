import Verif.Spec.Combinators
import Verif.Spec.Program
/-
What nests of combinators should do with losses, indices, keyword arguments and debugging.
-/
namespace Verif.Spec
variable {L : Lang}

/-- The combinators on the proposal spine of a nest, outermost first: Compose continues in q1, Propose and Resample in q,
Extend in p. -/
def spine : Node L → List (Attrs L × Node L)
  | .prog _ _ => []
  | .resample a r q => (a, .resample a r q) :: spine q
  | .extend a p f => (a, .extend a p f) :: spine p
  | .compose a q2 q1 => (a, .compose a q2 q1) :: spine q1
  | .propose a tr nr p q => (a, .propose a tr nr p q) :: spine q

/-- A result as the loss function sees it: no loss and no debugging entries yet. -/
def beforeLoss (o : Out L) : Out L :=
  Out.mk o.trace o.logWeight o.output o.type o.ix none o.marginal o.px []

/-- The right fold of the loss functions over the results along a spine (outermost first): the innermost starts from its
own loss0. `none`: no loss (a Program). -/
def LossAlong : List (Attrs L × Out L) → Option L.Lo → Prop
  | [], l => l = none
  | (a, o) :: rest, l => ∃ l' x, LossAlong rest l' ∧
      a.lossFn (beforeLoss o) (match l' with | some y => y | none => a.loss0) = .ok x ∧ l = some x

/-- The first index, innermost first, that is not None; the caller's if there is none. -/
def innermost : List (PyVal L) → PyVal L → PyVal L
  | [], caller => caller
  | .none :: l, caller => innermost l caller
  | x :: _, _ => x

/-- Two nests that differ only in the models of their programs, which agree on the keyword arguments that a call with
`kw` should give them: those of the call that the signature accepts, with `ix` from the nearest enclosing combinator that
has one. `l`: the indices of the enclosing combinators, innermost first. -/
def AgreeOn (kw : Kw L) : List (PyVal L) → Node L → Node L → Prop
  | l, .prog i s, .prog j s' => i = j ∧ s' = { s with model := s'.model } ∧
      ∀ c, s.model c (receivedKwargs s.sig { kw with ix := innermost l kw.ix }) =
        s'.model c (receivedKwargs s.sig { kw with ix := innermost l kw.ix })
  | l, .resample a r q, .resample a' r' q' => a = a' ∧ r = r' ∧ AgreeOn kw (a.ix :: l) q q'
  | l, .extend a p f, .extend a' p' f' => a = a' ∧ AgreeOn kw (a.ix :: l) p p' ∧ AgreeOn kw (a.ix :: l) f f'
  | l, .compose a q2 q1, .compose a' q2' q1' =>
      a = a' ∧ AgreeOn kw (a.ix :: l) q2 q2' ∧ AgreeOn kw (a.ix :: l) q1 q1'
  | l, .propose a tr nr p q, .propose a' tr' nr' p' q' =>
      a = a' ∧ tr = tr' ∧ nr = nr' ∧ AgreeOn kw (a.ix :: l) p p' ∧ AgreeOn kw (a.ix :: l) q q'
  | _, _, _ => False

/-- Change the `_debug` flags of all combinator objects of a nest. -/
def setDebug (g : ObjId → Bool) : Node L → Node L
  | .prog i s => .prog i s
  | .resample a r q => .resample { a with debug := g a.id } r (setDebug g q)
  | .extend a p f => .extend { a with debug := g a.id } (setDebug g p) (setDebug g f)
  | .compose a q2 q1 => .compose { a with debug := g a.id } (setDebug g q2) (setDebug g q1)
  | .propose a tr nr p q => .propose { a with debug := g a.id } tr nr (setDebug g p) (setDebug g q)

/-- A result without what debugging adds: the sub-results, and the forward trace. -/
def noDebug (o : Out L) : Out L :=
  Out.mk o.trace o.logWeight o.output o.type o.ix o.loss o.marginal
    (o.px.map fun x => { x with forwardTrace := none }) []

/-- The user's functions do not look at debugging. -/
def DebugBlind : Node L → Prop
  | .prog _ s => ∀ c kw b, s.model c (receivedKwargs s.sig { kw with debug := b }) = s.model c (receivedKwargs s.sig kw)
  | .resample a _ q => (∀ o o' l, noDebug o = noDebug o' → a.lossFn o l = a.lossFn o' l) ∧ DebugBlind q
  | .extend a p f => (∀ o o' l, noDebug o = noDebug o' → a.lossFn o l = a.lossFn o' l) ∧ DebugBlind p ∧ DebugBlind f
  | .compose a q2 q1 =>
      (∀ o o' l, noDebug o = noDebug o' → a.lossFn o l = a.lossFn o' l) ∧ DebugBlind q2 ∧ DebugBlind q1
  | .propose a tr _ p q => (∀ o o' l, noDebug o = noDebug o' → a.lossFn o l = a.lossFn o' l) ∧
      (∀ t kw b, tr t { kw with debug := b } = tr t kw) ∧ DebugBlind p ∧ DebugBlind q

end Verif.Spec
