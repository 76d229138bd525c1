import Mathlib.Algebra.Group.Hom.Defs
import Mathlib.Data.List.Forall2
import Verif.Model.Inference
/-
A part of all tensors (say, one batch element), and what it means that code treats this part on its own.
-/
namespace Verif.Spec

/-- A part of tensors: of values, of log weights, of distributions and of random offsets. Losses are related (they may be sums over everything).
Computing log densities and detaching can be done on the part. A weight that passes `assert w == 0.0` does so in the part; `exact` if also
the other way round. -/
structure Part (L L' : Lang) where
  v : L.V → L'.V
  w : L.W →+ L'.W
  d : L.D → L'.D
  u : L.U → L'.U
  lo : L.Lo → L'.Lo → Prop
  exact : Prop
  logProb : ∀ d' x, w (L.logProb d' x) = L'.logProb (d d') (v x)
  detachV : ∀ x, v (L.detachV x) = L'.detachV (v x)
  detachW : ∀ x, w (L.detachW x) = L'.detachW (w x)
  isZero : ∀ x, L.isZero x = true → L'.isZero (w x) = true
  isZero_exact : exact → ∀ x, L'.isZero (w x) = true → L.isZero x = true

namespace Part
variable {L L' : Lang} (h : Part L L')

mutual
/-- The part of a Python value. -/
def py : PyVal L → PyVal L'
  | .none => .none
  | .bool b => .bool b
  | .int i => .int i
  | .str s => .str s
  | .tensor x => .tensor (h.v x)
  | .weakref x => .weakref (h.v x)
  | .tuple xs => .tuple (pys xs)
  | .dict kvs => .dict (pyKvs kvs)
  | .opaque n => .opaque n
def pys : List (PyVal L) → List (PyVal L')
  | [] => []
  | x :: xs => py x :: pys xs
def pyKvs : List (String × PyVal L) → List (String × PyVal L')
  | [] => []
  | (k, x) :: kvs => (k, py x) :: pyKvs kvs
end

/-- The part of keyword arguments. -/
def kw (k : Kw L) : Kw L' where
  sampleDims := h.py k.sampleDims
  batchDim := h.py k.batchDim
  reparam := h.py k.reparam
  debug := k.debug
  ix := h.py k.ix
  shared := h.pyKvs k.shared

/-- The part of a log weight. -/
def lw : LW L.W → LW L'.W
  | .float0 => .float0
  | .tensor x => .tensor (h.w x)

/-- Both or neither. -/
def OptRel {α β : Type} (R : α → β → Prop) : Option α → Option β → Prop
  | none, none => True
  | some a, some b => R a b
  | _, _ => False

/-- Improper variables' densities can be computed on the part. -/
def KindRel : RVKind L → RVKind L' → Prop
  | .proper d, .proper d' => h.d d = d'
  | .improper f, .improper f' => ∀ x, h.w (f x) = f' (h.v x)
  | .other, .other => True
  | _, _ => False

/-- The variable `r'` is the part of `r`. -/
structure RVRel (r : RV L) (r' : RV L') : Prop where
  kind : h.KindRel r.kind r'.kind
  value : h.v r.value = r'.value
  logProb : h.w r.logProb = r'.logProb
  prov : r.prov = r'.prov
  reparam : r.reparam = r'.reparam
  resamplable : r.resamplable = r'.resamplable

/-- The trace `t'` is the part of `t`. -/
def TrRel (t : Trace L) (t' : Trace L') : Prop := List.Forall₂ (fun e e' => e.1 = e'.1 ∧ h.RVRel e.2 e'.2) t.entries t'.entries

/-- The same exception, or related results. -/
def ExEq {α β : Type} (R : α → β → Prop) : Except Err α → Except Err β → Prop
  | .ok a, .ok b => R a b
  | .error e, .error e' => e = e'
  | _, _ => False

/-- If the part is not exact, nothing is said about what happens where a run with the whole tensors ends with an AssertionError. -/
def Escapes {α : Type} (x : Except Err α) : Prop := ¬ h.exact ∧ x = .error .assertion

/-- The same exception or related results, up to `Escapes`. -/
def ExRel {α β : Type} (R : α → β → Prop) (x : Except Err α) (y : Except Err β) : Prop := h.Escapes x ∨ ExEq R x y

/-- The computation `m'` is the part of `m`: it draws from the parts of `m`'s distributions and offsets, and for the parts of the values drawn it
ends with a related result. -/
inductive Sim {α β : Type} (E : α → Prop) (R : α → β → Prop) : Comp L α → Comp L' β → Prop
  | ret (a : α) (b : β) : R a b → Sim E R (.ret a) (.ret b)
  | escape (a : α) (m' : Comp L' β) : E a → Sim E R (.ret a) m'
  | draw (d : L.D) (rep : Bool) (k : L.V → Comp L α) (k' : L'.V → Comp L' β) :
    (∀ x, Sim E R (k x) (k' (h.v x))) → Sim E R (.draw d rep k) (.draw (h.d d) rep k')
  | rand (k : L.U → Comp L α) (k' : L'.U → Comp L' β) : (∀ x, Sim E R (k x) (k' (h.u x))) → Sim E R (.rand k) (.rand k')

/-- Results of hooks. -/
def HookRel {α β : Type} (R : α → β → Prop) (p : Except Err α × Dict (PyVal L)) (p' : Except Err β × Dict (PyVal L')) : Prop :=
  h.Escapes p.1 ∨ ExEq R p.1 p'.1 ∧ p'.2 = p.2.mapVal h.py

/-- The hooks of the store work on the part. -/
structure HooksRel (k : Hooks L) (k' : Hooks L') : Prop where
  preGet : ∀ s key, h.HookRel (fun _ _ => True) (k.preGet s key) (k'.preGet (s.mapVal h.py) key)
  postGet : ∀ s key v, h.HookRel (fun a b => b = h.py a) (k.postGet s key v) (k'.postGet (s.mapVal h.py) key (h.py v))
  preSet : ∀ s key v, h.HookRel (fun _ _ => True) (k.preSet s key v) (k'.preSet (s.mapVal h.py) key (h.py v))
  postSet : ∀ s key v, h.HookRel (fun _ _ => True) (k.postSet s key v) (k'.postSet (s.mapVal h.py) key (h.py v))
  resampleUpdate : ∀ s t t' r r', h.TrRel t t' → h.TrRel r r' →
    h.HookRel (fun _ _ => True) (k.resampleUpdate s t r) (k'.resampleUpdate (s.mapVal h.py) t' r')

/-- The world `w'` is the part of `w`. -/
structure WRel (w : World L) (w' : World L') : Prop where
  cond : ∀ i, OptRel h.TrRel (w.cond i) (w'.cond i)
  data : w'.store.data = w.store.data.mapVal h.py
  hooks : h.HooksRel w.store.hooks w'.store.hooks

/-- The model body `T'` does on the part what `T` does. -/
inductive TreeRel : MTree L → MTree L' → Prop
  | ret (o : PyVal L) : TreeRel (.ret o) (.ret (h.py o))
  | raise (e : Err) : TreeRel (.raise e) (.raise e)
  | variable (name : String) (d : L.D) (value : Option L.V) (prov : Option Prov) (rep : Bool) (k : L.V → MTree L) (k' : L'.V → MTree L') :
    (∀ x, TreeRel (k x) (k' (h.v x))) → TreeRel (.variable name d value prov rep k) (.variable name (h.d d) (value.map h.v) prov rep k')
  | inject (name : String) (rv : RV L) (rv' : RV L') (k : MTree L) (k' : MTree L') :
    h.RVRel rv rv' → TreeRel k k' → TreeRel (.inject name rv k) (.inject name rv' k')
  | getCond (k : Option (Trace L) → MTree L) (k' : Option (Trace L') → MTree L') :
    (∀ c c', OptRel h.TrRel c c' → TreeRel (k c) (k' c')) → TreeRel (.getCond k) (.getCond k')
  | getTrace (k : Trace L → MTree L) (k' : Trace L' → MTree L') :
    (∀ t t', h.TrRel t t' → TreeRel (k t) (k' t')) → TreeRel (.getTrace k) (.getTrace k')
  | storeGet (key : String) (k : PyVal L → MTree L) (k' : PyVal L' → MTree L') :
    (∀ v, TreeRel (k v) (k' (h.py v))) → TreeRel (.storeGet key k) (.storeGet key k')
  | storeSet (key : String) (v : PyVal L) (k : MTree L) (k' : MTree L') :
    TreeRel k k' → TreeRel (.storeSet key v k) (.storeSet key (h.py v) k')
  | sampleFree (d : L.D) (rep : Bool) (k : L.V → MTree L) (k' : L'.V → MTree L') :
    (∀ x, TreeRel (k x) (k' (h.v x))) → TreeRel (.sampleFree d rep k) (.sampleFree (h.d d) rep k')

/-- The extra entries of a Propose result. -/
structure PxRel (p : ProposeX L) (p' : ProposeX L') : Prop where
  nodes : p.nodes = p'.nodes
  lv : h.lw p.lv = p'.lv
  lw : h.w p.lw = p'.lw
  proposalTrace : h.TrRel p.proposalTrace p'.proposalTrace
  targetTrace : h.TrRel p.targetTrace p'.targetTrace
  forwardTrace : OptRel h.TrRel p.forwardTrace p'.forwardTrace

mutual
/-- The result `o'` is the part of `o`: trace, log weight, output and all other entries; losses are related. -/
inductive OutRel : Out L → Out L' → Prop
  | mk (t t' lw o ty ix l l' mg px px' s s') : h.TrRel t t' → OptRel h.lo l l' → OptRel h.PxRel px px' → SubsRel s s' →
    OutRel (.mk t lw o ty ix l mg px s)
      (.mk t' (h.lw lw) (h.py o) ty (ix.map h.py) l' (mg.map fun m => (m.1, h.py m.2)) px' s')
inductive SubsRel : List (String × Out L) → List (String × Out L') → Prop
  | nil : SubsRel [] []
  | cons (k : String) (o o' s s') : OutRel o o' → SubsRel s s' → SubsRel ((k, o) :: s) ((k, o') :: s')
end

/-- Objects with the same attributes, up to the part. -/
structure AttrsRel (a : Attrs L) (a' : Attrs L') : Prop where
  id : a.id = a'.id
  debug : a.debug = a'.debug
  ix : h.py a.ix = a'.ix
  loss0 : h.lo a.loss0 a'.loss0
  lossFn : ∀ o o' l l', h.OutRel o o' → h.lo l l' → h.ExRel h.lo (a.lossFn o l) (a'.lossFn o' l')

/-- The resampler works on the part, for the shapes `dims`. -/
def ResRel (dims : PyVal L → PyVal L → Prop) (r : ResamplerFn L) (r' : ResamplerFn L') : Prop :=
  ∀ sd bd, dims sd bd → ∀ t t' lw, h.TrRel t t' →
    h.Sim h.Escapes (ExEq fun x x' => h.TrRel x.1 x'.1 ∧ h.lw x.2 = x'.2) (r sd bd t lw) (r' (h.py sd) (h.py bd) t' (h.lw lw))

/-- The nest `N'` is `N` for the part: the same combinators, of programs that do on the part what those of `N` do. -/
inductive NodeRel (dims : PyVal L → PyVal L → Prop) : Node L → Node L' → Prop
  | prog (i : ObjId) (s : ProgSpec L) (s' : ProgSpec L') : s.name = s'.name → s.sig = s'.sig → s.debugAttr = s'.debugAttr →
    (∀ c kwargs, h.TreeRel (s.model c kwargs) (s'.model (h.py c) (h.pyKvs kwargs))) → NodeRel dims (.prog i s) (.prog i s')
  | resample (a a' r r' q q') : h.AttrsRel a a' → h.ResRel dims r r' → NodeRel dims q q' → NodeRel dims (.resample a r q) (.resample a' r' q')
  | extend (a a' p p' f f') : h.AttrsRel a a' → NodeRel dims p p' → NodeRel dims f f' → NodeRel dims (.extend a p f) (.extend a' p' f')
  | compose (a a' q2 q2' q1 q1') : h.AttrsRel a a' → NodeRel dims q2 q2' → NodeRel dims q1 q1' →
    NodeRel dims (.compose a q2 q1) (.compose a' q2' q1')
  | propose (a a' tr tr' nr p p' q q') : h.AttrsRel a a' → NodeRel dims p p' → NodeRel dims q q' →
    (∀ t t' kw, h.TrRel t t' → h.ExRel h.TrRel (tr t kw) (tr' t' (h.kw kw))) →
    NodeRel dims (.propose a tr nr p q) (.propose a' tr' nr p' q')

/-- The statements `m'` are the part of `m`. -/
def ExecRel {α β : Type} (R : α → β → Prop) (m : Exec L α) (m' : Exec L' β) : Prop :=
  ∀ w w', h.WRel w w' → h.Sim (fun x => h.Escapes x.1) (fun x x' => ExEq R x.1 x'.1 ∧ h.WRel x.2 x'.2) (m w) (m' w')

end Part
end Verif.Spec
