import Mathlib.Algebra.Group.Hom.Defs
import Verif.Spec.Weighting
/-
Vectorised models: what one particle of a population sees.
-/
namespace Verif.Spec
open scoped ENNReal

/-- One particle of a population: the particle's part of a tensor of values, of a tensor of log weights and of a distribution. -/
structure Lane (L : Lang) {V D : Type} (lp : D → V → ℝ) where
  v : L.V → V
  w : L.W →+ ℝ
  d : L.D → D
  logProb : ∀ d' x, w (L.logProb d' x) = lp (d d') (v x)
  detachV : ∀ x, v (L.detachV x) = v x
  detachW : ∀ x, w (L.detachW x) = w x

section
variable {L : Lang} {V D Lo : Type} [AddCommMonoid Lo] {lp : D → V → ℝ}
local notation "𝕃" => PLang V D Lo lp

mutual
/-- The particle's part of a Python value. -/
def lanePy (l : Lane L lp) : PyVal L → PyVal 𝕃
  | .none => .none
  | .bool b => .bool b
  | .int i => .int i
  | .str s => .str s
  | .tensor x => .tensor (l.v x)
  | .weakref x => .weakref (l.v x)
  | .tuple xs => .tuple (lanePys l xs)
  | .dict kvs => .dict (laneKvs l kvs)
  | .opaque n => .opaque n
def lanePys (l : Lane L lp) : List (PyVal L) → List (PyVal 𝕃)
  | [] => []
  | x :: xs => lanePy l x :: lanePys l xs
def laneKvs (l : Lane L lp) : List (String × PyVal L) → List (String × PyVal 𝕃)
  | [] => []
  | (k, x) :: kvs => (k, lanePy l x) :: laneKvs l kvs
end

/-- The particle's part of keyword arguments. -/
def laneKw (l : Lane L lp) (kw : Kw L) : Kw 𝕃 where
  sampleDims := lanePy l kw.sampleDims
  batchDim := lanePy l kw.batchDim
  reparam := lanePy l kw.reparam
  debug := kw.debug
  ix := lanePy l kw.ix
  shared := laneKvs l kw.shared

/-- The particle's part of a trace. -/
def laneEnv (l : Lane L lp) (t : Trace L) : Env V :=
  t.entries.map fun e => (e.1, ⟨l.v e.2.value, l.w e.2.logProb, e.2.prov != .observed⟩)

/-- Neither a result nor a request for a variable. -/
def Stuck : MTree 𝕃 → Prop
  | .ret _ => False
  | .variable .. => False
  | _ => True

/-- `LaneTree l T t`: a particle `l` of the vectorised model `T` behaves like the model `t` of a single particle.
* A variable of `T` is one of `t`, with the particle's part of the distribution and of the value, if given.
* `density`: the body of `Density.model` (experiments/annealing/models.py:73-83), which takes the value from the conditioning trace, is
  a variable with an arbitrary log density.
* `distribution`: the body of `Distribution.model` (experiments/annealing/models.py:101-115) is a variable.
* Where `t` does anything else nothing is said (such a `t` satisfies no `always`). -/
inductive LaneTree (l : Lane L lp) : MTree L → MTree 𝕃 → Prop
  | ret (o : PyVal L) : LaneTree l (.ret o) (.ret (lanePy l o))
  | var (name : String) (d : L.D) (value : Option L.V) (prov : Option Prov) (rep : Bool) (K : L.V → MTree L) (k : V → MTree 𝕃) :
    (∀ x, LaneTree l (K x) (k (l.v x))) →
    LaneTree l (.variable name d value prov rep K) (MTree.variable (L := 𝕃) name (l.d d) (value.map l.v) prov rep k)
  | density (name : String) (f : L.V → L.W) (d : D) (e : Err) (rep : Bool) (K : L.V → MTree L) (k : V → MTree 𝕃) :
    (∀ x, l.w (f x) = lp d (l.v x)) → (∀ x, LaneTree l (K x) (k (l.v x))) →
    LaneTree l (.getCond fun cond =>
      match cond.bind (·.get? name) with
      | none => .raise e
      | some rv => .inject name (RV.mkImproper f rv.value .reused) (K rv.value)) (MTree.variable (L := 𝕃) name d none none rep k)
  | distribution (name : String) (d : L.D) (rep : Bool) (K : L.V → MTree L) (k : V → MTree 𝕃) :
    (∀ x, LaneTree l (K x) (k (l.v x))) →
    LaneTree l (.getCond fun cond =>
      match cond.bind (·.get? name) with
      | some rv => .inject name (RV.mk' d rv.value .reused rep) (K rv.value)
      | none => .sampleFree d rep fun x => .inject name (RV.mk' d x .sampled rep) (K x))
      (MTree.variable (L := 𝕃) name (l.d d) none none rep k)
  | stuck (T : MTree L) (t : MTree 𝕃) : Stuck t → LaneTree l T t

/-- `LaneNode l N n`: the nests `N` and `n` have the same shape, indices and signatures, and the particle `l` of every program of `N`
behaves like the program of `n`. Where `n`'s transformations of traces only reorder, so do `N`'s, in what the particle sees. -/
def LaneNode (l : Lane L lp) : Node L → Node 𝕃 → Prop
  | .prog _ S, .prog _ s => s.sig = S.sig ∧ ∀ c kwargs, LaneTree l (S.model c kwargs) (s.model (lanePy l c) (laneKvs l kwargs))
  | .resample A _ Q, .resample a _ q => lanePy l A.ix = a.ix ∧ LaneNode l Q q
  | .extend A P F, .extend a p f => lanePy l A.ix = a.ix ∧ LaneNode l P p ∧ LaneNode l F f
  | .compose A Q2 Q1, .compose a q2 q1 => lanePy l A.ix = a.ix ∧ LaneNode l Q2 q2 ∧ LaneNode l Q1 q1
  | .propose A TR _ P Q, .propose a tr _ p q => lanePy l A.ix = a.ix ∧ LaneNode l P p ∧ LaneNode l Q q ∧
    ∀ t kw t', Reorders tr (laneEnv l t) → TR t kw = .ok t' → (laneEnv l t').Perm (laneEnv l t)
  | _, _ => False

/-- Nothing is resampled. -/
def Whole : Node L → Prop
  | .prog _ _ => True
  | .resample _ _ _ => False
  | .extend _ p f => Whole p ∧ Whole f
  | .compose _ q2 q1 => Whole q2 ∧ Whole q1
  | .propose _ _ _ p q => Whole p ∧ Whole q

/-- Only proposals are resampled, and the first parts of Compose. All resamplers satisfy `P`. -/
def Resamples (P : ResamplerFn L → Prop) : Node L → Prop
  | .prog _ _ => True
  | .resample _ r q => P r ∧ Resamples P q
  | .extend _ p f => Whole p ∧ Whole f
  | .compose _ q2 q1 => Whole q2 ∧ Resamples P q1
  | .propose _ _ _ p q => Whole p ∧ Resamples P q

end
end Verif.Spec
