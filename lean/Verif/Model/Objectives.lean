import Mathlib.Analysis.SpecialFunctions.Log.Basic
import Mathlib.Analysis.SpecialFunctions.ExpDeriv
import Verif.Model.Annealing
/-
experiments/annealing/objectives.py: _estimate_mc, _eval0, _eval1, _eval_nrep, nvo_avo, nvo_rkl, nvo_rkl_mod.

A tensor that takes part in differentiation is a function of the parameters θ : E; autograd differentiates at the current
parameters θ₀, and `detach` freezes a tensor at its value there. All arithmetic is exact.
-/
namespace Verif

/-- Log-weight tensors with sample dimension `n` (dimension 0) and batch dimension `b`, as functions of the parameters. -/
abbrev Ten (n b : Nat) (E : Type) := Fin n → Fin b → E → ℝ

/-- Tensors reduced over the sample dimension. -/
abbrev Red (b : Nat) (E : Type) := Fin b → E → ℝ

/-- The language with differentiable log weights at the parameters `θ₀`. -/
@[reducible] noncomputable def CLang (n b : Nat) (E : Type) (θ₀ : E) (V D : Type) (lp : D → V → Ten n b E) (detachV : V → V) : Lang where
  V := V
  W := Ten n b E
  D := D
  U := Unit
  Lo := Red b E
  grpW := inferInstance
  monLo := inferInstance
  logProb := lp
  detachV := detachV
  detachW w := fun i j _ => w i j θ₀
  veq v v' := @decide (v = v') (Classical.dec _)
  isZero w := @decide (n * b = 1 ∧ w = 0) (Classical.dec _)
  isZero_spec _ h := (@of_decide_eq_true _ (Classical.dec _) h).2

section
variable {n b : Nat} {E : Type}

/-- `Tensor.detach` -/
def detachT (θ₀ : E) (w : Ten n b E) : Ten n b E := fun i j _ => w i j θ₀
def detachR (θ₀ : E) (w : Red b E) : Red b E := fun j _ => w j θ₀

/-- A reduced tensor used with one that has the sample dimension (torch broadcasting aligns the batch dimension). -/
def bcast (w : Red b E) : Ten n b E := fun _ j θ => w j θ

/-- `_estimate_mc(values, log_weights, sample_dims=0, reducedims=(0,), keepdims=False)`
(experiments/annealing/objectives.py:25-33). -/
noncomputable def estimateMc (values lw : Ten n b E) : Red b E := fun j θ =>
  ∑ i, Real.exp (lw i j θ) / (∑ k, Real.exp (lw k j θ)) * values i j θ

/-- `_eval0` (experiments/annealing/objectives.py:219-220). -/
def eval0T (θ₀ : E) (e : Ten n b E) : Ten n b E := e - detachT θ₀ e
def eval0R (θ₀ : E) (e : Red b E) : Red b E := e - detachR θ₀ e

/-- `_eval1` (experiments/annealing/objectives.py:223-224). -/
noncomputable def eval1T (θ₀ : E) (e : Ten n b E) : Ten n b E := fun i j θ => Real.exp (eval0T θ₀ e i j θ)

/-- `lv.detach().logsumexp(dim=0) - math.log(lv.shape[0])` (experiments/annealing/objectives.py:92). -/
noncomputable def logMeanExp (θ₀ : E) (lv : Ten n b E) : Red b E := fun j θ =>
  Real.log (∑ i, Real.exp (detachT θ₀ lv i j θ)) - Real.log n

variable {θ₀ : E} {V D : Type} {lp : D → V → Ten n b E} {dv : V → V}

/-- `nvo_avo(out)` (experiments/annealing/objectives.py:62-73). `torch.zeros_like` of a float raises TypeError. -/
noncomputable def nvoAvo (out : Out (CLang n b E θ₀ V D lp dv)) : Except Err (Red b E) :=
  match out.px with
  | none => .error .attribute
  | some px =>
    match px.lv with
    | .float0 => .error .type
    | .tensor lv =>
      let lv : Ten n b E := lv
      .ok (estimateMc (-lv) 0)

/-- `_eval_nrep(rv)._log_prob` (experiments/annealing/objectives.py:227-240): the log density at the detached value. -/
def evalNrep (rv : RV (CLang n b E θ₀ V D lp dv)) : Except Err (Ten n b E) :=
  match rv.kind with
  | .proper d => .ok (lp d (dv rv.value))
  | .improper f => .ok (f (dv rv.value))
  | .other => .error .notImplemented

/-- `isinstance(rv, probtorch.RandomVariable)` -/
def isProper {L : Lang} (rv : RV L) : Bool :=
  match rv.kind with
  | .proper _ => true
  | _ => false

/-- What nvo_rkl and nvo_rkl_mod read first (experiments/annealing/objectives.py:83-90,149-156): detached incoming weight, lv
and the four random variables. `out.ix + 1` needs an integer. -/
structure RklIn (n b : Nat) (E : Type) (θ₀ : E) (V D : Type) (lp : D → V → Ten n b E) (dv : V → V) where
  lw : Ten n b E
  lv : LW (Ten n b E)
  proposal : RV (CLang n b E θ₀ V D lp dv)
  target : RV (CLang n b E θ₀ V D lp dv)
  fwd : RV (CLang n b E θ₀ V D lp dv)
  rev : RV (CLang n b E θ₀ V D lp dv)

/-- `trace[name]`: KeyError when absent. -/
def lookup {L : Lang} (t : Trace L) (name : String) : Except Err (RV L) :=
  match t.get? name with
  | some rv => .ok rv
  | none => .error .key

noncomputable def readRkl (out : Out (CLang n b E θ₀ V D lp dv)) : Except Err (RklIn n b E θ₀ V D lp dv) :=
  match out.px, out.ix with
  | some px, some (.int ix) => do
    let proposal ← lookup px.proposalTrace ("g" ++ toString ix)
    let target ← lookup px.targetTrace ("g" ++ toString (ix + 1))
    let fwd ← lookup px.proposalTrace ("g" ++ toString (ix + 1))
    let rev ← lookup px.targetTrace ("g" ++ toString ix)
    return { lw := detachT θ₀ px.lw, lv := px.lv, proposal, target, fwd, rev }
  | none, _ => .error .attribute
  | _, _ => .error .type

/-- `grad_log_Z1_term` (experiments/annealing/objectives.py:95-105). -/
noncomputable def gradZ1 (lw : Ten n b E) (proposal : RV (CLang n b E θ₀ V D lp dv)) : Red b E :=
  if isProper proposal then 0 else estimateMc proposal.logProb lw

/-- `grad_log_Z2_term` (experiments/annealing/objectives.py:106-116). -/
noncomputable def gradZ2 (lw lv : Ten n b E) (target : RV (CLang n b E θ₀ V D lp dv)) : Except Err (Red b E) :=
  if isProper target then .ok 0
  else
    match evalNrep target with
    | .error e => .error e
    | .ok lp => .ok (estimateMc lp (lw + detachT θ₀ lv))

/-- The end of `nvo_rkl` (experiments/annealing/objectives.py:118-135). -/
noncomputable def rklLoss (θ₀ : E) (lw f : Ten n b E) (proposalLp : Ten n b E) (z1 z2 : Red b E) : Red b E :=
  let baseline := estimateMc (detachT θ₀ f) lw
  let klTerm := estimateMc ((f - bcast baseline) * eval1T θ₀ (proposalLp - bcast z1)) lw
  klTerm + eval0R θ₀ z2 + baseline

/-- `nvo_rkl(out)` (experiments/annealing/objectives.py:76-135). A float has no `.detach`; `math.log(0)` raises ValueError. -/
noncomputable def nvoRkl (out : Out (CLang n b E θ₀ V D lp dv)) : Except Err (Red b E) :=
  match readRkl out with
  | .error e => .error e
  | .ok r =>
    match r.lv with
    | .float0 => .error .attribute
    | .tensor lv =>
      if n = 0 then .error .value
      else
        match gradZ2 r.lw lv r.target with
        | .error e => .error e
        | .ok z2 => .ok (rklLoss θ₀ r.lw (-(lv - bcast (logMeanExp θ₀ lv))) r.proposal.logProb (gradZ1 r.lw r.proposal) z2)

/-- `nvo_rkl_mod(out)` (experiments/annealing/objectives.py:138-160): `sample_dim` on line 160 is not defined anywhere. -/
noncomputable def nvoRklMod (out : Out (CLang n b E θ₀ V D lp dv)) : Except Err (Red b E) :=
  match readRkl out with
  | .error e => .error e
  | .ok r =>
    match r.lv with
    | .float0 => .error .attribute
    | .tensor _ => .error .name

end
end Verif
