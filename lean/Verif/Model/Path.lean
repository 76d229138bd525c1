import Mathlib.Analysis.SpecialFunctions.Log.Basic
import Mathlib.Analysis.SpecialFunctions.Exp
import Mathlib.Analysis.SpecialFunctions.Trigonometric.Basic
import Mathlib.Algebra.Order.Floor.Ring
import Mathlib.Algebra.Order.Archimedean.Real.Basic
import Verif.Model.Core
/-
experiments/annealing/models.py: Tempered, GMM, RingGMM, anneal_between, paper_model. Arithmetic is exact, except that the
reciprocal in anneal_between may be rounded.
-/
namespace Verif

/-- A target on a path: its name and its log density (`log_density_fn`, or `dist.log_prob` of a Distribution). -/
structure PathTarget (V : Type) where
  name : String
  logDensity : V → ℝ

/-- `torch.logit` -/
noncomputable def logit (x : ℝ) : ℝ := Real.log (x / (1 - x))
/-- `torch.sigmoid` -/
noncomputable def sigmoid (x : ℝ) : ℝ := 1 / (1 + Real.exp (-x))

/-- `Tempered(name, d1, d2, beta)` (experiments/annealing/models.py:165-196), with a scalar beta; `log_prob` of either end is
its `logDensity`. -/
noncomputable def tempered {V : Type} (name : String) (d1 d2 : PathTarget V) (beta : ℝ) : Except Err (PathTarget V) :=
  open Classical in
  if 0 < beta ∧ beta < 1 then
    .ok { name, logDensity := fun v => d1.logDensity v * (1 - sigmoid (logit beta)) + d2.logDensity v * sigmoid (logit beta) }
  else .error .assertion

/-- `torch.arange(0.0, 1.0, step)`: RuntimeError for a zero or negative step. -/
noncomputable def arange01 (step : ℝ) : Except Err (List ℝ) :=
  open Classical in
  if 0 < step then .ok ((List.range ⌈1 / step⌉.toNat).map fun i : Nat => (i : ℝ) * step) else .error .runtime

/-- `anneal_between(left, right, total_num_targets)` (experiments/annealing/models.py:253-262). `recip m` is the float
`1.0 / m`; `1.0 / 0` raises ZeroDivisionError. -/
noncomputable def annealBetween {V : Type} (recip : Int → ℝ) (left right : PathTarget V) (total : Int) :
    Except Err (List (PathTarget V)) :=
  if total - 1 = 0 then .error (.other 3)
  else
    match arange01 (recip (total - 1)) with
    | .error e => .error e
    | .ok bs =>
      let ks := (List.range (total - 2).toNat).map (· + 1)
      match (ks.zip (bs.drop 1)).mapM fun kb => tempered ("g" ++ toString kb.1) left right kb.2 with
      | .error e => .error e
      | .ok mid =>
        let path := [left] ++ mid ++ [right]
        if (path.length : Int) = total then .ok path else .error .assertion

/-- The `log_density_fn` of a `GMM` from its components' `log_prob`s (experiments/annealing/models.py:233-240):
`torch.stack` of an empty list raises. -/
noncomputable def gmmDensity {V : Type} (comps : List (V → ℝ)) (v : V) : Except Err ℝ :=
  if comps.isEmpty then .error .runtime else .ok (Real.log ((comps.map fun c => Real.exp (c v)).sum))

/-- `GMM(locs, covs)`: the number of means and covariances must agree (experiments/annealing/models.py:205-212). -/
def gmmComponents {P C V : Type} (mvn : P → C → V → ℝ) (locs : List P) (covs : List C) : Except Err (List (V → ℝ)) :=
  if locs.length = covs.length then .ok ((locs.zip covs).map fun e => mvn e.1 e.2) else .error .assertion

/-- The component means of `RingGMM(radius, count)` (experiments/annealing/models.py:243-250): `2π / 0` raises. -/
noncomputable def ringLocs (radius : ℝ) (count : Nat) : Except Err (List (ℝ × ℝ)) :=
  if count = 0 then .error (.other 3)
  else
    let alpha := 2 * Real.pi / count
    .ok ((List.range count).map fun k : Nat => (radius * Real.sin (alpha * k), radius * Real.cos (alpha * k)))

/-- A kernel of `paper_model`: the names it reads and writes (experiments/annealing/models.py:275-283). -/
structure PathKernel where
  extFrom : String
  extTo : String

/-- The names in `paper_model(num_targets)` (experiments/annealing/models.py:265-295): targets, forward and reverse kernels. -/
noncomputable def paperModel {V : Type} (recip : Int → ℝ) (g0 gK : V → ℝ) (numTargets : Int) :
    Except Err (List (PathTarget V) × List PathKernel × List PathKernel) :=
  match annealBetween recip ⟨"g0", g0⟩ ⟨"g" ++ toString (numTargets - 1), gK⟩ numTargets with
  | .error e => .error e
  | .ok targets =>
    let is := List.range (numTargets - 1).toNat
    .ok (targets, is.map fun i => ⟨"g" ++ toString i, "g" ++ toString (i + 1)⟩,
      is.map fun i => ⟨"g" ++ toString (i + 1), "g" ++ toString i⟩)

end Verif
