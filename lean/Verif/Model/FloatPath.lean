import Verif.Model.FloatMetrics
import Verif.Model.Ieee
import Verif.Model.Path
/-
`anneal_between` and the weights of `Tempered` (experiments/annealing/models.py:165-196,253-262) in IEEE 754 arithmetic: Python's floats are binary64 and torch's
tensors binary32.
-/
namespace Verif
namespace Fp

/-- `torch.logit(x)` without `eps`: `log(x / (1 - x))`. -/
noncomputable def Num.logit (A : Arith) (x : Num) : Num := (x.div A ((Num.fin 1).sub A x)).log A

/-- `torch.sigmoid(x)`: `1 / (1 + exp(-x))`. -/
noncomputable def Num.sigmoid (A : Arith) (x : Num) : Num := (Num.fin 1).div A ((Num.fin 1).plus A (x.neg.exp A))

/-- Element `i` of a float32 `torch.arange(0.0, 1.0, step)` on the CPU. torch works in blocks: element `j` at the start of the block is `j * step` in binary64, rounded
to binary32, and element `i` of that block is this plus `(i - j) * step`. An element by itself is a block. -/
noncomputable def arangeElem (step : ℝ) (j i : Nat) : ℝ :=
  b32.round (b64.round (b32.round (b64.round (j * step)) + b64.round ((i - j : Nat) * step)))

/-- `torch.arange(0.0, 1.0, step)`: the number of elements is the quotient of length and step in binary64, rounded up; RuntimeError for a zero or negative step.
`block i` is where the block of element `i` starts. -/
noncomputable def arange01 (block : Nat → Nat) (step : ℝ) : Except Err (List ℝ) :=
  open Classical in
  if 0 < step then .ok ((List.range ⌈b64.round (1 / step)⌉.toNat).map fun i => arangeElem step (block i) i) else .error .runtime

/-- A target on the path: one of the ends, or `Tempered` with its name and the weights `1 - sigmoid(logit)` and `sigmoid(logit)` of the ends. -/
inductive PathNode where
  | left
  | tempered (name : String) (w1 w2 : Num)
  | right

/-- `Tempered(name, left, right, beta)` (experiments/annealing/models.py:165-196) for a float32 `beta`. -/
noncomputable def tempered (A : Arith) (name : String) (beta : ℝ) : Except Err PathNode :=
  open Classical in
  if 0 < beta ∧ beta < 1 then
    let w := ((Num.fin beta).logit A).sigmoid A
    .ok (.tempered name ((Num.fin 1).sub A w) w)
  else .error .assertion

/-- `anneal_between(left, right, total_num_targets)` (experiments/annealing/models.py:253-262). -/
noncomputable def annealBetween (A : Arith) (block : Nat → Nat) (total : Int) : Except Err (List PathNode) :=
  if total - 1 = 0 then .error (.other 3)
  else
    match arange01 block (b64.round (1 / b64.round ((total - 1 : Int) : ℝ))) with
    | .error e => .error e
    | .ok bs =>
      let ks := (List.range (total - 2).toNat).map (· + 1)
      match (ks.zip (bs.drop 1)).mapM fun kb => tempered A ("g" ++ toString kb.1) kb.2 with
      | .error e => .error e
      | .ok mid =>
        let path := [.left] ++ mid ++ [.right]
        if (path.length : Int) = total then .ok path else .error .assertion

end Fp
end Verif
