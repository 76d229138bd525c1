import Verif.Model.Core
/-
The shapes of the tensors in combinators/resamplers.py, and torch's broadcasting. (Values are in Resampler.lean.)
-/
namespace Verif

/-- A tensor shape. -/
abbrev Shape := List Nat

/-- `shape[d]` for a Python index. -/
def Shape.dim (s : Shape) (d : Int) : Except Err Nat :=
  let i := if d < 0 then d + s.length else d
  if i < 0 then .error .index
  else match s[i.toNat]? with
    | some x => .ok x
    | none => .error .index

/-- The shape of `x.transpose(0, -1)` (combinators/resamplers.py:129,134). -/
def Shape.swapEnds : Shape → Shape
  | [] => []
  | [x] => [x]
  | x :: y :: l => (y :: l).getLast (by simp) :: ((y :: l).dropLast ++ [x])

/-- The shape of `torch.searchsorted(boundaries, values)`: boundaries are a vector, or agree with the values in all but the
last dimension (torch, combinators/resamplers.py:133). -/
def Shape.searchsorted (bounds vals : Shape) : Except Err Shape :=
  if bounds.length = 1 ∨ (bounds.length = vals.length ∧ bounds.dropLast = vals.dropLast) then .ok vals
  else .error .runtime

/-- Shapes in `ancestor_indices_systematic` with `sample_dims = 0` (combinators/resamplers.py:120-135). Stacking an empty
list raises. -/
def Shape.ancestors (lw : Shape) (batchDim : Int) : Except Err Shape := do
  let n ← lw.dim 0
  let b ← lw.dim batchDim
  if n = 0 then .error .runtime
  else
    let aidx ← Shape.searchsorted lw.swapEnds [b, n]
    return aidx.swapEnds

/-- Shapes in `pick`: the leading dimensions are compared, the index is expanded to the tensor
(combinators/resamplers.py:37-48). -/
def Shape.pick (z aidx : Shape) : Except Err Shape :=
  if z.take aidx.length = aidx then .ok z else .error .assertion

/-- The shapes of one variable's value and log_prob. -/
abbrev RVShape := Shape × Shape

/-- `Systematic.__call__` on shapes with `sample_dims = 0` (combinators/resamplers.py:56-118): `lw` is the weight's shape,
`rvs` are the variables that are permuted. `logsumexp(.., keepdim=True)` gives a dimension 1, `expand_as` the old shape
back; softmax keeps it. -/
def Shape.systematic (lw : Shape) (batchDim : Option Int) (rvs : List RVShape) :
    Except Err (List RVShape × Shape) := do
  let lw' ← match batchDim with
    | none => if lw.length = 1 then .ok (lw ++ [1]) else .error .assertion
    | some _ => .ok lw
  let aidx ← Shape.ancestors lw' (batchDim.getD 1)
  let aidx := if batchDim.isNone then aidx.take 1 else aidx
  let rvs' ← rvs.mapM fun rv => do
    let v ← Shape.pick rv.1 aidx
    let lp ← Shape.pick rv.2 aidx
    return (v, lp)
  return (rvs', lw')

/-- torch's broadcasting rule, on reversed shapes. -/
def broadcastRev : Shape → Shape → Except Err Shape
  | [], b => .ok b
  | a, [] => .ok a
  | x :: a, y :: b =>
    if x = y ∨ y = 1 then (broadcastRev a b).map (x :: ·)
    else if x = 1 then (broadcastRev a b).map (y :: ·)
    else .error .runtime

/-- A tensor: its shape, and its entries by index list (entries outside the shape are irrelevant). -/
structure Tensor (R : Type) where
  shape : Shape
  get : List Nat → R

/-- The index into an operand of shape `s` for index `i` of the broadcast result, both reversed: extra leading dimensions
are dropped, in a dimension of size one the index is 0. -/
def projRev : Shape → List Nat → List Nat
  | [], _ => []
  | _, [] => []
  | x :: s, i :: l => (if x = 1 then 0 else i) :: projRev s l

/-- Python `a + b` for tensors (e.g. `lw_1 + lv`, combinators/inference.py:391). -/
def Tensor.add {R : Type} [Add R] (a b : Tensor R) : Except Err (Tensor R) :=
  match broadcastRev a.shape.reverse b.shape.reverse with
  | .error e => .error e
  | .ok s => .ok
    { shape := s.reverse
      get := fun i => a.get (projRev a.shape.reverse i.reverse).reverse + b.get (projRev b.shape.reverse i.reverse).reverse }

end Verif
