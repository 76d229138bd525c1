import Mathlib.Analysis.SpecialFunctions.Exp
import Verif.Model.Core
/-
Systematic resampling (combinators/resamplers.py:113-130) in floating-point arithmetic, for one batch element on the CPU. Rounding is a parameter; the
order in which torch adds up is arbitrary.
-/
namespace Verif
namespace Fp

/-- A floating-point number. -/
inductive Num where
  | nan
  | pinf
  | ninf
  | fin (x : ℝ)

/-- An arithmetic: rounding to the format of the tensors (`rd`), to that of the accumulators of sums (`acc`; torch sums float32 in float64 in places),
`torch.exp` of finite numbers, `torch.log` of positive ones, and the largest finite numbers of both formats. -/
structure Arith where
  rd : ℝ → ℝ
  acc : ℝ → ℝ
  exp : ℝ → ℝ
  log : ℝ → ℝ
  top : ℝ
  accTop : ℝ

/-- A rounded number, unless it is too large (IEEE 754 overflow). -/
noncomputable def fit (top x : ℝ) : Num := if top < x then .pinf else if x < -top then .ninf else .fin x

namespace Num

/-- `x - y` (IEEE 754). -/
noncomputable def sub (A : Arith) : Num → Num → Num
  | nan, _ => nan
  | _, nan => nan
  | pinf, pinf => nan
  | ninf, ninf => nan
  | pinf, _ => pinf
  | ninf, _ => ninf
  | fin _, pinf => ninf
  | fin _, ninf => pinf
  | fin x, fin y => fit A.top (A.rd (x - y))

/-- `x + y` in the accumulator's format (IEEE 754). -/
noncomputable def add (A : Arith) : Num → Num → Num
  | nan, _ => nan
  | _, nan => nan
  | pinf, ninf => nan
  | ninf, pinf => nan
  | pinf, _ => pinf
  | ninf, _ => ninf
  | fin _, pinf => pinf
  | fin _, ninf => ninf
  | fin x, fin y => fit A.accTop (A.acc (x + y))

/-- From the accumulator's format to that of the tensors. -/
noncomputable def round (A : Arith) : Num → Num
  | fin x => fit A.top (A.rd x)
  | x => x

/-- `x / y` (IEEE 754; zeros have no sign here). -/
noncomputable def div (A : Arith) : Num → Num → Num
  | nan, _ => nan
  | _, nan => nan
  | fin _, pinf => fin 0
  | fin _, ninf => fin 0
  | pinf, fin y => if 0 ≤ y then pinf else ninf
  | ninf, fin y => if 0 ≤ y then ninf else pinf
  | fin x, fin y => if y = 0 then (if x = 0 then nan else if 0 < x then pinf else ninf) else fit A.top (A.rd (x / y))
  | _, _ => nan

/-- `torch.exp`. -/
noncomputable def exp (A : Arith) : Num → Num
  | nan => nan
  | pinf => pinf
  | ninf => fin 0
  | fin x => fit A.top (A.exp x)

/-- `torch.log`. -/
noncomputable def log (A : Arith) : Num → Num
  | nan => nan
  | pinf => pinf
  | ninf => nan
  | fin x => if x < 0 then nan else if x = 0 then ninf else fin (A.log x)

/-- `-x`. -/
noncomputable def neg : Num → Num
  | nan => nan
  | pinf => ninf
  | ninf => pinf
  | fin x => fin (-x)

/-- `x >= y`: False whenever one of them is NaN (IEEE 754). -/
noncomputable def ge : Num → Num → Bool
  | nan, _ => false
  | _, nan => false
  | pinf, _ => true
  | _, pinf => false
  | _, ninf => true
  | ninf, _ => false
  | fin x, fin y => decide (y ≤ x)

/-- The maximum of two numbers, NaN if one of them is (`torch.max`). -/
noncomputable def max : Num → Num → Num
  | nan, _ => nan
  | _, nan => nan
  | pinf, _ => pinf
  | _, pinf => pinf
  | ninf, y => y
  | x, ninf => x
  | fin x, fin y => fin (Max.max x y)

end Num

/-- An order of adding up: which partial sums are added to which. -/
inductive SumTree where
  | leaf (i : Nat)
  | node (l r : SumTree)

/-- The elements that are added up. -/
def SumTree.leaves : SumTree → List Nat
  | leaf i => [i]
  | node l r => l.leaves ++ r.leaves

/-- The sum. -/
noncomputable def SumTree.sum (A : Arith) (v : Nat → Num) : SumTree → Num
  | leaf i => v i
  | node l r => (l.sum A v).add A (r.sum A v)

/-- The maximum of `n` numbers. -/
noncomputable def maxOf (v : Nat → Num) (n : Nat) : Num := (List.range n).foldl (fun m i => m.max (v i)) .ninf

/-- `F.softmax(lw, dim=sample_dims)` (combinators/resamplers.py:120): torch subtracts the maximum, exponentiates, and divides by the sum. -/
noncomputable def softmax (A : Arith) (t : SumTree) (lw : Nat → Num) (n : Nat) : Nat → Num :=
  let m := maxOf lw n
  let e := fun i => ((lw i).sub A m).exp A
  let s := (t.sum A e).round A
  fun i => (e i).div A s

/-- The accumulator of `cumsum` after element `i`; on the CPU one element after the other. -/
noncomputable def cumAcc (A : Arith) (w : Nat → Num) : Nat → Num
  | 0 => w 0
  | i + 1 => (cumAcc A w i).add A (w (i + 1))

/-- `csum` (combinators/resamplers.py:122). -/
noncomputable def csum (A : Arith) (w : Nat → Num) (i : Nat) : Num := (cumAcc A w i).round A

/-- `ncsum = csum / cmax` (combinators/resamplers.py:123-124). -/
noncomputable def ncsum (A : Arith) (w : Nat → Num) (n : Nat) (i : Nat) : Num := (csum A w i).div A (maxOf (csum A w) n)

/-- `usteps` for `k`: `(k + u) / n` (combinators/resamplers.py:119). -/
noncomputable def ustep (A : Arith) (n : Nat) (u : ℝ) (k : Nat) : ℝ := A.rd (A.rd (k + u) / n)

/-- `torch.searchsorted(bs, v, right=False)`: binary search in `bs[start:stop]`, going right unless `bs[mid] >= v`. -/
noncomputable def lowerBound (bs : Nat → Num) (v : Num) (start stop : Nat) : Nat :=
  if h : start < stop then
    let mid := start + (stop - start) / 2
    if (bs mid).ge v then lowerBound bs v start mid else lowerBound bs v (mid + 1) stop
  else start
termination_by stop - start

/-- `aidx` (combinators/resamplers.py:126) for slot `k`. softmax (`B`) and cumsum (`A`) may use different accumulators. -/
noncomputable def ancestor (A B : Arith) (t : SumTree) (lw : Nat → Num) (n : Nat) (u : ℝ) (k : Nat) : Nat :=
  lowerBound (ncsum A (softmax B t lw n) n) (.fin (ustep A n u k)) 0 n

/-- The indices, as far as `gather` (combinators/resamplers.py:48) accepts them: RuntimeError for an index beyond the particles. -/
noncomputable def ancestors (A B : Arith) (t : SumTree) (lw : Nat → Num) (n : Nat) (u : ℝ) : Except Err (List Nat) :=
  let a := (List.range n).map fun k => ancestor A B t lw n u k
  if ∀ i ∈ a, i < n then .ok a else .error .runtime

end Fp
end Verif
