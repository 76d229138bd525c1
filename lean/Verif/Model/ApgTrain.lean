import Mathlib.Data.List.Infix
import Verif.Model.Core
/-
experiments/apgs/main.py, minibatches and the data files.
-/
namespace Verif

/-- Python's `l[a:b]` for `0 <= a`, `0 <= b`. -/
def pySlice {α : Type} (l : List α) (a b : Nat) : List α := (l.take b).drop a

/-- `num_batches = 1 if N <= batch_size else N // batch_size` (experiments/apgs/main.py:80); division by zero raises
ZeroDivisionError. -/
def numBatches (N batchSize : Nat) : Except Err Nat :=
  if N ≤ batchSize then .ok 1 else if batchSize = 0 then .error (.other 3) else .ok (N / batchSize)

/-- The index sets of the minibatches of one epoch over one file (experiments/apgs/main.py:80-86); `perm` is
`torch.randperm(N)`. -/
def minibatches (perm : List Nat) (batchSize : Nat) : Except Err (List (List Nat)) := do
  let n ← numBatches perm.length batchSize
  return (List.range n).map fun b => pySlice perm (b * batchSize) ((b + 1) * batchSize)

/-- `sub in s` on strings. -/
def pyStrIn (sub s : String) : Bool := decide (sub.toList <:+: s.toList)

/-- `s.endswith(suffix)` -/
def pyEndsWith (s suffix : String) : Bool := suffix.toList.isSuffixOf s.toList

/-- `get_data_paths` (experiments/apgs/main.py:148-158): the files chosen from a directory listing (names only). -/
def getDataPaths (files : List String) (timesteps objects : Nat) : Except Err (List String) :=
  let chosen := files.filter fun f =>
    pyEndsWith f ".pt" && pyStrIn ("timesteps=" ++ toString timesteps ++ "-objects=" ++ toString objects) f
  if chosen.isEmpty then .error .value else .ok chosen

end Verif
