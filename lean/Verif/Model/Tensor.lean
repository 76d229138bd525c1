import Verif.Model.Resampler
import Verif.Model.Shapes
/-
Torch tensors with all their dimensions, as far as combinators/resamplers.py and experiments/apgs use them. Arithmetic is exact; strides, dtypes
and devices are not modelled (`view` of a tensor that is not contiguous may raise in torch).
-/
namespace Verif

/-- A tensor: its shape and its entries in row-major order. What `data` is beyond the number of elements does not matter. -/
structure Nd (α : Type) where
  shape : List Nat
  data : Nat → α

namespace Nd
variable {α β γ : Type}

/-- The position of an element in row-major order. -/
def ravel : List Nat → List Nat → Nat
  | _ :: s, i :: is => i * s.prod + ravel s is
  | _, _ => 0

/-- The element at a position. -/
def unravel : List Nat → Nat → List Nat
  | [], _ => []
  | _ :: s, q => q / s.prod :: unravel s (q % s.prod)

/-- `t[i, j, ..]` for indices in range. -/
def get (t : Nd α) (is : List Nat) : α := t.data (ravel t.shape is)

/-- The tensor of a shape with the given elements. -/
def ofFn (s : List Nat) (f : List Nat → α) : Nd α := ⟨s, fun q => f (unravel s q)⟩

/-- A Python index `d` into something of length `n`. -/
def pyIx (n : Nat) (d : Int) : Except Err Nat :=
  if d < -n ∨ n ≤ d then .error .index else .ok (if d < 0 then d + n else d).toNat

/-- `t.view(s)`; also `reshape`. RuntimeError if the number of elements differs. -/
def view (t : Nd α) (s : List Nat) : Except Err (Nd α) := if t.shape.prod = s.prod then .ok ⟨s, t.data⟩ else .error .runtime

/-- `t.unsqueeze(d)` -/
def unsqueeze (t : Nd α) (d : Int) : Except Err (Nd α) := do
  let d ← pyIx (t.shape.length + 1) d
  .ok ⟨t.shape.take d ++ 1 :: t.shape.drop d, t.data⟩

/-- `t.squeeze(d)`: does nothing if that dimension is not 1. -/
def squeeze (t : Nd α) (d : Int) : Except Err (Nd α) := do
  let d ← pyIx t.shape.length d
  .ok (if t.shape[d]? = some 1 then ⟨t.shape.eraseIdx d, t.data⟩ else t)

/-- `torch.flatten(t, -2, -1)` -/
def flattenLast2 (t : Nd α) : Except Err (Nd α) :=
  match t.shape.reverse with
  | m :: n :: s => .ok ⟨(n * m :: s).reverse, t.data⟩
  | _ => .error .index

/-- `t.repeat(*r)`; missing dimensions come first. -/
def tile (t : Nd α) (r : List Nat) : Except Err (Nd α) :=
  if r.length < t.shape.length then .error .runtime
  else
    let pad := r.length - t.shape.length
    .ok (ofFn (List.zipWith (· * ·) r (List.replicate pad 1 ++ t.shape)) fun is => t.get (List.zipWith (· % ·) (is.drop pad) t.shape))

/-- `t.expand(*s)`: dimensions of size 1 are repeated, missing ones come first. -/
def expand (t : Nd α) (s : List Nat) : Except Err (Nd α) :=
  let pad := s.length - t.shape.length
  if s.length < t.shape.length ∨ ¬ List.Forall₂ (fun n m => n = 1 ∨ n = m) t.shape (s.drop pad) then .error .runtime
  else .ok (ofFn s fun is => t.get (List.zipWith (fun i n => if n = 1 then 0 else i) (is.drop pad) t.shape))

/-- A binary operation on tensors, with broadcasting. -/
def map₂ (f : α → β → γ) (t : Nd α) (t' : Nd β) : Except Err (Nd γ) := do
  let s ← broadcastRev t.shape.reverse t'.shape.reverse
  let t ← t.expand s.reverse
  let t' ← t'.expand s.reverse
  .ok ⟨s.reverse, fun q => f (t.data q) (t'.data q)⟩

/-- An operation on every element. -/
def map (f : α → β) (t : Nd α) : Nd β := ⟨t.shape, fun q => f (t.data q)⟩

/-- Exchanging two elements of a list. -/
def swap (l : List Nat) (d e : Nat) : List Nat := (l.set d (l.getD e 0)).set e (l.getD d 0)

/-- `t.transpose(d, e)` -/
def transpose (t : Nd α) (d e : Int) : Except Err (Nd α) := do
  let d ← pyIx t.shape.length d
  let e ← pyIx t.shape.length e
  .ok (ofFn (swap t.shape d e) fun is => t.get (swap is d e))

/-- Applying a function of vectors along dimension `d`; `m` is the length of its results for a given length. -/
def along [Inhabited β] (t : Nd α) (d : Int) (m : Nat → Nat) (f : (n : Nat) → (Fin n → α) → Fin (m n) → β) : Except Err (Nd β) := do
  let d ← pyIx t.shape.length d
  let n := t.shape.getD d 0
  .ok (ofFn (t.shape.set d (m n)) fun is =>
    if h : is.getD d 0 < m n then f n (fun i => t.get (is.set d i)) ⟨is.getD d 0, h⟩ else default)

/-- The same for functions with a single number as result; the dimension is dropped. -/
def reduce [Inhabited β] (t : Nd α) (d : Int) (f : (n : Nat) → (Fin n → α) → β) : Except Err (Nd β) := do
  let r ← t.along d (fun _ => 1) fun n v _ => f n v
  r.squeeze d

/-- `t[:, .., :, k, :, .., :]` with the number `k` in position `d`. -/
def select (t : Nd α) (d : Nat) (k : Int) : Except Err (Nd α) :=
  match t.shape[d]? with
  | none => .error .index
  | some n => do
    let k ← pyIx n k
    .ok (ofFn (t.shape.eraseIdx d) fun is => t.get (is.insertIdx d k))

/-- `t[:, .., :, k, :, .., :] = v`: the tensor after the assignment; `v` is broadcast. -/
def setSelect (t : Nd α) (d : Nat) (k : Int) (v : Nd α) : Except Err (Nd α) :=
  match t.shape[d]? with
  | none => .error .index
  | some n => do
    let k ← pyIx n k
    let v ← v.expand (t.shape.eraseIdx d)
    .ok (ofFn t.shape fun is => if is[d]? = some k then v.get (is.eraseIdx d) else t.get is)

/-- `torch.cat((t, t'), -1)` -/
def catLast (t t' : Nd α) : Except Err (Nd α) :=
  match t.shape.reverse, t'.shape.reverse with
  | n :: s, m :: s' =>
    if s = s' then
      .ok (ofFn (s.reverse ++ [n + m]) fun is =>
        if is.getLastD 0 < n then t.get is else t'.get (is.dropLast ++ [is.getLastD 0 - n]))
    else .error .runtime
  | _, _ => .error .runtime

/-- `torch.stack(ts, dim=-1)`; raises for no tensors and for different shapes. -/
def stackLast (ts : List (Nd α)) : Except Err (Nd α) :=
  match ts with
  | [] => .error .runtime
  | t :: _ =>
    if ts.all fun t' => t'.shape == t.shape then
      .ok (ofFn (t.shape ++ [ts.length]) fun is => ((ts[is.getLastD 0]?).getD t).get is.dropLast)
    else .error .runtime

/-- `t.gather(d, index)`: RuntimeError if the shapes do not fit (`index` may be shorter, except in dimension `d`, where it may also be longer) or
an index is out of range. -/
def gather (t : Nd α) (d : Int) (index : Nd Nat) : Except Err (Nd α) := do
  let d ← pyIx t.shape.length d
  if List.Forall₂ (· ≤ ·) (index.shape.set d 0) (t.shape.set d 0) ∧ ∀ q < index.shape.prod, index.data q < t.shape.getD d 0 then
    .ok (ofFn index.shape fun is => t.get (is.set d (index.get is)))
  else .error .runtime

/-- `torch.searchsorted(bounds, vals, right=False)` -/
noncomputable def searchsortedT (bounds vals : Nd ℝ) : Except Err (Nd Nat) :=
  if bounds.shape.length = 1 ∨ (bounds.shape.length = vals.shape.length ∧ bounds.shape.dropLast = vals.shape.dropLast) then
    .ok (ofFn vals.shape fun is =>
      searchsorted (fun i : Fin (bounds.shape.getLastD 0) => bounds.get (if bounds.shape.length = 1 then [i.val] else is.dropLast ++ [i.val])) (vals.get is))
  else .error .runtime

/-- `torch.zeros(*s)` -/
def zeros (s : List Nat) : Nd ℝ := ⟨s, fun _ => 0⟩

end Nd
end Verif
