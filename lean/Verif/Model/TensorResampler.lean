import Verif.Model.Tensor
/-
combinators/resamplers.py on tensors with all their dimensions.
-/
namespace Verif
namespace Nd

/-- `Resampler.pick(z, aidx, sample_dims)` (combinators/resamplers.py:37-48). -/
def pick {α : Type} (z : Nd α) (aidx : Nd Nat) (sampleDims : Int) : Except Err (Nd α) :=
  let ddim := z.shape.length - aidx.shape.length
  if z.shape.take aidx.shape.length = aidx.shape then do
    let mask ← (List.range ddim).foldlM (fun (m : Nd Nat) _ => m.unsqueeze (-1)) aidx
    let mask ← mask.expand z.shape
    z.gather sampleDims mask
  else .error .assertion

/-- `ancestor_indices_systematic(lw, sample_dims=0, batch_dim)` for the offsets `u` drawn by `torch.rand(b)` (combinators/resamplers.py:120-135). -/
noncomputable def ancestorIndices (lw : Nd ℝ) (batchDim : Int) (u : Nat → Nd ℝ) : Except Err (Nd Nat) := do
  let n ← Shape.dim lw.shape 0
  let b ← Shape.dim lw.shape batchDim
  let usteps ← stackLast ((List.range n).map fun k : Nat => (u b).map fun x => (k : ℝ) + x)
  let usteps := usteps.map fun x : ℝ => x / (n : ℝ)
  let nws ← lw.along 0 id fun _ v => softmax v
  let csum ← nws.transpose 0 (-1)
  let csum ← csum.along (-1) id fun _ v => cumsum v
  let cmax ← csum.along (-1) (fun _ => 1) fun n v _ => if h : n = 0 then 0 else have : NeZero n := ⟨h⟩; maxOf v
  let ncsum ← map₂ (· / ·) csum cmax
  let aidx ← searchsortedT ncsum usteps
  aidx.transpose (-1) 0

/-- The new log weights (combinators/resamplers.py:111-117), `sample_dims = 0`. -/
noncomputable def newWeights (lw : Nd ℝ) (normalize : Bool) : Except Err (Nd ℝ) := do
  let n ← Shape.dim lw.shape 0
  let lse ← (lw.map fun x => x - Real.log n).along 0 (fun _ => 1) fun _ v _ => logsumexp v
  let lw ← lse.expand lw.shape
  if normalize then do
    let p ← lw.along 0 id fun _ v => softmax v
    .ok (p.map Real.log)
  else .ok lw

/-- What `Systematic.__call__` does with the log weight, and with the tensors of the variables that are resampled (combinators/resamplers.py:56-118):
values and log_probs. `u b` are the offsets if `b` are drawn. -/
noncomputable def systematicNd (normalize : Bool) (lw : Nd ℝ) (sampleDims : Int) (batchDim : Option Int) (u : Nat → Nd ℝ) (zs : List (Nd ℝ)) :
    Except Err (List (Nd ℝ) × Nd ℝ) :=
  if sampleDims ≠ 0 then .error .assertion
  else do
    let lw ← match batchDim with
      | none => if lw.shape.length = 1 then lw.unsqueeze 1 else .error .assertion
      | some _ => .ok lw
    let aidx ← ancestorIndices lw (batchDim.getD 1) u
    let aidx ← match batchDim with
      | none => aidx.squeeze 1
      | some _ => .ok aidx
    let zs ← zs.mapM fun z => z.pick aidx sampleDims
    let lw ← newWeights lw normalize
    .ok (zs, lw)

end Nd
end Verif
