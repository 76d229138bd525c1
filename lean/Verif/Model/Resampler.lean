import Mathlib.Algebra.BigOperators.Fin
import Mathlib.Algebra.Order.Field.Basic
import Mathlib.Analysis.SpecialFunctions.Log.Basic
import Verif.Model.Inference
/-
combinators/resamplers.py, in exact arithmetic.
-/
namespace Verif

section
variable {K : Type} [Field K] [LinearOrder K] {n b : Nat}

/-- `torch.cumsum` of a vector (combinators/resamplers.py:129). -/
def cumsum (w : Fin n → K) (i : Fin n) : K := ∑ j ∈ Finset.univ.filter (fun j => j ≤ i), w j

/-- `torch.max` of a non-empty vector (combinators/resamplers.py:130). -/
def maxOf [NeZero n] (c : Fin n → K) : K := Finset.univ.sup' ⟨0, Finset.mem_univ 0⟩ c

/-- `torch.searchsorted(c, x, right=False)` on a sorted vector (combinators/resamplers.py:133): the first index `i` with
`x <= c[i]`, and the length if there is none. -/
def searchsorted (c : Fin n → K) (x : K) : Nat := (List.finRange n).findIdx (fun i => decide (x ≤ c i))

/-- `(k + u) / n` (combinators/resamplers.py:126). -/
def ustep (n : Nat) (u : K) (k : Fin n) : K := ((k.val : K) + u) / (n : K)

/-- `ancestor_indices_systematic` for one batch element, from the softmax weights `nws`
(combinators/resamplers.py:125-133). -/
def ancestors [NeZero n] (nws : Fin n → K) (u : K) (k : Fin n) : Nat :=
  searchsorted (fun i => cumsum nws i / maxOf (cumsum nws)) (ustep n u k)

/-- `Resampler.pick` for `sample_dims = 0`: `z.gather(0, aidx)` with the index repeated over the data dimensions
(combinators/resamplers.py:37-48). An index outside the tensor raises. The shape assertion holds, all tensors here have
leading dimensions `n, b`. -/
def pickT {X : Type} (aidx : Fin n → Fin b → Nat) (z : Fin n → Fin b → X) : Except Err (Fin n → Fin b → X) :=
  if h : ∀ s j, aidx s j < n then .ok (fun s j => z ⟨aidx s j, h s j⟩ j) else .error .runtime

end

section
variable {n b : Nat}

/-- `F.softmax` of a vector (combinators/resamplers.py:127). -/
noncomputable def softmax (lw : Fin n → ℝ) (i : Fin n) : ℝ := Real.exp (lw i) / ∑ j, Real.exp (lw j)

/-- `torch.logsumexp` of a vector (combinators/resamplers.py:111). -/
noncomputable def logsumexp (lw : Fin n → ℝ) : ℝ := Real.log (∑ j, Real.exp (lw j))

/-- Tensors with a sample dimension `n` and a batch dimension `b`, real log weights, offsets in [0, 1).
`X` are the data dimensions. Simplified: values only, so `detach` is the identity. A weight tensor compares equal to 0.0
in an `assert` only if it has one element. -/
noncomputable def TLang (n b : Nat) (X D : Type) (lp : D → (Fin n → Fin b → X) → Fin n → Fin b → ℝ) : Lang where
  V := Fin n → Fin b → X
  W := Fin n → Fin b → ℝ
  D := D
  U := Fin b → Set.Ico (0 : ℝ) 1
  Lo := ℝ
  grpW := inferInstance
  monLo := inferInstance
  logProb := lp
  detachV := id
  detachW := id
  veq v v' := @decide (v = v') (Classical.dec _)
  isZero w := @decide (n * b = 1 ∧ w = 0) (Classical.dec _)
  isZero_spec _ h := (@of_decide_eq_true _ (Classical.dec _) h).2

variable {X D : Type} {lp : D → (Fin n → Fin b → X) → Fin n → Fin b → ℝ}

/-- The loop body of `Systematic.__call__` for one variable (combinators/resamplers.py:81-109). The new objects get the
given provenance, and their class's defaults for what is not passed (resamplable; reparameterized of an improper one). -/
noncomputable def resampleRV (aidx : Fin n → Fin b → Nat) (rv : RV (TLang n b X D lp)) :
    Except Err (RV (TLang n b X D lp)) :=
  if !rv.resamplable || rv.prov == .observed then .ok rv
  else do
    let value ← pickT aidx rv.value
    let logProb ← pickT aidx rv.logProb
    match rv.kind with
    | .proper d => .ok { kind := .proper d, value, logProb, prov := rv.prov, reparam := rv.reparam, resamplable := true }
    | .improper f => .ok { kind := .improper f, value, logProb, prov := rv.prov, reparam := true, resamplable := true }
    | .other => .error .notImplemented

/-- The loop of `Systematic.__call__` (combinators/resamplers.py:80-109). -/
noncomputable def resampleTrace (aidx : Fin n → Fin b → Nat) (t : Trace (TLang n b X D lp)) :
    Except Err (Trace (TLang n b X D lp)) :=
  t.entries.foldlM (fun new e => do let rv ← resampleRV aidx e.2; .ok (new.insert e.1 rv)) Dict.empty

/-- The new log weights of one batch element (combinators/resamplers.py:111-117). -/
noncomputable def resampledLw (normalize : Bool) (lw : Fin n → ℝ) : Fin n → ℝ :=
  let lw' : Fin n → ℝ := fun _ => logsumexp (fun i => lw i - Real.log n)
  if normalize then fun i => Real.log (softmax lw' i) else lw'

/-- `sample_dims == 0` and the batch dimension (combinators/resamplers.py:63-69,121-123): with `oneD` the tensors have
no batch dimension (`b = 1` stands for it) and `batch_dim` must be None; otherwise it is 1 or -1, or 0 if that has the same
size. Simplified: an integer `batch_dim` for one-dimensional tensors is rejected (the code fails later, in `pick`). -/
def checkDims (oneD : Bool) (n b : Nat) {L : Lang} (sampleDims batchDim : PyVal L) : Except Err Unit :=
  match sampleDims with
  | .int 0 =>
    match oneD, batchDim with
    | true, .none => .ok ()
    | true, _ => .error .assertion
    | false, .none => .error .assertion
    | false, .int 1 => .ok ()
    | false, .int (-1) => .ok ()
    | false, .int 0 => if n = b then .ok () else .error .runtime
    | false, _ => .error .index
  | _ => .error .assertion

/-- `Systematic.__call__` after the checks, for given offsets (combinators/resamplers.py:71-118,125-135).
`torch.stack` of no tensors raises (n = 0). -/
noncomputable def systematicAt (normalize : Bool) (t : Trace (TLang n b X D lp)) (lw : Fin n → Fin b → ℝ)
    (u : Fin b → Set.Ico (0 : ℝ) 1) : Except Err (Trace (TLang n b X D lp) × LW (TLang n b X D lp).W) :=
  if h : n = 0 then .error .runtime
  else
    have : NeZero n := ⟨h⟩
    match resampleTrace (fun s j => ancestors (softmax fun i => lw i j) (u j).1 s) t with
    | .error e => .error e
    | .ok t' => .ok (t', .tensor fun s j => resampledLw normalize (fun i => lw i j) s)

/-- `Systematic(normalize_weights)(trace, log_weight, sample_dims, batch_dim)` (combinators/resamplers.py:56-135).
The Python float 0.0 has no `shape` (AttributeError). -/
noncomputable def systematic (oneD normalize : Bool) : ResamplerFn (TLang n b X D lp) :=
  fun sampleDims batchDim t lw =>
    match lw with
    | .float0 =>
      match sampleDims with
      | .int 0 => .ret (.error .attribute)
      | _ => .ret (.error .assertion)
    | .tensor lw =>
      match checkDims oneD n b sampleDims batchDim with
      | .error e => .ret (.error e)
      | .ok () => .rand fun u => .ret (systematicAt normalize t lw u)

end
end Verif
