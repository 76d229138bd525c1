import Verif.Model.Tensor
import Verif.Model.Metrics
/-
combinators/metrics.py on tensors of any shape, and the tensors that experiments/annealing/main.py applies it to. Real numbers; the dimension that is reduced is not empty.
-/
namespace Verif
namespace Nd

/-- `effective_sample_size(lw, sample_dims)` (combinators/metrics.py:20-23). The default for `sample_dims` is -1. -/
noncomputable def effectiveSampleSize (lw : Nd ℝ) (sampleDims : Int := -1) : Except Err (Nd ℝ) := do
  let p ← lw.along sampleDims id fun _ v => softmax v
  let lnw := p.map Real.log
  let r ← (lnw.map fun x => 2 * x).reduce sampleDims fun _ v => logsumexp v
  .ok (r.map fun x => Real.exp (-x))

/-- `Z_hat(lw, sample_dims)` (combinators/metrics.py:30-31). -/
noncomputable def zHat (lw : Nd ℝ) (sampleDims : Int := -1) : Except Err (Nd ℝ) := (lw.map Real.exp).reduce sampleDims fun n v => (∑ i, v i) / n

/-- `log_Z_hat(lw, sample_dims)` (combinators/metrics.py:26-27). -/
noncomputable def logZHat (lw : Nd ℝ) (sampleDims : Int := -1) : Except Err (Nd ℝ) := do
  let z ← lw.zHat sampleDims
  .ok (z.map Real.log)

/-- `torch.stack(ts)`: RuntimeError for no tensors and for tensors of different shapes. -/
def stack {α : Type} (ts : List (Nd α)) : Except Err (Nd α) :=
  match ts with
  | [] => .error .runtime
  | t :: _ => if ∀ u ∈ ts, u.shape = t.shape then .ok (ofFn (ts.length :: t.shape) fun is => (ts.getD (is.headD 0) t).get is.tail) else .error .runtime

/-- The metrics of `nvi_test` (experiments/annealing/main.py:105-111): of the steps' log weights, stacked, along `sample_dims + 1`. -/
noncomputable def testMetrics (lws : List (Nd ℝ)) (sampleDims : Int) : Except Err (Nd ℝ × Nd ℝ) := do
  let lw ← stack lws
  let ess ← lw.effectiveSampleSize (sampleDims + 1)
  let lz ← lw.logZHat (sampleDims + 1)
  .ok (ess, lz)

/-- The metrics of `nvi_train` (experiments/annealing/main.py:46,88-93): of the log weights of all iterations and steps along dimension 2. (`full_lws` is allocated with the shapes of the
first call and filled in place; without iterations it is empty.) -/
noncomputable def trainMetrics (lws : List (List (Nd ℝ))) : Except Err (Nd ℝ × Nd ℝ) := do
  let rows ← lws.mapM stack
  let lw ← stack rows
  let ess ← lw.effectiveSampleSize 2
  let lz ← lw.logZHat 2
  .ok (ess, lz)

end Nd
end Verif
