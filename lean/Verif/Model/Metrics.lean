import Verif.Model.Resampler
/-
combinators/metrics.py, for one vector along `sample_dims`, in exact arithmetic.
-/
namespace Verif
variable {n : Nat}

/-- `effective_sample_size` (combinators/metrics.py:20-23). -/
noncomputable def effectiveSampleSize (lw : Fin n → ℝ) : ℝ :=
  let lnw : Fin n → ℝ := fun i => Real.log (softmax lw i)
  Real.exp (-logsumexp fun i => 2 * lnw i)

/-- `Z_hat` (combinators/metrics.py:30-31). -/
noncomputable def zHat (lw : Fin n → ℝ) : ℝ := (∑ i, Real.exp (lw i)) / n

/-- `log_Z_hat` (combinators/metrics.py:26-27). -/
noncomputable def logZHat (lw : Fin n → ℝ) : ℝ := Real.log (zHat lw)

end Verif
