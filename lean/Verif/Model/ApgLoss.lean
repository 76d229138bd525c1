import Verif.Model.Apg
import Verif.Model.Resampler
/-
The arithmetic of `loss_is` and `loss_apg` on tensors with a sample and a batch dimension.
-/
namespace Verif
variable {n b : Nat}

/-- `(w * (-log_q)).sum(0).mean()` with `w = F.softmax(log_w, 0)` (experiments/apgs/objectives.py:19-20,23-24,30-31,48-49). Simplified: the
mean over an empty batch, NaN in torch, is 0. -/
noncomputable def weightedLoss (lw l : Fin n → Fin b → ℝ) : ℝ := (∑ j, ∑ i, softmax (fun i => lw i j) i * -(l i j)) / b

/-- The arithmetic of `loss_is` (experiments/apgs/objectives.py:19-25), without `total_loss`. -/
noncomputable def isArith (lw lq lp : LW (Fin n → Fin b → ℝ)) : ℝ := weightedLoss lw.val lq.val + weightedLoss lw.val lp.val

/-- The arithmetic of `loss_apg` (experiments/apgs/objectives.py:30-31,43-51), without `total_loss`. The reconstruction's log_prob is
already summed over all dimensions but the first two. -/
noncomputable def apgArith (lw lq : LW (Fin n → Fin b → ℝ)) (lp : Fin n → Fin b → ℝ) : ℝ := weightedLoss lw.val lq.val + weightedLoss lw.val lp

end Verif
