import Verif.Spec.Weighting
/-
Bounds on the evidence: what to call the probability of an event, and the mean of a real quantity, over the runs of a call.
-/
namespace Verif.Spec
open MeasureTheory
open scoped ENNReal
variable {V D Lo : Type} [AddCommMonoid Lo] {lp : D → V → ℝ} [MeasurableSpace V]

/-- A function of results, zero where the call raised. -/
noncomputable def onReturn {L : Lang} {α : Type} (g : α → ℝ≥0∞) (r : Except Err α × World L) : ℝ≥0∞ :=
  match r.1 with
  | .ok o => g o
  | .error _ => 0

/-- One if `P` holds. -/
noncomputable def indicate (P : Prop) : ℝ≥0∞ := @ite _ P (Classical.dec P) 1 0

/-- The mean of `x` is at most `y`: the mean excess is at most the mean shortfall. (Both may be infinite, then nothing is said.) -/
def MeanLe {α : Type} (E : (α → ℝ≥0∞) → ℝ≥0∞) (x : α → ℝ) (y : ℝ) : Prop :=
  E (fun o => ENNReal.ofReal (x o - y)) ≤ E (fun o => ENNReal.ofReal (y - x o))

/-- Everything drawn is drawn from a normalised distribution. (Densities of targets need not be normalised.) -/
def ProperDraws (μ : Measure V) {α : Type} : Comp (PLang V D Lo lp) α → Prop
  | .ret _ => True
  | .draw d _ k => Normalised μ lp d ∧ ∀ v, ProperDraws μ (k v)
  | .rand k => ProperDraws μ (k ())

end Verif.Spec
