import Verif.Model.Ieee
/-
The probability of a lit pixel in `DecoderFull` (experiments/apgs/models.py:379-385) and what torch's `Bernoulli` makes of it, in IEEE arithmetic.
-/
namespace Verif
namespace Fp

/-- `torch.clamp(…, min=0.0, max=1.0) + EPS` for one pixel whose brightnesses add up to `s` (experiments/apgs/models.py:366,379-385): tensors of format `F`. The Python number
`EPS` becomes a number of that format. -/
noncomputable def pixelProbs (F : Format) (s : ℝ) : ℝ := F.round (max 0 (min s 1) + F.round (1 / 10 ^ 9))

/-- `Bernoulli(probs=p)` (torch): ValueError unless `p` is in the unit interval. -/
noncomputable def bernoulliArg (p : ℝ) : Except Err ℝ := if 0 ≤ p ∧ p ≤ 1 then .ok p else .error .value

/-- `clamp_probs` (torch): `eps` is `torch.finfo(dtype).eps`. -/
noncomputable def clampArg (F : Format) (p : ℝ) : ℝ :=
  let eps := 2 / 2 ^ F.p
  min (max p eps) (F.round (1 - eps))

/-- `probs_to_logits(probs, is_binary=True)` (torch), `log` and `log1p` correctly rounded. -/
noncomputable def pixelLogits (F : Format) (p : ℝ) : ℝ := F.round (F.round (Real.log (clampArg F p)) - F.round (Real.log (1 - clampArg F p)))

end Fp
end Verif
