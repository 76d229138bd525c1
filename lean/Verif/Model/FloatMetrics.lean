import Verif.Model.FloatResampler
/-
The metrics (combinators/metrics.py) and the log weight after resampling (combinators/resamplers.py:104-108) in floating-point arithmetic, for one batch
element.
-/
namespace Verif
namespace Fp

/-- `2 * x`. -/
noncomputable def Num.two (A : Arith) : Num → Num
  | .fin x => fit A.top (A.rd (2 * x))
  | x => x

/-- `x + y` in the format of the tensors. -/
noncomputable def Num.plus (A : Arith) (x y : Num) : Num := x.add { A with acc := A.rd, accTop := A.top } y

/-- An infinite number replaced by 0. -/
noncomputable def Num.finOr0 : Num → Num
  | .pinf => .fin 0
  | .ninf => .fin 0
  | x => x

/-- `Z_hat(lw)` (combinators/metrics.py:30-31): `lw.exp().mean(dim)`. -/
noncomputable def zHat (A : Arith) (t : SumTree) (lw : Nat → Num) (n : Nat) : Num := ((t.sum A fun i => (lw i).exp A).round A).div A (.fin n)

/-- `log_Z_hat(lw)` (combinators/metrics.py:26-27). -/
noncomputable def logZHat (A : Arith) (t : SumTree) (lw : Nat → Num) (n : Nat) : Num := (zHat A t lw n).log A

/-- `torch.logsumexp`: subtracts the maximum, if it is finite. -/
noncomputable def logsumexp (A : Arith) (t : SumTree) (v : Nat → Num) (n : Nat) : Num :=
  let m := (maxOf v n).finOr0
  (((t.sum A fun i => ((v i).sub A m).exp A).round A).log A).plus A m

/-- `effective_sample_size(lw)` (combinators/metrics.py:20-23). softmax (`B`) and logsumexp (`A`) may use different accumulators. -/
noncomputable def ess (A B : Arith) (t t' : SumTree) (lw : Nat → Num) (n : Nat) : Num :=
  (logsumexp A t' (fun i => ((softmax B t lw n i).log A).two A) n).neg.exp A

/-- The log weight after resampling (combinators/resamplers.py:104-108); `logn` is `math.log(n)`. -/
noncomputable def newLogWeight (A : Arith) (t : SumTree) (lw : Nat → Num) (n : Nat) (logn : ℝ) : Num :=
  logsumexp A t (fun i => (lw i).sub A (.fin logn)) n

end Fp
end Verif
