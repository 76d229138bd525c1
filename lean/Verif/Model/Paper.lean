import Verif.Model.Kernel
import Verif.Model.Path
/-
experiments/annealing/models.py: the annealing model of the paper with its parameters, as `mk_model(num_targets)` makes it and as training leaves it.
Arithmetic is exact.
-/
namespace Verif

/-- The parameters of `paper_model` (experiments/annealing/models.py:265-295): the networks of the forward and reverse kernels, and the logits of
the tempered targets (parameters if `optimize_path`, constants otherwise; lines 178-182); `logit k` is that of target g(k+1). -/
structure PaperParams where
  net : Nat → ResMLPJ 2 50
  net' : Nat → ResMLPJ 2 50
  logit : Nat → ℝ

/-- A distribution of the experiment: a normal distribution with diagonal covariance, or an unnormalised log density (`Density.log_density_fn`,
experiments/annealing/models.py:66-72). -/
abbrev PaperDist := ((Fin 2 → ℝ) × (Fin 2 → ℝ)) ⊕ ((Fin 2 → ℝ) → ℝ)

/-- `log_prob` of either. -/
noncomputable def paperLp : PaperDist → (Fin 2 → ℝ) → ℝ
  | .inl d, v => mvnLogProb d v
  | .inr g, v => g v

/-- The initial target `FixedMultivariateNormal(loc=zeros(2), cov=eye(2) * 5 ** 2)` (experiments/annealing/models.py:266-270). -/
noncomputable def paperInitial : (Fin 2 → ℝ) × (Fin 2 → ℝ) := (fun _ => 0, fun _ => 1 * 5 ^ 2)

/-- The components of `RingGMM(radius=10, scale=0.5, count=8)` (experiments/annealing/models.py:243-250 and 271-273). -/
noncomputable def paperComponents : Except Err (List ((Fin 2 → ℝ) → ℝ)) :=
  match ringLocs 10 8 with
  | .error e => .error e
  | .ok locs => gmmComponents (fun (p : ℝ × ℝ) c => mvnLogProb (![p.1, p.2], c)) locs (List.replicate 8 fun _ => 1 * (1 / 2))

/-- The `log_density_fn` of that ring; 0 should it raise (it never does: `paperRing_ok`). -/
noncomputable def paperRing (v : Fin 2 → ℝ) : ℝ :=
  match paperComponents with
  | .error _ => 0
  | .ok cs => match gmmDensity cs v with
    | .error _ => 0
    | .ok d => d

/-- `Tempered.log_density_fn` (experiments/annealing/models.py:186-196) with the present value of `logit`. -/
noncomputable def temperedAt {V : Type} (l : ℝ) (g0 gK : V → ℝ) (v : V) : ℝ := g0 v * (1 - sigmoid l) + gK v * sigmoid l

/-- The log density of target g(k+1) of `K + 1` targets, k < K (experiments/annealing/models.py:253-262): the last one is the ring. -/
noncomputable def paperTarget (p : PaperParams) (K k : Nat) : (Fin 2 → ℝ) → ℝ :=
  if k + 1 < K then temperedAt (p.logit k) (mvnLogProb paperInitial) paperRing else paperRing

end Verif
