import Mathlib.Analysis.SpecialFunctions.Log.Basic
import Mathlib.Analysis.SpecialFunctions.Exp
import Mathlib.Analysis.Real.Pi.Bounds
import Mathlib.Algebra.BigOperators.Fin
import Verif.Model.Resampler
import Verif.Spec.Annealing
/-
experiments/annealing/models.py: the networks ResMLPJ and the kernels ConditionalMultivariateNormal built on them. Arithmetic is exact.
-/
namespace Verif

/-- `nn.Linear(a, b)`: weight and bias. -/
structure Linear (a b : Nat) where
  weight : Fin b → Fin a → ℝ
  bias : Fin b → ℝ

/-- Calling an `nn.Linear` on a vector. -/
def Linear.app {a b : Nat} (l : Linear a b) (x : Fin a → ℝ) (i : Fin b) : ℝ := (∑ j, l.weight i j * x j) + l.bias i

/-- `nn.ReLU` -/
def relu {a : Nat} (x : Fin a → ℝ) (i : Fin a) : ℝ := max (x i) 0

/-- `F.softplus` with its defaults: the argument itself above the threshold 20. -/
noncomputable def softplus (x : ℝ) : ℝ := open Classical in if 20 < x then x else Real.log (1 + Real.exp x)

/-- `ResMLPJ(d, h, d)` (experiments/annealing/models.py:43-48); `x` is added to the mean, so the sizes of input and output agree. -/
structure ResMLPJ (d h : Nat) where
  joint : Linear d h
  mu : Linear h d
  cov : Linear h d

/-- `ResMLPJ.forward` (experiments/annealing/models.py:50-54). -/
def ResMLPJ.forward {d h : Nat} (n : ResMLPJ d h) (x : Fin d → ℝ) : Fin (d + d) → ℝ :=
  let y := relu (n.joint.app x)
  Fin.append (fun i => n.mu.app y i + x i) (n.cov.app y)

/-- `ResMLPJ.initialize_` (experiments/annealing/models.py:56-63): weights are set to zero, biases to zero and then to the arguments. -/
def ResMLPJ.initialize {d h : Nat} (n : ResMLPJ d h) (locOffset covEmb : Fin d → ℝ) : ResMLPJ d h :=
  { n with
    mu := { weight := fun _ _ => 0, bias := fun i => 0 + locOffset i }
    cov := { weight := fun _ _ => 0, bias := fun i => 0 + covEmb i } }

/-- The network of a new `ConditionalMultivariateNormal(.., loc, cov, net)` (experiments/annealing/models.py:140-149). Logarithms of numbers that are
not positive, where torch gives nan or -inf, are not modelled. -/
noncomputable def newKernel {h : Nat} (net : ResMLPJ 2 h) (cov : Fin 2 → Fin 2 → ℝ) : ResMLPJ 2 h :=
  net.initialize (fun _ => 0) fun i => Real.log (Real.exp (cov i i) - 1)

/-- The mean and the diagonal of the covariance that `ConditionalMultivariateNormal.model` makes of its input
(experiments/annealing/models.py:152-154). -/
noncomputable def kernelDist {h : Nat} (net : ResMLPJ 2 h) (x : Fin 2 → ℝ) : (Fin 2 → ℝ) × (Fin 2 → ℝ) :=
  let out := net.forward x
  (fun i => out (Fin.castAdd 2 i), fun i => softplus (out (Fin.natAdd 2 i)))

/-- `log_prob` of the multivariate normal distribution with diagonal covariance (torch; by a Cholesky factor there). -/
noncomputable def mvnLogProb (d : (Fin 2 → ℝ) × (Fin 2 → ℝ)) (v : Fin 2 → ℝ) : ℝ :=
  -(1 / 2) * (2 * Real.log (2 * Real.pi) + ∑ i, (v i - d.1 i) ^ 2 / d.2 i) - (1 / 2) * Real.log (∏ i, d.2 i)

/-- Tensors of points in the plane with diagonal normal distributions; `n` particles, `b` batch elements. -/
@[reducible] noncomputable def GaussLang (n b : Nat) : Lang :=
  TLang n b (Fin 2 → ℝ) (Fin n → Fin b → (Fin 2 → ℝ) × (Fin 2 → ℝ)) fun d v s j => mvnLogProb (d s j) (v s j)

/-- The kernel of `paper_model` (experiments/annealing/models.py:275-283) as a function from tensors to distributions: the network is applied along
the last dimension. -/
noncomputable def paperKernel (n b : Nat) (net : ResMLPJ 2 50) (std : ℝ) (x : (GaussLang n b).V) : (GaussLang n b).D :=
  fun s j => kernelDist (newKernel net fun i i' => if i = i' then std ^ 2 else 0) (x s j)

end Verif
