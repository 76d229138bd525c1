import Mathlib.Analysis.SpecialFunctions.Trigonometric.DerivHyp
import Mathlib.MeasureTheory.Constructions.Pi
import Mathlib.MeasureTheory.Measure.Lebesgue.Basic
import Mathlib.Logic.Equiv.Fin.Basic
import Verif.Model.Affine
import Verif.Model.Apg
import Verif.Model.Kernel
import Verif.Model.Path
import Verif.Spec.Weighting
/-
experiments/apgs/models.py: the networks of the programs, for one particle and one batch element. Arithmetic is exact.
-/
namespace Verif.Bouncing
open MeasureTheory Spec

/-- The parameters of the networks. `fp`, `dp`: frame and shape pixels; `hd`, `hc`: hidden units; `zd`: `z_what_dim`; `int(0.5 * h)` is `h / 2`.
* `dec*` is `dec_digit_mean` of the decoder (experiments/apgs/models.py:267-274);
* `coor`, `mean*`, `std*` are `enc_coor_hidden`, `where_mean`, `where_log_std` (lines 94-109);
* `digit*`, `what*` are `enc_digit_hidden`, `enc_digit_mean`, `enc_digit_log_std` (lines 210-221). -/
structure Params (fp dp hd hc zd : Nat) where
  dec1 : Linear zd (hd / 2)
  dec2 : Linear (hd / 2) hd
  dec3 : Linear hd (dp * dp)
  coor : Linear ((fp - dp + 1) * (fp - dp + 1)) hc
  mean1 : Linear hc (hc / 2)
  mean2 : Linear (hc / 2) 2
  std1 : Linear hc (hc / 2)
  std2 : Linear (hc / 2) 2
  digit1 : Linear (dp * dp) hd
  digit2 : Linear hd (hd / 2)
  whatMean : Linear (hd / 2) zd
  whatStd : Linear (hd / 2) zd

/-- The position of one object; of all objects; the appearance of all; the frames. -/
abbrev One := Fin 2 → ℝ
abbrev Pos (K : Nat) := Fin K → Fin 2 → ℝ
abbrev What (K zd : Nat) := Fin K → Fin zd → ℝ
abbrev Video (T fp : Nat) := Fin T → Img fp

/-- The tensors of the programs, without the sample and batch dimensions. -/
abbrev Val (K zd T fp : Nat) := (One ⊕ Pos K) ⊕ (What K zd ⊕ Video T fp)

section
variable {K zd T fp : Nat}

abbrev mkOne (z : One) : Val K zd T fp := .inl (.inl z)
abbrev mkPos (z : Pos K) : Val K zd T fp := .inl (.inr z)
abbrev mkWhat (z : What K zd) : Val K zd T fp := .inr (.inl z)
abbrev mkVideo (z : Video T fp) : Val K zd T fp := .inr (.inr z)

/-- The tensor as one of the given shape; what the code does with tensors of wrong shapes is not modelled (here they count as zero). -/
def toOne : Val K zd T fp → One := Sum.elim (Sum.elim id fun _ => 0) fun _ => 0
def toPos : Val K zd T fp → Pos K := Sum.elim (Sum.elim (fun _ => 0) id) fun _ => 0
def toWhat : Val K zd T fp → What K zd := Sum.elim (fun _ => 0) (Sum.elim id fun _ => 0)
def toVideo : Val K zd T fp → Video T fp := Sum.elim (fun _ => 0) (Sum.elim (fun _ => 0) id)

/-- The distributions of the programs: Normal(loc, scale) for the position of one object, for those of all, for the appearance; Bernoulli(probs). -/
inductive Dist (K zd T fp : Nat)
  | one (loc scale : One)
  | pos (loc scale : Pos K)
  | what (loc scale : What K zd)
  | video (probs : Video T fp)

/-- `Normal.log_prob` (torch). -/
noncomputable def normalLp (loc scale v : ℝ) : ℝ := -(v - loc) ^ 2 / (2 * scale ^ 2) - Real.log scale - Real.log (√(2 * Real.pi))

/-- `clamp_probs` (torch), to which `Bernoulli.log_prob` subjects `probs`: away from 0 and 1 by the float32 epsilon. -/
noncomputable def clampProbs (p : ℝ) : ℝ := max (1 / 2 ^ 23) (min p (1 - 1 / 2 ^ 23))

/-- `Bernoulli.log_prob` (torch; computed by way of logits there). -/
noncomputable def bernoulliLp (probs v : ℝ) : ℝ := v * Real.log (clampProbs probs) + (1 - v) * Real.log (1 - clampProbs probs)

/-- `log_prob`, summed over all but the sample and batch dimensions. -/
noncomputable def logProb : Dist K zd T fp → Val K zd T fp → ℝ
  | .one m s, v => ∑ i, normalLp (m i) (s i) (toOne v i)
  | .pos m s, v => ∑ k, ∑ i, normalLp (m k i) (s k i) (toPos v k i)
  | .what m s, v => ∑ k, ∑ i, normalLp (m k i) (s k i) (toWhat v k i)
  | .video p, v => ∑ t, ∑ i, ∑ j, bernoulliLp (p t i j) (toVideo v t i j)

/-- The measure with respect to which a distribution has its density: Lebesgue measure on tensors of its shape; counting for Bernoulli. -/
noncomputable def base : Dist K zd T fp → Measure (Val K zd T fp)
  | .one .. => volume.map mkOne
  | .pos .. => volume.map mkPos
  | .what .. => volume.map mkWhat
  | .video .. =>
    (Measure.pi fun _ => Measure.pi fun _ => Measure.pi fun _ => Measure.dirac 0 + Measure.dirac 1).map mkVideo

/-- Tensors and distributions of the experiment for one particle. -/
@[reducible] noncomputable def L (K zd T fp : Nat) : Lang := PLang (Val K zd T fp) (Dist K zd T fp) ℝ logProb
end

variable {fp dp hd hc zd : Nat}

/-- Row-major `view` of a square. -/
def flat {n : Nat} (img : Fin n → Fin n → ℝ) (q : Fin (n * n)) : ℝ := img (finProdFinEquiv.symm q).1 (finProdFinEquiv.symm q).2

/-- `dec_digit_mean` of one object's appearance, as an image (experiments/apgs/models.py:267-274,287-291). -/
noncomputable def digitMean (P : Params fp dp hd hc zd) (w : Fin zd → ℝ) : Img dp := fun i j =>
  sigmoid (P.dec3.app (relu (P.dec2.app (relu (P.dec1.app w)))) (finProdFinEquiv (i, j)))

/-- `F.conv2d` of one frame and one kernel (experiments/apgs/models.py:137-142): cross-correlation without padding. The frame is at least as large
as the kernel. -/
noncomputable def conv (frame : Img fp) (ker : Img dp) : Fin (fp - dp + 1) → Fin (fp - dp + 1) → ℝ := fun i j =>
  ∑ a : Fin dp, ∑ b : Fin dp, pixelAt frame ((i : ℕ) + (a : ℕ) : ℤ) ((j : ℕ) + (b : ℕ) : ℤ) * ker a b

/-- The hidden layer for one object (experiments/apgs/models.py:137-148). -/
noncomputable def coorHidden (P : Params fp dp hd hc zd) (left : Img fp) (ker : Img dp) : Fin hc → ℝ :=
  relu (P.coor.app (softmax (flat (conv left ker))))

/-- `q_mean_k` (experiments/apgs/models.py:98-103,149). -/
noncomputable def coorMean (P : Params fp dp hd hc zd) (left : Img fp) (ker : Img dp) : One := fun i =>
  Real.tanh (P.mean2.app (relu (P.mean1.app (coorHidden P left ker))) i)

/-- `q_std_k` (experiments/apgs/models.py:105-109,150). -/
noncomputable def coorStd (P : Params fp dp hd hc zd) (left : Img fp) (ker : Img dp) : One := fun i =>
  Real.exp (P.std2.app (relu (P.std1.app (coorHidden P left ker))) i)

/-- `digit_to_frame` for one object (experiments/apgs/models.py:162-169). -/
noncomputable def paste (digit : Img dp) (z : One) : Img fp := warp (thetaDtoF fp dp (z 0, z 1)) digit

/-- `frame_left` before object `k`, the positions of the objects before being `z` (experiments/apgs/models.py:127,161-171). -/
noncomputable def frameLeft {K : Nat} (frame : Img fp) (ker : Fin K → Img dp) (z : Nat → One) : Nat → Img fp
  | 0 => frame
  | k + 1 => fun i j => frameLeft frame ker z k i j - if h : k < K then paste (ker ⟨k, h⟩) (z k) i j else 0

section
variable {K T : Nat}

/-- `conv_kernel` (experiments/apgs/models.py:119-124): the mean shape in sweep 0, else from the appearance. -/
noncomputable def kernels (P : Params fp dp hd hc zd) (meanShape : Img dp) : Option (Val K zd T fp) → Fin K → Img dp
  | none, _ => meanShape
  | some w, k => digitMean P (toWhat w k)

/-- `frames[:, :, t]`: Python's index; not out of range (`Model/Apg` raises before). -/
def frameAt (f : Video T fp) (t : Int) : Img fp :=
  if h : 0 ≤ t ∧ t < T then f ⟨t.toNat, by omega⟩ else if h : -T ≤ t ∧ t < 0 then f ⟨(T + t).toNat, by omega⟩ else 0

/-- The positions of the objects so far. -/
def zAt (zs : List (Val K zd T fp)) (k : Nat) : One := toOne ((zs[k]?).getD (mkOne 0))

/-- The hidden layer of `Enc_digit` for one object (experiments/apgs/models.py:236-238): the mean over the frames. -/
noncomputable def digitHidden (P : Params fp dp hd hc zd) (f : Video T fp) (z : Fin T → One) : Fin (hd / 2) → ℝ := fun i =>
  (∑ t, relu (P.digit2.app (relu (P.digit1.app (flat (warp (thetaFtoD fp dp (z t 0, z t 1)) (f t)))))) i) / T

/-- The positions of object `k` at all times. -/
def posAt (zs : List (Val K zd T fp)) (k : Fin K) (t : Fin T) : One := toPos ((zs[(t : Nat)]?).getD (mkPos 0)) k

/-- `recon_frames + EPS` (experiments/apgs/models.py:379-385). -/
noncomputable def reconProbs (P : Params fp dp hd hc zd) (z : Fin T → Pos K) (w : What K zd) : Video T fp := fun t i j =>
  max 0 (min (∑ k, paste (fp := fp) (digitMean P (w k)) (z t k) i j) 1) + 1 / 10 ^ 9

/-- The programs' networks. The priors of positions and appearance (experiments/apgs/models.py:276-280) broadcast to all objects. -/
noncomputable def net (P : Params fp dp hd hc zd) (meanShape : Img dp) (K T : Nat) (reparam : Bool) : ApgNet (L K zd T fp) where
  objects := K
  timesteps _ := T
  coorStep f t what zs :=
    if h : zs.length < K then
      let ker := kernels P meanShape what
      let left := frameLeft (frameAt (toVideo f) t) ker (zAt zs) zs.length
      .one (coorMean P left (ker ⟨zs.length, h⟩)) (coorStd P left (ker ⟨zs.length, h⟩))
    else .one 0 1
  stack zs := mkPos fun k => zAt zs k
  slice v k := mkOne (if h : k < K then toPos v ⟨k, h⟩ else 0)
  coorDist f t what zs :=
    let ker := kernels P meanShape what
    let left := frameLeft (frameAt (toVideo f) t) ker (zAt zs)
    .pos (fun k => coorMean P (left k) (ker k)) (fun k => coorStd P (left k) (ker k))
  digitDist f zs :=
    .what (fun k => P.whatMean.app (digitHidden P (toVideo f) (posAt zs k))) (fun k i => Real.exp (P.whatStd.app (digitHidden P (toVideo f) (posAt zs k)) i))
  where0 := .pos 0 1
  whereT v := .pos (toPos v) fun _ _ => 1 * (2 / 10)
  what := .what 0 1
  recon zs what := .video (reconProbs P (fun t k => posAt zs k t) (toWhat what))
  reparam := reparam
end

end Verif.Bouncing
