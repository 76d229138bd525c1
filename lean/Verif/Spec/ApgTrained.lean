import Verif.Spec.Apg
import Verif.Model.ApgGrad
/-
What the networks of experiments/apgs are trained on: sums over the steps of the sampler of weighted log densities.
-/
namespace Verif.Bouncing
open Apg
variable {fp dp hd hc zd : Nat} {K T n b : Nat}

/-- The same position encoder; the same appearance encoder; the same decoder. -/
def SameCoor (θ θ' : Params fp dp hd hc zd) : Prop :=
  θ.coor = θ'.coor ∧ θ.mean1 = θ'.mean1 ∧ θ.mean2 = θ'.mean2 ∧ θ.std1 = θ'.std1 ∧ θ.std2 = θ'.std2
def SameDigit (θ θ' : Params fp dp hd hc zd) : Prop :=
  θ.digit1 = θ'.digit1 ∧ θ.digit2 = θ'.digit2 ∧ θ.whatMean = θ'.whatMean ∧ θ.whatStd = θ'.whatStd
def SameDec (θ θ' : Params fp dp hd hc zd) : Prop := θ.dec1 = θ'.dec1 ∧ θ.dec2 = θ'.dec2 ∧ θ.dec3 = θ'.dec3

/-- What a step of the sampler leaves: log weights, positions at all times and appearances, for each particle and batch element. -/
structure Rec (n b K zd T fp : Nat) where
  w : Fin n → Fin b → ℝ
  pos : Nat → Fin n → Fin b → Val K zd T fp
  what : Fin n → Fin b → Val K zd T fp

section
variable (ms : Img dp) (f : Fin n → Fin b → Val K zd T fp)

/-- The log density of the positions `z` at time `t` under the encoder with parameters `θ`, which looks for shapes that the decoder of `P` makes of `what`. -/
noncomputable def qWhere (θ P : Params fp dp hd hc zd) (f : Val K zd T fp) (t : Nat) (what : Option (Val K zd T fp)) (z : Val K zd T fp) : ℝ :=
  logProb ((net (θ.withDecoder P) ms K T false).coorDist f t what (slices (net P ms K T false) z)) z

/-- The log density of the appearance `w` under the encoder with parameters `θ`, given the positions. -/
noncomputable def qWhat (θ : Params fp dp hd hc zd) (f : Val K zd T fp) (z : Nat → Val K zd T fp) (w : Val K zd T fp) : ℝ :=
  logProb ((net θ ms K T false).digitDist f ((List.range T).map z)) w

/-- The log density of the frames under the decoder with parameters `θ`, given positions and appearance. -/
noncomputable def pFrames (θ : Params fp dp hd hc zd) (f : Val K zd T fp) (z : Nat → Val K zd T fp) (w : Val K zd T fp) : ℝ :=
  logProb ((net θ ms K T false).recon ((List.range T).map z) w) f

/-- What the decoder is trained on: after every step, the frames given what the particles are then, by their weights. -/
noncomputable def decLoss (h : Nat → Rec n b K zd T fp) (m : Nat) (θ : Params fp dp hd hc zd) : ℝ :=
  ∑ k ∈ Finset.range (m + 1), weightedLoss (h k).w fun i j => pFrames ms θ (f i j) (fun t => (h k).pos t i j) ((h k).what i j)

/-- What the position encoder is trained on: the positions at all times after importance sampling, and in each position step the new position. -/
noncomputable def coorLoss (P : Params fp dp hd hc zd) (h : Nat → Rec n b K zd T fp) (m : Nat) (θ : Params fp dp hd hc zd) : ℝ :=
  weightedLoss (h 0).w (fun i j => ∑ t ∈ Finset.range T, qWhere ms θ P (f i j) t none ((h 0).pos t i j)) +
    ∑ k ∈ Finset.range m with k % (T + 1) < T, weightedLoss (h (k + 1)).w fun i j =>
      qWhere ms θ P (f i j) (k % (T + 1)) (some ((h (k + 1)).what i j)) ((h (k + 1)).pos (k % (T + 1)) i j)

/-- What the appearance encoder is trained on: the appearance after importance sampling and after each sweep. -/
noncomputable def digitLoss (h : Nat → Rec n b K zd T fp) (m : Nat) (θ : Params fp dp hd hc zd) : ℝ :=
  weightedLoss (h 0).w (fun i j => qWhat ms θ (f i j) (fun t => (h 0).pos t i j) ((h 0).what i j)) +
    ∑ k ∈ Finset.range m with k % (T + 1) = T, weightedLoss (h (k + 1)).w fun i j =>
      qWhat ms θ (f i j) (fun t => (h (k + 1)).pos t i j) ((h (k + 1)).what i j)

/-- The part of the loss that trains nothing: the prior of what importance sampling drew. -/
noncomputable def priorLoss (h : Nat → Rec n b K zd T fp) : ℝ :=
  weightedLoss (h 0).w fun i j =>
    (∑ t ∈ Finset.range T, logProb (if t = 0 then .pos 0 1 else .pos (toPos ((h 0).pos (t - 1) i j)) fun _ _ => 2 / 10) ((h 0).pos t i j)) +
      logProb (.what 0 1) ((h 0).what i j)

/-- The loss after `m` steps, as a function of the parameters being trained. -/
noncomputable def trainedOn (P : Params fp dp hd hc zd) (h : Nat → Rec n b K zd T fp) (m : Nat) (θ : Params fp dp hd hc zd) : ℝ :=
  coorLoss ms f P h m θ + digitLoss ms f h m θ + decLoss ms f h m θ + priorLoss h

end

/-- The last step recorded is what the call returns: its log weight and the values in its trace, the positions of the times before `c` in sweep `s` and of the others in
the sweep before, the appearance of sweep `zw`. -/
structure Returned {P : Params fp dp hd hc zd} (c : Nat) (s zw : Int) (r : Rec n b K zd T fp) (out : Out (TrainLang n b K T P)) : Prop where
  w : r.w = fun i j => out.logWeight.val i j P
  pos : ∀ t, t < T → valueAt out.trace (whereAt c s t) = some (r.pos t)
  what : valueAt out.trace (zWhatName zw) = some r.what

end Verif.Bouncing
