import Verif.Model.ApgLoss
import Verif.Model.ApgNets
/-
The networks and losses of experiments/apgs as functions of the parameters being trained: what autograd differentiates.
-/
namespace Verif.Bouncing
variable {fp dp hd hc zd : Nat} {K T : Nat}

/-- `θ` with the decoder's network replaced by that of `P`. -/
def Params.withDecoder (θ P : Params fp dp hd hc zd) : Params fp dp hd hc zd := { θ with dec1 := P.dec1, dec2 := P.dec2, dec3 := P.dec3 }

/-- Tensors with `n` particles and `b` batch elements; distributions and log weights are functions of the parameters, and `detach` freezes them at the
current parameters `P`. Values are not: they are inputs or draws by `sample()`, which pass no gradients on (experiments/apgs/models.py:38,154 and
experiments/apgs/main.py:92,108,189: `reparameterized=False`). -/
@[reducible] noncomputable def TrainLang (n b K T : Nat) (P : Params fp dp hd hc zd) : Lang where
  V := Fin n → Fin b → Val K zd T fp
  W := Fin n → Fin b → Params fp dp hd hc zd → ℝ
  D := Fin n → Fin b → Params fp dp hd hc zd → Dist K zd T fp
  U := Unit
  Lo := Params fp dp hd hc zd → ℝ
  grpW := inferInstance
  monLo := inferInstance
  logProb d v := fun i j θ => logProb (d i j θ) (v i j)
  detachV v := v
  detachW w := fun i j _ => w i j P
  veq v v' := @decide (v = v') (Classical.dec _)
  isZero w := @decide (w = 0) (Classical.dec _)
  isZero_spec _ h := @of_decide_eq_true _ (Classical.dec _) h

/-- The networks, particle by particle, at the parameters `θ` being trained. The kernels that `Enc_coor` gets from the decoder are detached (`get_conv_kernel`
with its default `detach=True`, experiments/apgs/models.py:123-124,287-293), so they are those of the current parameters `P`; in the decoder itself they are
not (line 378). -/
noncomputable def gradNet (n b : Nat) (P : Params fp dp hd hc zd) (ms : Img dp) (K T : Nat) : ApgNet (TrainLang n b K T P) where
  objects := K
  timesteps _ := T
  coorStep f t what zs := fun i j θ => (net (θ.withDecoder P) ms K T false).coorStep (f i j) t (what.map fun v => v i j) (zs.map fun v => v i j)
  stack zs := fun i j => (net P ms K T false).stack (zs.map fun v => v i j)
  slice v k := fun i j => (net P ms K T false).slice (v i j) k
  coorDist f t what zs := fun i j θ => (net (θ.withDecoder P) ms K T false).coorDist (f i j) t (what.map fun v => v i j) (zs.map fun v => v i j)
  digitDist f zs := fun i j θ => (net θ ms K T false).digitDist (f i j) (zs.map fun v => v i j)
  where0 := fun _ _ θ => (net θ ms K T false).where0
  whereT v := fun i j θ => (net θ ms K T false).whereT (v i j)
  what := fun _ _ θ => (net θ ms K T false).what
  recon zs what := fun i j θ => (net θ ms K T false).recon (zs.map fun v => v i j) (what i j)
  reparam := false

variable {n b : Nat} {P : Params fp dp hd hc zd}

/-- The arithmetic of `loss_is` (experiments/apgs/objectives.py:19-25), without `total_loss`: the log weight is detached. -/
noncomputable def isGrad (lw lq lp : LW (TrainLang n b K T P).W) : (TrainLang n b K T P).Lo := fun θ =>
  isArith (.tensor fun i j => lw.val i j P) (.tensor fun i j => lq.val i j θ) (.tensor fun i j => lp.val i j θ)

/-- The arithmetic of `loss_apg` (experiments/apgs/objectives.py:30-31,43-51), without `total_loss`: the log weight is detached. -/
noncomputable def apgGrad (lw lq : LW (TrainLang n b K T P).W) (lp : (TrainLang n b K T P).W) : (TrainLang n b K T P).Lo := fun θ =>
  apgArith (.tensor fun i j => lw.val i j P) (.tensor fun i j => lq.val i j θ) (fun i j => lp i j θ)

end Verif.Bouncing
