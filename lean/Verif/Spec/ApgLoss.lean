import Verif.Spec.ApgIncrement
/-
The losses of the amortized Gibbs sampler.
-/
namespace Verif.Apg
open Spec
variable {L : Lang}

/-- The loss of a position step of sweep `s` at time `t`, when the loss of what came before was `l0`: `g` of the log weight returned, the
forward kernel's log density of the position drawn, and the log density of the frames given the positions and the appearance returned. -/
def PositionLoss (N : ApgNet L) (T t s : Nat) (f : L.V) (g : LW L.W → LW L.W → L.W → L.Lo) (l0 : L.Lo) (out : Out L) : Prop :=
  ∃ (what : L.V) (zs : List L.V) (val : Nat → L.V),
    Latents N T (t + 1) s ((s : Int) - 1) f val what out.trace ∧ zs.length = N.objects ∧ val t = N.stack zs ∧
    out.loss = some (g out.logWeight (.tensor (L.logProb (N.coorDist (L.detachV f) t (some what) zs) (val t)))
      (L.logProb (N.recon ((List.range T).map val) what) f) + l0)

/-- The same for the appearance step of sweep `s`. -/
def AppearanceLoss (N : ApgNet L) (T s : Nat) (f : L.V) (g : LW L.W → LW L.W → L.W → L.Lo) (l0 : L.Lo) (out : Out L) : Prop :=
  ∃ (z : L.V) (val : Nat → L.V), Latents N T T s s f val z out.trace ∧
    out.loss = some (g out.logWeight (.tensor (L.logProb (N.digitDist (L.detachV f) ((List.range T).map val)) z))
      (L.logProb (N.recon ((List.range T).map val) z) f) + l0)

/-- The log density under which importance sampling drew the positions made of the objects `zs` and the appearance `z`. -/
def startDensity (N : ApgNet L) (T : Nat) (f : L.V) (zs : Nat → List L.V) (z : L.V) : L.W :=
  ((List.range T).map fun t : Nat => L.logProb (N.coorDist f t none (zs t)) (N.stack (zs t))).sum +
    L.logProb (N.digitDist f ((List.range T).map fun t => N.stack (zs t))) z

/-- The loss of the initial importance sampling: `f` of the log weight returned, the log density of the proposal and the log joint. -/
def StartLoss (N : ApgNet L) (T : Nat) (f : L.V) (h : LW L.W → LW L.W → LW L.W → L.Lo) (out : Out L) : Prop :=
  ∃ (zs : Nat → List L.V) (z : L.V), (∀ t, t < T → (zs t).length = N.objects) ∧
    Latents N T T 0 0 f (fun t => N.stack (zs t)) z out.trace ∧
    out.loss = some (h out.logWeight (.tensor (startDensity N T f zs z)) (.tensor (joint N T T f (fun t => N.stack (zs t)) z)))

end Verif.Apg
