import Verif.Spec.Apg
/-
The steps of the amortized Gibbs sampler for any number of particles: how the log weight of a stage follows from the resampled one
before.
-/
namespace Verif.Apg
open Spec
variable {L : Lang}

/-- `out` is made of a resampled trace `t1` and log weight `lw1` by the position step of sweep `s` at time `t`: the position `old` is
replaced by that of the objects `zs` drawn. The log weight grows by the log joint of the new values and the reverse kernel's density of
`old`, less all log_probs of `t1` and the kernel's density of the new position. -/
def PositionStep (N : ApgNet L) (T t s : Nat) (f : L.V) (t1 : Trace L) (lw1 : LW L.W) (out : Out L) : Prop :=
  ∃ (what old : L.V) (zs : List L.V) (val : Nat → L.V),
    valueAt t1 (zWhatName ((s : Int) - 1)) = some what ∧ valueAt t1 (zWhereName t ((s : Int) - 1)) = some old ∧ zs.length = N.objects ∧
    (∀ i, i < T → i ≠ t → valueAt t1 (zWhereName i (if i < t then (s : Int) else (s : Int) - 1)) = some (val i)) ∧ val t = N.stack zs ∧
    Latents N T (t + 1) s ((s : Int) - 1) f val what out.trace ∧
    out.logWeight = .tensor (L.detachW (lw1.val +
      ((joint N T (t + 1) f val what + L.logProb (N.coorDist f t (some what) (slices N old)) old) -
        (total t1 + L.logProb (N.coorDist (L.detachV f) t (some what) zs) (N.stack zs))))) ∧
    Recorded lw1 out

/-- The same for the appearance step of sweep `s`: `old` is replaced by `z`. -/
def AppearanceStep (N : ApgNet L) (T s : Nat) (f : L.V) (t1 : Trace L) (lw1 : LW L.W) (out : Out L) : Prop :=
  ∃ (old z : L.V) (val : Nat → L.V),
    valueAt t1 (zWhatName ((s : Int) - 1)) = some old ∧
    (∀ i : Nat, i < T → valueAt t1 (zWhereName i s) = some (val i)) ∧
    Latents N T T s s f val z out.trace ∧
    out.logWeight = .tensor (L.detachW (lw1.val +
      ((joint N T T f val z + L.logProb (N.digitDist f ((List.range T).map val)) old) -
        (total t1 + L.logProb (N.digitDist (L.detachV f) ((List.range T).map val)) z)))) ∧
    Recorded lw1 out

/-- The state before the Propose of sweep `s` at time `t` (`T` for the appearance) and its resampling. -/
def Before (N : ApgNet L) (same : L.V → L.V → Bool) (T t s : Nat) (f : L.V) : Out L → World L → Prop :=
  if t = 0 then Stage N same T T ((s : Int) - 1) ((s : Int) - 1) f else Stage N same T t s ((s : Int) - 1) f

end Verif.Apg
