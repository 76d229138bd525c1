import Verif.Spec.Apg
/-
The amortized Gibbs sampler for one particle, written out: what is drawn, and the log weight.
-/
namespace Verif.Apg
open Spec
variable {L : Lang}

/-- `m` draws exactly as `K` does, but for uniform numbers that do not matter, raises nothing, and `Q` holds between the outcome of `K`,
the result of `m` and the world it leaves. -/
inductive Like {α β : Type} (Q : β → α → World L → Prop) : Comp L (Except Err α × World L) → Comp L β → Prop
  | ret {b : β} {a : α} {w : World L} : Q b a w → Like Q (.ret (.ok a, w)) (.ret b)
  | draw {d : L.D} {rep : Bool} {m : L.V → Comp L (Except Err α × World L)} {K : L.V → Comp L β} :
    (∀ v, Like Q (m v) (K v)) → Like Q (.draw d rep m) (.draw d rep K)
  | rand {m : L.U → Comp L (Except Err α × World L)} {K : L.U → Comp L β} : (∀ u, Like Q (m u) (K u)) → Like Q (.rand m) (.rand K)
  | skip {m : L.U → Comp L (Except Err α × World L)} {K : Comp L β} : (∀ u, Like Q (m u) K) → Like Q (.rand m) K

/-- The outcome is `x` whatever uniform numbers are drawn, and nothing else is drawn. -/
inductive Always {α : Type} (x : α) : Comp L α → Prop
  | ret : Always x (.ret x)
  | rand {k : L.U → Comp L α} : (∀ u, Always x (k u)) → Always x (.rand k)

/-- Every variable is an ordinary random variable and may be resampled. -/
def Plain (t : Trace L) : Prop := ∀ k rv, t.get? k = some rv → rv.resamplable = true ∧ ∃ d, rv.kind = .proper d

/-- A resampler that, when called with these dimensions, does not change the trace and makes `φ lw` of the log weight `lw`: for
instance with one particle. -/
def Keeps (r : ResamplerFn L) (sampleDims batchDim : PyVal L) (φ : L.W → L.W) : Prop :=
  ∀ t lw, Plain t → Always (.ok (t, .tensor (φ lw))) (r sampleDims batchDim t (.tensor lw))

/-- Positions at all times, appearance, log weight. -/
structure Particle (L : Lang) where
  pos : Nat → L.V
  what : L.V
  lw : L.W

/-- Positions at the first `m` times, each from the frames alone, and the log density of all that is drawn. -/
def initLaw (N : ApgNet L) (f : L.V) : Nat → Comp L ((Nat → L.V) × L.W)
  | 0 => .ret (fun _ => f, 0)
  | m + 1 => (initLaw N f m).bind fun x => (coorDraws N f m none N.objects []).bind fun zs =>
      .ret (Function.update x.1 m (N.stack zs), x.2 + L.logProb (N.coorDist f m none zs) (N.stack zs))

/-- Importance sampling: all positions, then the appearance; the log weight is the log joint less the log density of all that was drawn. -/
def isLaw (N : ApgNet L) (f : L.V) (T : Nat) : Comp L (Particle L) :=
  (initLaw N f T).bind fun x => .draw (N.digitDist f ((List.range T).map x.1)) N.reparam fun z => .ret
    { pos := x.1, what := z,
      lw := L.detachW (joint N T T f x.1 z - (x.2 + L.logProb (N.digitDist f ((List.range T).map x.1)) z)) }

/-- The position at time `t` is replaced. The joint before is that of step `t` (at the start of a sweep: of the whole sequence), the
joint after is that of step `t + 1`; the reverse kernel gives the old position. -/
def coorLaw (N : ApgNet L) (f : L.V) (T : Nat) (p : Particle L) (t : Nat) : Comp L (Particle L) :=
  (coorDraws N (L.detachV f) t (some p.what) N.objects []).bind fun zs => .ret
    { pos := Function.update p.pos t (N.stack zs), what := p.what,
      lw := L.detachW (p.lw +
        ((joint N T (t + 1) f (Function.update p.pos t (N.stack zs)) p.what +
            L.logProb (N.coorDist f t (some p.what) (slices N (p.pos t))) (p.pos t)) -
          (joint N T (if t = 0 then T else t) f p.pos p.what +
            L.logProb (N.coorDist (L.detachV f) t (some p.what) zs) (N.stack zs)))) }

/-- The appearance is replaced; the reverse kernel gives the old one. -/
def digitLaw (N : ApgNet L) (f : L.V) (T : Nat) (p : Particle L) : Comp L (Particle L) :=
  .draw (N.digitDist (L.detachV f) ((List.range T).map p.pos)) N.reparam fun z => .ret
    { pos := p.pos, what := z,
      lw := L.detachW (p.lw +
        ((joint N T T f p.pos z + L.logProb (N.digitDist f ((List.range T).map p.pos)) p.what) -
          (joint N T T f p.pos p.what + L.logProb (N.digitDist (L.detachV f) ((List.range T).map p.pos)) z))) }

/-- The particle with a new log weight. -/
def reweigh (φ : L.W → L.W) (p : Particle L) : Particle L := { p with lw := φ p.lw }

/-- The positions at the first `m` times, one after the other, with resampling after each. -/
def stepsLaw (φ : L.W → L.W) (N : ApgNet L) (f : L.V) (T : Nat) (p : Particle L) : Nat → Comp L (Particle L)
  | 0 => .ret p
  | m + 1 => ((stepsLaw φ N f T p m).bind fun p => coorLaw N f T p m).bind fun p => .ret (reweigh φ p)

/-- Importance sampling and `S` sweeps, with resampling between them. -/
def sweepsLaw (φ : L.W → L.W) (N : ApgNet L) (f : L.V) (T : Nat) : Nat → Comp L (Particle L)
  | 0 => isLaw N f T
  | S + 1 => (sweepsLaw φ N f T S).bind fun p => (stepsLaw φ N f T (reweigh φ p) T).bind (digitLaw N f T)

end Verif.Apg
