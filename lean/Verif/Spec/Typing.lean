import Mathlib.Logic.Function.Basic
import Verif.Spec.Combinators
import Verif.Spec.Program
/-
A static discipline for nests: which names a trace will hold, with which provenance, whether the log weight will be a tensor, and
what is known of the output.
-/
namespace Verif.Spec
variable {L : Lang}

/-- The names in a trace and their provenances. -/
abbrev Names := String → Option Prov

/-- `t` holds exactly these names with these provenances, and only variables of the two known classes. -/
def HasNames (t : Trace L) (N : Names) : Prop :=
  (∀ k, (t.get? k).map (·.prov) = N k) ∧ ∀ k rv, t.get? k = some rv → rv.kind ≠ .other

/-- The same for a conditioning trace or its absence. -/
def CondNames : Option (Trace L) → Option Names → Prop
  | none, none => True
  | some t, some N => HasNames t N
  | _, _ => False

/-- `k` is in the trace and not OBSERVED. -/
def Names.Latent (N : Names) (k : String) : Prop := N k = some .sampled ∨ N k = some .reused

/-- Whether `k` is available from the conditioning trace. -/
def heldIn (Γ : Option Names) (k : String) : Bool :=
  match Γ with
  | some N => (N k).isSome
  | none => false

/-- The model body `m`, run on a trace with the names `M` under a conditioning trace with the names `Γ`, never raises, does not
use the global store, and ends with the names `N` and an output in `post`, whatever values it gets. -/
def Binds (Γ : Option Names) (N : Names) (post : PyVal L → Prop) : MTree L → Names → Prop
  | .ret o, M => M = N ∧ post o
  | .raise _, _ => False
  | .variable name _ value prov _ k, M => M name = none ∧
    match value with
    | some v => Binds Γ N post (k v) (Function.update M name (some (prov.getD .observed)))
    | none => ∀ v, Binds Γ N post (k v) (Function.update M name (some (if heldIn Γ name then .reused else .sampled)))
  | .inject name rv k, M => rv.kind ≠ .other ∧ Binds Γ N post k (Function.update M name (some rv.prov))
  | .getCond k, M => ∀ cond, CondNames cond Γ → Binds Γ N post (k cond) M
  | .getTrace k, M => ∀ t, HasNames t M → Binds Γ N post (k t) M
  | .sampleFree _ _ k, M => ∀ v, Binds Γ N post (k v) M
  | .storeGet _ _, _ => False
  | .storeSet _ _ _, _ => False

/-- What is known statically of an object's result: its names, whether its log weight is a tensor (not the float 0.0), its output;
and the names and output that remain after `Propose.marginalize`. -/
structure Ty (L : Lang) where
  names : Names
  weighted : Prop
  post : PyVal L → Prop
  margNames : Names
  margPost : PyVal L → Prop

/-- A type without anything to marginalise. -/
def Ty.plain (names : Names) (weighted : Prop) (post : PyVal L → Prop) : Ty L := ⟨names, weighted, post, names, post⟩

/-- The result `o` is as the type says. -/
def Ty.Of (τ : Ty L) (o : Out L) : Prop :=
  HasNames o.trace τ.names ∧ (o.logWeight ≠ .float0 ↔ τ.weighted) ∧ τ.post o.output

/-- A program's log weight has a summand: something OBSERVED, or something latent in the conditioning trace. -/
def progWeighted (Γ : Option Names) (N : Names) : Prop :=
  ∃ k, N k = some .observed ∨ N k ≠ none ∧ ∃ M, Γ = some M ∧ M.Latent k

/-- The proposal's log density, as Propose divides by it, has a summand at `k`. -/
def denominator (q p : Names) (k : String) : Prop := q k = some .observed ∨ q k ≠ none ∧ p.Latent k

/-- The union of disjoint names. -/
def Names.union (a b : Names) : Names := fun k => (a k).or (b k)

def Names.Disjoint (a b : Names) : Prop := ∀ k, a k = none ∨ b k = none

/-- The loss function returns on all results in `P`. -/
def LossOn (a : Attrs L) (P : Out L → Prop) : Prop := ∀ o, P o → ∀ l, ∃ l', a.lossFn o l = .ok l'

/-- What Propose's loss function can rely on. -/
def ProposeOf (a : Attrs L) (kw : Kw L) (τq τp τ : Ty L) (o : Out L) : Prop :=
  o.type = .propose ∧ o.ix = some (nearest a.ix kw.ix) ∧ τ.Of o ∧ ∃ px, o.px = some px ∧ HasNames px.proposalTrace τq.names ∧
    HasNames px.targetTrace τp.names ∧ (px.lv ≠ .float0 ↔ τp.weighted ∨ ∃ k, denominator τq.names τp.names k)

/-- `Typed Γ kw pre n τ`: called with an input in `pre` and the keyword arguments `kw`, under a conditioning trace with the names `Γ`,
the object `n` has the type `τ`.
* A program must accept the keyword arguments and bind the same names in every run.
* Compose and Extend need disjoint names. A kernel of Extend observes nothing; without a conditioning trace its weight is 0.0 and
  nothing in it is REUSED.
* Propose runs its target under the proposal's trace. The proposal object has a `_debug` attribute; at least one summand makes the
  weight a tensor; the trace transformation keeps one summand, if there is one.
* Resample needs a tensor weight, a resampler that keeps the names, and an output it can resample.
* Loss functions return. -/
inductive Typed : Option Names → Kw L → (PyVal L → Prop) → Node L → Ty L → Prop
  | prog {Γ kw pre i s N post}
      (hb : bindModel s.sig (receivedKwargs s.sig kw) = .ok ())
      (hm : ∀ c, pre c → Binds Γ N post (s.model c (receivedKwargs s.sig kw)) fun _ => none) :
      Typed Γ kw pre (.prog i s) (.plain N (progWeighted Γ N) post)
  | compose {Γ kw pre a q2 q1 τ1 τ2}
      (h1 : Typed none (subKw a kw) pre q1 τ1) (h2 : Typed none (subKw a kw) τ1.post q2 τ2)
      (hd : τ1.names.Disjoint τ2.names)
      (hl : LossOn a fun o => o.type = .compose ∧ (Ty.plain (τ2.names.union τ1.names) (τ1.weighted ∨ τ2.weighted) τ2.post).Of o) :
      Typed Γ kw pre (.compose a q2 q1) (.plain (τ2.names.union τ1.names) (τ1.weighted ∨ τ2.weighted) τ2.post)
  | extend {Γ kw pre a p f τp τf τ}
      (hp : Typed Γ (subKw a kw) pre p τp) (hf : Typed Γ (subKw a kw) τp.post f τf)
      (hd : τp.names.Disjoint τf.names) (ho : ∀ k, τf.names k ≠ some .observed)
      (hk : Γ = none → ¬ τf.weighted ∧ ∀ k, τf.names k ≠ some .reused)
      (hτ : τ = ⟨τp.names.union τf.names, τp.weighted ∨ ∃ k, τf.names k ≠ none, τf.post, τp.names, τp.post⟩)
      (hl : LossOn a fun o => o.type = .extend ∧ τ.Of o) :
      Typed Γ kw pre (.extend a p f) τ
  | propose {Γ kw pre a transf nr p q τq τp post τ}
      (hq : Typed none (subKw a kw) pre q τq) (hp : Typed (some τq.names) (subKw a kw) pre p τp)
      (hdebug : q.debugAttr ≠ none)
      (hw : τq.weighted ∨ τp.weighted ∨ ∃ k, denominator τq.names τp.names k)
      (ht : ∀ t, HasNames t τq.names → ∃ t', transf t { subKw a kw with shared := [] } = .ok t' ∧
        ((∃ k, denominator τq.names τp.names k) → ∃ k, denominator τq.names τp.names k ∧ t'.contains k = true))
      (hpost : ∀ o, τp.margPost o → post (detachOutput o))
      (hτ : τ = .plain τp.margNames True post)
      (hl : LossOn a (ProposeOf a kw τq τp τ)) :
      Typed Γ kw pre (.propose a transf nr p q) τ
  | resample {Γ kw pre a r q τq post}
      (hq : Typed none (subKw a kw) pre q τq) (hw : τq.weighted)
      (hr : ∀ t w x, HasNames t τq.names → (r kw.sampleDims kw.batchDim t (.tensor w)).Ret x →
        ∃ t' w', x = .ok (t', .tensor w') ∧ HasNames t' τq.names)
      (hpost : ∀ o t, τq.post o → HasNames t τq.names → ∃ o', resampleOutput o t = .ok o' ∧ post o')
      (hl : LossOn a fun o => o.type = .resample ∧ (Ty.plain τq.names True post).Of o) :
      Typed Γ kw pre (.resample a r q) (.plain τq.names True post)

end Verif.Spec
