import Verif.Spec.Annealing
import Verif.Model.Objectives
/-
Which parameters the loss of a step of vsmc depends on (for C96): annealing models whose parts are functions of parameters, and draws that are reparameterised or not.
-/
namespace Verif
namespace AnnealModel
variable {L : Lang}

/-- The increment of step `k` when the forward kernel's distribution is replaced by its image under `ψ` in the weight (the identity for nvo_avo, detached parameters with stl_trace). -/
def incrementTo (ψ : L.D → L.D) (M : AnnealModel L) (z : Nat → L.V) (k : Nat) : L.W :=
  (M.density (k + 1) (z (k + 1)) + L.logProb (M.r k (z (k + 1))) (point z k)) -
    (M.density k (point z k) + L.logProb (ψ (M.f k (point z k))) (z (k + 1)))

/-- The log weight after `K` steps. -/
def weightTo (ψ : L.D → L.D) (M : AnnealModel L) (z : Nat → L.V) : Nat → L.W
  | 0 => 0
  | K + 1 => L.detachW (M.weightTo ψ z K + M.incrementTo ψ z K)

/-- The incoming weight that step `k` records. -/
def incomingTo (ψ : L.D → L.D) (M : AnnealModel L) (z : Nat → L.V) : Nat → L.W
  | 0 => 0
  | k + 1 => L.detachW (M.weightTo ψ z (k + 1))

end AnnealModel

/-- What the loss function sees at step `k`. -/
structure StepSeen {L : Lang} (ψ : L.D → L.D) (M : AnnealModel L) (z : Nat → L.V) (k : Nat) (o : Out L) : Prop where
  ix : o.ix = some (.int k)
  px : ∃ px prop targ, o.px = some px ∧ px.lv = .tensor (M.incrementTo ψ z k) ∧ px.lw = M.incomingTo ψ z k ∧
    px.proposalTrace.get? (AnnealModel.name k) = some prop ∧ prop.logProb = M.density k (AnnealModel.point z k) ∧
    px.targetTrace.get? (AnnealModel.name (k + 1)) = some targ ∧ targ.kind = .improper (M.g k) ∧ targ.value = z (k + 1)

/-- `loss` is the sum of the loss function's values on the first `K` steps. -/
def LossTo {L : Lang} (ψ : L.D → L.D) (lossFn : Out L → Except Err L.Lo) (M : AnnealModel L) (z : Nat → L.V) (K : Nat) (loss : Option L.Lo) : Prop :=
  ∃ ls : Nat → L.Lo, loss = (if K = 0 then none else some (∑ k ∈ Finset.range K, ls k)) ∧
    ∀ k < K, ∃ o, StepSeen ψ M z k o ∧ lossFn o = .ok (ls k)

/-- An annealing model with parameters `ι → ℝ`: every part is a function of all of them. Values are `X`, distributions `D`. -/
structure ParamModel (n b : Nat) (ι X D : Type) where
  d0 : (ι → ℝ) → D
  g : Nat → (ι → ℝ) → X → Fin n → Fin b → ℝ
  f : Nat → (ι → ℝ) → X → D
  r : Nat → (ι → ℝ) → X → D

/-- The language in which values, distributions and log weights are functions of the parameters, and detaching freezes them at the current parameters `θ₀`. -/
@[reducible] noncomputable def GradLang (n b : Nat) {ι X D : Type} (θ₀ : ι → ℝ) (lp : D → X → Fin n → Fin b → ℝ) : Lang :=
  CLang n b (ι → ℝ) θ₀ ((ι → ℝ) → X) ((ι → ℝ) → D) (fun d v i j θ => lp (d θ) (v θ) i j) (fun v _ => v θ₀)

variable {n b : Nat} {ι X D : Type}

/-- The programs of the model, at the parameters. -/
noncomputable def ParamModel.toModel (P : ParamModel n b ι X D) (θ₀ : ι → ℝ) (lp : D → X → Fin n → Fin b → ℝ) (rep0 rep rep' : Bool) (cls0 : String) (cls : Nat → String) :
    AnnealModel (GradLang n b θ₀ lp) where
  d0 := P.d0
  rep0 := rep0
  cls0 := cls0
  g k v := fun i j θ => P.g k θ (v θ) i j
  cls := cls
  f k v := fun θ => P.f k θ (v θ)
  rep := rep
  r k v := fun θ => P.r k θ (v θ)
  rep' := rep'

/-- The same parameters at the places in `S`. -/
def SameOn (S : Set ι) (θ θ' : ι → ℝ) : Prop := ∀ i ∈ S, θ i = θ' i

/-- Which parameters the parts of the model use. -/
structure ParamModel.Uses (P : ParamModel n b ι X D) (I : Set ι) (G F R : Nat → Set ι) : Prop where
  d0 : ∀ θ θ', SameOn I θ θ' → P.d0 θ = P.d0 θ'
  g : ∀ k θ θ', SameOn (G k) θ θ' → P.g k θ = P.g k θ'
  f : ∀ k θ θ', SameOn (F k) θ θ' → P.f k θ = P.f k θ'
  r : ∀ k θ θ', SameOn (R k) θ θ' → P.r k θ = P.r k θ'

/-- A value drawn from a distribution with parameters: with `rsample` a function of the distribution (and noise), with `sample` a constant. -/
def DrawnFrom (rep : Bool) (d : (ι → ℝ) → D) (v : (ι → ℝ) → X) : Prop :=
  if rep then ∃ s : D → X, v = fun θ => s (d θ) else ∃ x, v = fun _ => x

/-- The values drawn in the steps. -/
structure ParamModel.Drawn (P : ParamModel n b ι X D) (θ₀ : ι → ℝ) (rep0 rep : Bool) (z : Nat → (ι → ℝ) → X) : Prop where
  first : DrawnFrom rep0 P.d0 (z 0)
  second : DrawnFrom rep (fun θ => P.f 0 θ (z 0 θ)) (z 1)
  next : ∀ k, DrawnFrom rep (fun θ => P.f (k + 1) θ (z (k + 1) θ₀)) (z (k + 2))

/-- The parameters of the target that step `k` starts from. -/
def startsFrom (I : Set ι) (G : Nat → Set ι) : Nat → Set ι
  | 0 => I
  | k + 1 => G k

/-- The loss is the sum of the loss function's values on the first `K` steps, of which the `k`-th depends only on the parameters in `S k`. -/
def LocalLoss {θ₀ : ι → ℝ} {lp : D → X → Fin n → Fin b → ℝ} (ψ : ((ι → ℝ) → D) → (ι → ℝ) → D) (lossFn : Out (GradLang n b θ₀ lp) → Except Err (Red b (ι → ℝ)))
    (M : AnnealModel (GradLang n b θ₀ lp)) (z : Nat → (ι → ℝ) → X) (K : Nat) (S : Nat → Set ι) (loss : Option (Red b (ι → ℝ))) : Prop :=
  ∃ ls : Nat → Red b (ι → ℝ), loss = (if K = 0 then none else some (∑ k ∈ Finset.range K, ls k)) ∧
    ∀ k < K, (∃ o, StepSeen (L := GradLang n b θ₀ lp) ψ M z k o ∧ lossFn o = .ok (ls k)) ∧ ∀ θ θ', SameOn (S k) θ θ' → ∀ j, ls k j θ = ls k j θ'

/-- Minus the mean over the particles of the log weight of values `y` that all vary with the parameters: the free energy whose gradient one would get by detaching nothing. -/
noncomputable def ParamModel.freeEnergy (P : ParamModel n b ι X D) (lp : D → X → Fin n → Fin b → ℝ) (y : Nat → (ι → ℝ) → X) (K : Nat) (j : Fin b) (θ : ι → ℝ) : ℝ :=
  -(∑ i, ∑ k ∈ Finset.range K, ((P.g k θ (y (k + 1) θ) i j + lp (P.r k θ (y (k + 1) θ)) (y k θ) i j) -
    ((match k with | 0 => lp (P.d0 θ) (y 0 θ) i j | k + 1 => P.g k θ (y (k + 1) θ) i j) + lp (P.f k θ (y k θ)) (y (k + 1) θ) i j))) / n

end Verif
