import Mathlib.MeasureTheory.MeasurableSpace.Constructions
import Mathlib.MeasureTheory.Constructions.BorelSpace.Real
import Verif.Spec.Weighting
/-
Measurable models: values, traces and models that depend measurably on a parameter.
-/
namespace Verif.Spec
open MeasureTheory
open scoped ENNReal

section
variable {V D Lo : Type} [AddCommMonoid Lo] {lp : D → V → ℝ} [MeasurableSpace V]
local notation "𝕃" => PLang V D Lo lp

/-- A Python value that depends measurably on a parameter: its tensors do, the rest is fixed. -/
inductive PlotPy {Γ : Type} [MeasurableSpace Γ] : (Γ → PyVal 𝕃) → Prop
  | const (o : PyVal 𝕃) : PlotPy fun _ => o
  | tensor (f : Γ → V) : Measurable f → PlotPy fun γ => .tensor (f γ)
  | tuple (l : List (Γ → PyVal 𝕃)) : (∀ x ∈ l, PlotPy x) → PlotPy fun γ => .tuple (l.map fun x => x γ)
  | dict (l : List (String × (Γ → PyVal 𝕃))) : (∀ x ∈ l, PlotPy x.2) → PlotPy fun γ => .dict (l.map fun x => (x.1, x.2 γ))

/-- A trace that depends measurably on a parameter: its values and log densities do, its names are fixed. -/
inductive PlotEnv {Γ : Type} [MeasurableSpace Γ] : (Γ → Env V) → Prop
  | nil : PlotEnv fun _ => []
  | cons (name : String) (v : Γ → V) (w : Γ → ℝ) (latent : Bool) (e : Γ → Env V) : Measurable v → Measurable w → PlotEnv e →
    PlotEnv fun γ => (name, ⟨v γ, w γ, latent⟩) :: e γ

/-- A model that depends measurably on a parameter.
* Given the parameter and the values drawn so far, the log density of the next variable is jointly measurable in them and in the
  variable's value; so are observed values, and what is returned.
* `branch`: there may be countably many cases, which are told apart measurably.
* Nothing is asked where the model does anything but sample, observe and return. -/
inductive PlotTree : {Γ : Type} → [MeasurableSpace Γ] → (Γ → MTree 𝕃) → Prop
  | ret {Γ : Type} [MeasurableSpace Γ] (o : Γ → PyVal 𝕃) : PlotPy o → PlotTree fun γ => .ret (o γ)
  | sample {Γ : Type} [MeasurableSpace Γ] (name : String) (d : Γ → D) (prov : Option Prov) (rep : Bool) (k : Γ → V → MTree 𝕃) :
    Measurable (fun x : Γ × V => lp (d x.1) x.2) → PlotTree (fun x : Γ × V => k x.1 x.2) →
    PlotTree fun γ => MTree.variable (L := 𝕃) name (d γ) none prov rep (k γ)
  | observe {Γ : Type} [MeasurableSpace Γ] (name : String) (d : Γ → D) (v : Γ → V) (prov : Option Prov) (rep : Bool) (k : Γ → V → MTree 𝕃) :
    Measurable v → Measurable (fun γ => lp (d γ) (v γ)) → PlotTree (fun γ => k γ (v γ)) →
    PlotTree fun γ => MTree.variable (L := 𝕃) name (d γ) (some (v γ)) prov rep (k γ)
  | branch {Γ : Type} [MeasurableSpace Γ] (f : Γ → ℕ) (m : ℕ → Γ → MTree 𝕃) : Measurable f → (∀ i, PlotTree (m i)) →
    PlotTree fun γ => m (f γ) γ
  | stuck {Γ : Type} [MeasurableSpace Γ] (m : Γ → MTree 𝕃) :
    (∀ γ, match m γ with | .ret _ => False | .variable .. => False | _ => True) → PlotTree m

/-- The model of a program depends measurably on its argument. -/
def MeasProg (s : ProgSpec 𝕃) : Prop :=
  ∀ (kwargs : List (String × PyVal 𝕃)) (Γ : Type) [MeasurableSpace Γ] (c : Γ → PyVal 𝕃), PlotPy c → PlotTree fun γ => s.model (c γ) kwargs

/-- All programs of a nest do. -/
def MeasNode : Node 𝕃 → Prop
  | .prog _ s => MeasProg s
  | .resample _ _ q => MeasNode q
  | .extend _ p f => MeasNode p ∧ MeasNode f
  | .compose _ q2 q1 => MeasNode q2 ∧ MeasNode q1
  | .propose _ _ _ p q => MeasNode p ∧ MeasNode q

/-- A measurable function of a trace and an output. -/
def MeasFun (h : Env V → PyVal 𝕃 → ℝ≥0∞) : Prop :=
  ∀ (Γ : Type) [MeasurableSpace Γ] (e : Γ → Env V) (o : Γ → PyVal 𝕃), PlotEnv e → PlotPy o → Measurable fun γ => h (e γ) (o γ)

end
end Verif.Spec
