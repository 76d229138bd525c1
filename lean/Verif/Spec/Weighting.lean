import Mathlib.MeasureTheory.Integral.Lebesgue.Basic
import Mathlib.Analysis.SpecialFunctions.Exp
import Verif.Spec.Combinators
import Verif.Spec.Program
/-
Proper weighting: expectations over the draws, and what a nest of combinators targets.
-/
namespace Verif.Spec
open MeasureTheory
open scoped ENNReal

/-- One particle with real log weights. `lp d v` is the log density of `d` at `v`; detaching does not change numbers. -/
@[reducible] noncomputable def PLang (V D Lo : Type) [AddCommMonoid Lo] (lp : D → V → ℝ) : Lang where
  V := V
  W := ℝ
  D := D
  U := Unit
  Lo := Lo
  grpW := inferInstance
  monLo := inferInstance
  logProb := lp
  detachV v := v
  detachW w := w
  veq v v' := @decide (v = v') (Classical.dec _)
  isZero w := @decide (w = 0) (Classical.dec _)
  isZero_spec _ h := @of_decide_eq_true _ (Classical.dec _) h

/-- A density from its logarithm. -/
noncomputable def dens (x : ℝ) : ℝ≥0∞ := ENNReal.ofReal (Real.exp x)

/-- What is recorded about a variable: its value, its log density, and whether it is latent (not OBSERVED). -/
structure Entry (V : Type) where
  value : V
  logp : ℝ
  latent : Bool

/-- A trace as a list of named entries. -/
abbrev Env (V : Type) := List (String × Entry V)

def Env.names {V : Type} (e : Env V) : List String := e.map (·.1)

/-- The value of the latent variable `k`. -/
def Env.lat {V : Type} (e : Env V) (k : String) : Option V :=
  e.findSome? fun x => if x.1 = k ∧ x.2.latent = true then some x.2.value else none

section
variable {V D Lo : Type} [AddCommMonoid Lo] {lp : D → V → ℝ}

/-- The entries of a trace. -/
def envOf (t : Trace (PLang V D Lo lp)) : Env V :=
  t.entries.map fun e => (e.1, ⟨e.2.value, e.2.logProb, e.2.prov != .observed⟩)

section
variable [MeasurableSpace V]

/-- The expectation of `g` over the draws: a draw from `d` has the density `exp (lp d v)` with respect to the base measure `μ`, which
may be discrete or continuous. (`torch.rand` does not occur.) -/
noncomputable def expect (μ : Measure V) {α : Type} : Comp (PLang V D Lo lp) α → (α → ℝ≥0∞) → ℝ≥0∞
  | .ret a, g => g a
  | .draw d _ k, g => ∫⁻ v, dens (lp d v) * expect μ (k v) g ∂μ
  | .rand k, g => expect μ (k ()) g

/-- The integral of `h` over the completed runs of a model, against the product of the densities of all its variables. The values
in `cond` are not integrated over but fixed. Runs that raise have no mass. -/
noncomputable def mass (μ : Measure V) (cond : String → Option V) :
    MTree (PLang V D Lo lp) → Env V → (Env V → PyVal (PLang V D Lo lp) → ℝ≥0∞) → ℝ≥0∞
  | .ret o, e, h => h e o
  | .variable name d value _ _ k, e, h =>
    if name ∈ e.names then 0
    else match value with
      | some v => dens (lp d v) * mass μ cond (k v) (e ++ [(name, ⟨v, lp d v, false⟩)]) h
      | none =>
        match cond name with
        | some v => dens (lp d v) * mass μ cond (k v) (e ++ [(name, ⟨v, lp d v, true⟩)]) h
        | none => ∫⁻ v, dens (lp d v) * mass μ cond (k v) (e ++ [(name, ⟨v, lp d v, true⟩)]) h ∂μ
  | _, _, _ => 0

/-- The unnormalised measure that a nest targets, as the integral of `h`: a program its own density, Extend and Compose the product
of their parts, Propose its target (`marg`: without the outermost extension). -/
noncomputable def target (μ : Measure V) : Node (PLang V D Lo lp) → (marg : Bool) → (String → Option V) → PyVal (PLang V D Lo lp) →
    Kw (PLang V D Lo lp) → (Env V → PyVal (PLang V D Lo lp) → ℝ≥0∞) → ℝ≥0∞
  | .prog _ s, _, cond, c, kw, h => mass μ cond (s.model c (receivedKwargs s.sig kw)) [] h
  | .extend a p _, true, cond, c, kw, h => target μ p false cond c (subKw a kw) h
  | .extend a p f, false, cond, c, kw, h =>
    target μ p false cond c (subKw a kw) fun e1 o1 => target μ f false cond o1 (subKw a kw) fun e2 o2 => h (e1 ++ e2) o2
  | .compose a q2 q1, _, _, c, kw, h =>
    target μ q1 false (fun _ => none) c (subKw a kw) fun e1 o1 =>
      target μ q2 false (fun _ => none) o1 (subKw a kw) fun e2 o2 => h (e2 ++ e1) o2
  | .propose a _ _ p _, _, _, c, kw, h => target μ p true (fun _ => none) c (subKw a kw) h
  | .resample a _ q, _, _, c, kw, h => target μ q false (fun _ => none) c (subKw a kw) h

end

/-- `Q` holds at the end of every run of a model, whatever values are drawn for what `cond` does not fix; and the model only
samples and observes variables, never raises and never repeats a name. -/
def always (cond : String → Option V) : MTree (PLang V D Lo lp) → Env V → (Env V → PyVal (PLang V D Lo lp) → Prop) → Prop
  | .ret o, e, Q => Q e o
  | .variable name d value prov _ k, e, Q => prov = none ∧ name ∉ e.names ∧
    match value with
    | some v => always cond (k v) (e ++ [(name, ⟨v, lp d v, false⟩)]) Q
    | none => ∀ v, (∀ v', cond name = some v' → v = v') → always cond (k v) (e ++ [(name, ⟨v, lp d v, true⟩)]) Q
  | _, _, _ => False

/-- The same for nests. -/
def alwaysN : Node (PLang V D Lo lp) → (marg : Bool) → (String → Option V) → PyVal (PLang V D Lo lp) → Kw (PLang V D Lo lp) →
    (Env V → PyVal (PLang V D Lo lp) → Prop) → Prop
  | .prog _ s, _, cond, c, kw, Q => always cond (s.model c (receivedKwargs s.sig kw)) [] Q
  | .extend a p _, true, cond, c, kw, Q => alwaysN p false cond c (subKw a kw) Q
  | .extend a p f, false, cond, c, kw, Q =>
    alwaysN p false cond c (subKw a kw) fun e1 o1 => alwaysN f false cond o1 (subKw a kw) fun e2 o2 => Q (e1 ++ e2) o2
  | .compose a q2 q1, _, _, c, kw, Q =>
    alwaysN q1 false (fun _ => none) c (subKw a kw) fun e1 o1 =>
      alwaysN q2 false (fun _ => none) o1 (subKw a kw) fun e2 o2 => Q (e2 ++ e1) o2
  | .propose a _ _ p _, _, _, c, kw, Q => alwaysN p true (fun _ => none) c (subKw a kw) Q
  | .resample a _ q, _, _, c, kw, Q => alwaysN q false (fun _ => none) c (subKw a kw) Q

/-- Every variable that a model may sample satisfies `M`. -/
def samples (M : String → D → Prop) : MTree (PLang V D Lo lp) → Prop
  | .variable name d value _ _ k =>
    match value with
    | some v => samples M (k v)
    | none => M name d ∧ ∀ v, samples M (k v)
  | _ => True

/-- The same for what nests target. -/
def samplesN (M : String → D → Prop) : Node (PLang V D Lo lp) → (marg : Bool) → PyVal (PLang V D Lo lp) → Kw (PLang V D Lo lp) → Prop
  | .prog _ s, _, c, kw => samples M (s.model c (receivedKwargs s.sig kw))
  | .extend a p _, true, c, kw => samplesN M p false c (subKw a kw)
  | .extend a p f, false, c, kw => samplesN M p false c (subKw a kw) ∧
    alwaysN p false (fun _ => none) c (subKw a kw) fun _ o1 => samplesN M f false o1 (subKw a kw)
  | .compose a q2 q1, _, c, kw => samplesN M q1 false c (subKw a kw) ∧
    alwaysN q1 false (fun _ => none) c (subKw a kw) fun _ o1 => samplesN M q2 false o1 (subKw a kw)
  | .propose a _ _ p _, _, c, kw => samplesN M p true c (subKw a kw)
  | .resample a _ q, _, c, kw => samplesN M q false c (subKw a kw)

variable [MeasurableSpace V]

/-- A distribution with total mass one. -/
def Normalised (μ : Measure V) (lp : D → V → ℝ) (d : D) : Prop := Measurable (lp d) ∧ ∫⁻ v, dens (lp d v) ∂μ = 1

/-- A target for Propose: a program, extended any number of times by kernels. A kernel is a program without observations, its
distributions are normalised, and its names are not those of what it extends. -/
def IsTarget (μ : Measure V) : Node (PLang V D Lo lp) → PyVal (PLang V D Lo lp) → Kw (PLang V D Lo lp) → Prop
  | .prog i s, c, kw => alwaysN (.prog i s) false (fun _ => none) c kw fun _ _ => True
  | .extend a p (.prog i s), c, kw => IsTarget μ p c (subKw a kw) ∧
    alwaysN p false (fun _ => none) c (subKw a kw) fun e1 o1 =>
      samplesN (fun _ d => Normalised μ lp d) (.prog i s) false o1 (subKw a kw) ∧
      alwaysN (.prog i s) false (fun _ => none) o1 (subKw a kw) fun e2 _ =>
        (∀ x ∈ e2, x.2.latent = true) ∧ ∀ k ∈ e1.names, k ∉ e2.names
  | _, _, _ => False

/-- When the target is run with the values `cond`, the kernels sample nothing themselves. -/
def Covered : Node (PLang V D Lo lp) → (String → Option V) → PyVal (PLang V D Lo lp) → Kw (PLang V D Lo lp) → Prop
  | .extend a p f, cond, c, kw => Covered p cond c (subKw a kw) ∧
    alwaysN p false cond c (subKw a kw) fun _ o1 => alwaysN f false cond o1 (subKw a kw) fun e2 _ =>
      ∀ k ∈ e2.names, ∃ v, cond k = some v
  | _, _, _, _ => True

/-- The transformation of the proposal's trace, if it returns, at most reorders the trace `e`. -/
def Reorders (tr : Trace (PLang V D Lo lp) → Kw (PLang V D Lo lp) → Except Err (Trace (PLang V D Lo lp))) (e : Env V) : Prop :=
  ∀ t kw t', envOf t = e → tr t kw = .ok t' → (envOf t').Perm e

/-- The nests that are properly weighted: programs, Compose of parts with different names, Propose and Resample.
* A proposal may sample more or less than its target. What it may sample and the target may not must be normalised. It samples all
  that the target's kernels do, and observes nothing that the target samples. The transformation of its trace does not change what is recorded.
* What is resampled observes nothing, and returns a dict of values from its trace and of constants. -/
def Fits (μ : Measure V) : Node (PLang V D Lo lp) → PyVal (PLang V D Lo lp) → Kw (PLang V D Lo lp) → Prop
  | .prog i s, c, kw => alwaysN (.prog i s) false (fun _ => none) c kw fun _ _ => True
  | .compose a q2 q1, c, kw => Fits μ q1 c (subKw a kw) ∧
    alwaysN q1 false (fun _ => none) c (subKw a kw) fun e1 o1 => Fits μ q2 o1 (subKw a kw) ∧
      alwaysN q2 false (fun _ => none) o1 (subKw a kw) fun e2 _ => ∀ k ∈ e1.names, k ∉ e2.names
  | .propose a tr _ p q, c, kw =>
    Fits μ q c (subKw a kw) ∧ IsTarget μ p c (subKw a kw) ∧
    samplesN (fun k d => Normalised μ lp d ∨
      alwaysN p false (fun _ => none) c (subKw a kw) fun e' _ => ∃ v, e'.lat k = some v) q false c (subKw a kw) ∧
    alwaysN q false (fun _ => none) c (subKw a kw) fun e _ => Reorders tr e ∧
      Covered p e.lat c (subKw a kw) ∧
      alwaysN p false e.lat c (subKw a kw) fun e' _ => ∀ k x, (k, x) ∈ e' → x.latent = true → ∀ y, (k, y) ∈ e → y.latent = true
  | .resample a _ q, c, kw => Fits μ q c (subKw a kw) ∧ ∃ f : String → PyVal (PLang V D Lo lp),
    alwaysN q false (fun _ => none) c (subKw a kw) fun e o => (∀ x ∈ e, x.2.latent = true) ∧
      ∃ kvs, o = .dict kvs ∧ ∀ x ∈ kvs, (∃ y, (x.1, y) ∈ e ∧ x.2 = .tensor y.value) ∨ (x.1 ∉ e.names ∧ x.2 = f x.1)
  | _, _, _ => False

end
end Verif.Spec
