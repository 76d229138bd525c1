import Mathlib.Probability.Distributions.Gaussian.Real
import Verif.Props.Weighting
/-
C29 for a nest with normal distributions.
-/
namespace Verif
open Spec MeasureTheory ProbabilityTheory
open scoped ENNReal

namespace Gauss

/-- The log density of the normal distribution with mean `m` and variance 1. -/
noncomputable def lp (m x : ℝ) : ℝ := Real.log (gaussianPDFReal m 1 x)

@[reducible] noncomputable def L : Lang := PLang ℝ ℝ Int lp

theorem exp_lp (m x : ℝ) : Real.exp (lp m x) = gaussianPDFReal m 1 x := Real.exp_log (gaussianPDFReal_pos m 1 x one_ne_zero)

theorem dens_lp (m x : ℝ) : dens (lp m x) = gaussianPDF m 1 x := by rw [dens, exp_lp]; rfl

theorem measurable_lp {Γ : Type} [MeasurableSpace Γ] {m x : Γ → ℝ} (hm : Measurable m) (hx : Measurable x) :
    Measurable fun γ => lp (m γ) (x γ) := by
  have h : Measurable fun γ => gaussianPDFReal (m γ) 1 (x γ) := by
    simp only [gaussianPDFReal]
    fun_prop
  exact Real.measurable_log.comp h

theorem normalised (m : ℝ) : Normalised volume lp m := by
  refine ⟨measurable_lp measurable_const measurable_id, ?_⟩
  simp only [dens_lp]
  exact lintegral_gaussianPDF_eq_one m one_ne_zero

def sig : ArgSpec := { args := ["self", "trace", "c"], varargs := false, kwonly := [], varkw := false }

noncomputable def w0 : World L := { cond := fun _ => none, store := Store.init }

noncomputable def attrs (i : Nat) : Attrs L := mkAttrs i none none .none false

/-- A state-space model of one step: "x" is standard normal, "y" is observed to be 1, normal around "x". -/
noncomputable def model : ProgSpec L where
  name := "Model"
  sig := sig
  debugAttr := none
  model _ _ := .variable "x" (0 : ℝ) none none true fun x => .variable "y" x (some (1 : ℝ)) none true fun _ => .ret (.tensor x)

/-- Proposes "x" around 2. -/
noncomputable def guess : ProgSpec L where
  name := "Guess"
  sig := sig
  debugAttr := none
  model _ _ := .variable "x" (2 : ℝ) none none true fun x => .ret (.tensor x)

/-- Moves the input: "z" is normal around it if it is positive, and around 0 otherwise. -/
noncomputable def move : ProgSpec L where
  name := "Move"
  sig := sig
  debugAttr := none
  model c _ := match c with
    | .tensor x => .variable "z" (max x 0 : ℝ) none none true fun z => .ret (.tensor z)
    | _ => .raise .type

/-- `Propose(Extend(model, move), Compose(move, guess))`. -/
noncomputable def nest : Node L :=
  .propose (attrs 0) (fun t _ => .ok t) true
    (.extend (attrs 1) (.prog 2 model) (.prog 3 move))
    (.compose (attrs 4) (.prog 5 move) (.prog 6 guess))

theorem meas_model : MeasProg model := by
  intro kwargs Γ _ c hc
  refine .sample "x" (fun _ => (0 : ℝ)) none true _ (measurable_lp measurable_const measurable_snd) ?_
  refine .observe "y" (fun x : Γ × ℝ => x.2) (fun _ => (1 : ℝ)) none true (fun x _ => .ret (.tensor x.2)) measurable_const (measurable_lp measurable_snd measurable_const) ?_
  exact .ret _ (.tensor _ measurable_snd)

theorem meas_guess : MeasProg guess := by
  intro kwargs Γ _ c hc
  refine .sample "x" (fun _ => (2 : ℝ)) none true _ (measurable_lp measurable_const measurable_snd) ?_
  exact .ret _ (.tensor _ measurable_snd)

theorem meas_move : MeasProg move := by
  have key : ∀ (Γ : Type) [MeasurableSpace Γ] (x : Γ → ℝ), Measurable x →
      PlotTree fun γ => MTree.variable (L := L) "z" (max (x γ) 0) none none true fun z => .ret (.tensor z) := by
    intro Γ _ x hx
    refine .sample "z" (fun γ => max (x γ) 0) none true (fun _ z => .ret (.tensor z)) (measurable_lp ?_ measurable_snd) (.ret _ (.tensor _ measurable_snd))
    exact (hx.comp measurable_fst).max measurable_const
  intro kwargs Γ _ c hc
  cases hc with
  | const o =>
    cases o with
    | tensor x => exact key Γ (fun _ => x) measurable_const
    | _ => exact .stuck _ fun _ => trivial
  | tensor f hf => exact key Γ f hf
  | _ => exact .stuck _ fun _ => trivial

/-- No outcome raises. -/
noncomputable def neverRaises {α : Type} : Comp L (Except Err α × World L) → Prop
  | .ret (.ok _, _) => True
  | .ret (.error _, _) => False
  | .draw _ _ k => ∀ v, neverRaises (k v)
  | .rand k => neverRaises (k ())

theorem neverRaises_spec {α : Type} {m : Comp L (Except Err α × World L)} (h : neverRaises m) (r : Except Err α) (w : World L)
    (hr : m.Ret (r, w)) : ∃ o, r = .ok o := by
  induction m with
  | ret a =>
    cases hr
    cases r with
    | ok o => exact ⟨o, rfl⟩
    | error e => exact h.elim
  | draw d b k ih =>
    obtain ⟨v, hv⟩ := hr
    exact ih v (h v) hv
  | rand k ih =>
    obtain ⟨u, hu⟩ := hr
    exact ih u h hu

set_option maxHeartbeats 8000000 in
theorem nest_ok : neverRaises (eval nest .none {} w0) := by
  intro x z
  exact trivial

/-- C29's hypotheses for a nest over the reals with an observation, kernels that branch on a continuous value, and Lebesgue measure. The
target's normalising constant is the evidence, the integral of N(x; 0, 1) N(1; x, 1). -/
theorem nest_meets : WellScoped false nest ∧ (∀ i ∈ objects nest, w0.cond i = none) ∧ Whole nest ∧ MeasNode nest ∧ Fits volume nest .none {} ∧
    (∀ r w', (eval nest .none {}).Runs w0 r w' → ∃ o, r = .ok o) ∧
    target volume nest false (fun _ => none) .none {} (fun _ _ => 1) = ∫⁻ x, gaussianPDF 0 1 x * gaussianPDF x 1 1 := by
  refine ⟨?_, fun _ _ => rfl, by simp [nest, Whole], ⟨⟨meas_model, meas_move⟩, meas_move, meas_guess⟩, ?_, ?_, ?_⟩
  · simp [nest, WellScoped, below, Node.id, attrs, mkAttrs]
  · have hN : ∀ d, Normalised volume lp d := normalised
    simp [Fits, IsTarget, Covered, reorders_id, alwaysN, always, samplesN, samples, hN, nest, model, move, guess,
      Env.lat, List.findSome?, Env.names]
    grind
  · exact neverRaises_spec nest_ok
  · show ∫⁻ x, dens (lp 0 x) * (dens (lp x 1) * 1) = _
    simp only [dens_lp, mul_one]

end Gauss
end Verif
