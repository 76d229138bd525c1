import Mathlib.Probability.Independence.Basic
import Verif.Proofs.Independent
import Verif.Proofs.ApgWeights
import Verif.Spec.ApgLanes
/-
Programs that treat every lane on its own: the lanes' results are independent, each with its own law.
-/
namespace Verif
open Spec Apg MeasureTheory
open scoped ENNReal

section pi
variable {ι : Type} [Fintype ι] {Y Z : Type} [MeasurableSpace Y] [MeasurableSpace Z]

theorem pi_dirac (y : ι → Y) : Measure.pi (fun i => Measure.dirac (y i)) = Measure.dirac y := by
  refine Measure.pi_eq fun s hs => ?_
  rw [Measure.dirac_apply' _ (MeasurableSet.univ_pi hs)]
  simp only [fun i => Measure.dirac_apply' (y i) (hs i)]
  by_cases h : ∀ i, y i ∈ s i
  · rw [Set.indicator_of_mem (by simpa using h), Finset.prod_eq_one fun i _ => Set.indicator_of_mem (h i) _]
    rfl
  · push Not at h
    obtain ⟨i, hi⟩ := h
    rw [Set.indicator_of_notMem (by simpa using ⟨i, hi⟩), Finset.prod_eq_zero (Finset.mem_univ i) (Set.indicator_of_notMem hi _)]

theorem measurable_pi_kernel (κ : ι → Y → Measure Z) (hκ : ∀ i, Measurable (κ i)) (h1 : ∀ i y, IsProbabilityMeasure (κ i y)) :
    Measurable fun v : ι → Y => Measure.pi fun i => κ i (v i) := by
  refine Measurable.measure_of_isPiSystem_of_isProbabilityMeasure generateFrom_pi.symm isPiSystem_pi ?_
  rintro _ ⟨s, hs, rfl⟩
  simp only [Measure.pi_pi]
  refine Finset.measurable_prod _ fun i _ => ?_
  exact (Measure.measurable_coe (hs i (Set.mem_univ i))).comp ((hκ i).comp (measurable_pi_apply i))

/-- Independent two-stage experiments. -/
theorem pi_bind (ρ : ι → Measure Y) [∀ i, IsProbabilityMeasure (ρ i)] (κ : ι → Y → Measure Z) (hκ : ∀ i, Measurable (κ i))
    (h1 : ∀ i y, IsProbabilityMeasure (κ i y)) :
    Measure.pi (fun i => (ρ i).bind (κ i)) = (Measure.pi ρ).bind fun v => Measure.pi fun i => κ i (v i) := by
  have hp : ∀ i, IsProbabilityMeasure ((ρ i).bind (κ i)) := fun i => ⟨by
    rw [Measure.bind_apply MeasurableSet.univ (hκ i).aemeasurable]
    simp⟩
  refine Measure.pi_eq fun s hs => ?_
  rw [Measure.bind_apply (MeasurableSet.univ_pi hs) (measurable_pi_kernel κ hκ h1).aemeasurable]
  simp only [Measure.pi_pi]
  rw [lintegral_pi_prod ρ (fun i y => κ i y (s i)) fun i => (Measure.measurable_coe (hs i)).comp (hκ i)]
  exact Finset.prod_congr rfl fun i _ => (Measure.bind_apply (hs i) (hκ i).aemeasurable).symm

end pi

variable {n b : Nat} {V D Lo : Type} [AddCommMonoid Lo] {lp : D → V → ℝ} [MeasurableSpace V] {β : D → Measure V}

local notation "𝕃" => PLang V D Lo lp
local notation "𝕋" => LanesLang n b lp

/-- `P` is the law of `r` of the outcome of the one-lane computation. -/
def HasLaw {α Y : Type} [MeasurableSpace Y] (β : D → Measure V) (r : α → Y) : Comp 𝕃 α → Measure Y → Prop
  | .ret a, P => P = Measure.dirac (r a)
  | .draw d _ k, P => Measurable (lp d) ∧ ∫⁻ v, dens (lp d v) ∂β d = 1 ∧
      ∃ κ : V → Measure Y, Measurable κ ∧ (∀ v, HasLaw β r (k v) (κ v)) ∧ P = ((β d).withDensity fun v => dens (lp d v)).bind κ
  | .rand k, P => HasLaw β r (k ()) P

/-- The computation on tensors does in every lane what the one-lane computations do. -/
def InLanes {α γ : Type} (r : α → Fin n × Fin b → γ) : Comp 𝕋 α → (Fin n × Fin b → Comp 𝕃 γ) → Prop
  | .ret a, K => ∀ p, K p = .ret (r a p)
  | .draw d _ k, K => ∃ (rep : Bool) (K' : Fin n × Fin b → V → Comp 𝕃 γ), (∀ p, K p = .draw (d p.1 p.2) rep (K' p)) ∧
      ∀ v, InLanes r (k v) fun p => K' p (v p.1 p.2)
  | .rand k, K => ∀ u, InLanes r (k u) K

theorem HasLaw.prob {α Y : Type} [MeasurableSpace Y] {r : α → Y} {m : Comp 𝕃 α} {P : Measure Y} (h : HasLaw β r m P) : IsProbabilityMeasure P := by
  induction m generalizing P with
  | ret a => rw [show P = Measure.dirac (r a) from h]; infer_instance
  | draw d rep k ih =>
    obtain ⟨h1, h2, κ, h3, h4, rfl⟩ := h
    constructor
    rw [Measure.bind_apply MeasurableSet.univ h3.aemeasurable]
    have : ∀ v, κ v Set.univ = 1 := fun v => (ih v (h4 v)).measure_univ
    simp only [this, lintegral_one, withDensity_apply _ MeasurableSet.univ, Measure.restrict_univ]
    exact h2
  | rand k ih => exact ih _ h

theorem HasLaw.expect {α Y : Type} [MeasurableSpace Y] {r : α → Y} {m : Comp 𝕃 α} {P : Measure Y} (h : HasLaw β r m P) (g : Y → ℝ≥0∞) (hg : Measurable g) :
    expectB β m (fun a => g (r a)) = ∫⁻ y, g y ∂P := by
  induction m generalizing P with
  | ret a =>
    rw [show P = Measure.dirac (r a) from h, lintegral_dirac' _ hg]
    rfl
  | draw d rep k ih =>
    obtain ⟨h1, h2, κ, h3, h4, rfl⟩ := h
    rw [Measure.lintegral_bind h3.aemeasurable hg.aemeasurable]
    simp only [expectB]
    have e : ∀ v, expectB β (k v) (fun a => g (r a)) = ∫⁻ y, g y ∂κ v := fun v => ih v (h4 v)
    simp only [e]
    exact (lintegral_withDensity_eq_lintegral_mul (β d) (measurable_dens.comp h1) ((Measure.measurable_lintegral hg).comp h3)).symm
  | rand k ih => exact ih _ h

theorem HasLaw.bind {α γ Y Z : Type} [MeasurableSpace Y] [MeasurableSpace Z] {r : α → Y} {r' : γ → Z} {m : Comp 𝕃 α} {f : α → Comp 𝕃 γ} {P : Measure Y}
    (h : HasLaw β r m P) (κ : Y → Measure Z) (hκ : Measurable κ) (hf : ∀ a, m.Ret a → HasLaw β r' (f a) (κ (r a))) :
    HasLaw β r' (m.bind f) (P.bind κ) := by
  induction m generalizing P with
  | ret a =>
    rw [show P = Measure.dirac (r a) from h, Measure.dirac_bind hκ]
    exact hf a rfl
  | draw d rep k ih =>
    obtain ⟨h1, h2, κ', h3, h4, rfl⟩ := h
    refine ⟨h1, h2, fun v => (κ' v).bind κ, (Measure.measurable_bind' hκ).comp h3, fun v => ih v (h4 v) fun a ha => hf a ⟨v, ha⟩, ?_⟩
    rw [Measure.bind_bind h3.aemeasurable hκ.aemeasurable]
  | rand k ih => exact ih _ h fun a ha => hf a ⟨_, ha⟩

theorem HasLaw.map {α Y Z : Type} [MeasurableSpace Y] [MeasurableSpace Z] {r : α → Y} {r' : α → Z} {m : Comp 𝕃 α} {P : Measure Y}
    (h : HasLaw β r m P) (φ : Y → Z) (hφ : Measurable φ) (hr : ∀ a, m.Ret a → r' a = φ (r a)) : HasLaw β r' m (P.map φ) := by
  have := h.bind (r' := r') (f := .ret) (fun y => Measure.dirac (φ y)) (Measure.measurable_dirac.comp hφ) fun a ha => by
    show Measure.dirac _ = Measure.dirac _
    rw [hr a ha]
  rw [Comp.bind_ret_right] at this
  rwa [Measure.bind_dirac_eq_map _ hφ] at this

theorem lintegral_uniform (b : Nat) (x : ℝ≥0∞) :
    ∫⁻ _ : Fin b → Set.Ico (0 : ℝ) 1, x ∂(Measure.pi fun _ => volume.comap Subtype.val) = x := by
  have := unit_prob
  exact (lintegral_const x).trans ((congrArg (x * ·) (measure_univ (μ := Measure.pi fun _ => Measure.comap Subtype.val volume))).trans (mul_one x))

/-- The lanes of a computation that does in each what a one-lane computation does are independent and have the laws of these. -/
theorem InLanes.law {α γ Y : Type} [MeasurableSpace Y] {r : α → Fin n × Fin b → γ} {rY : γ → Y} {m : Comp 𝕋 α} {K : Fin n × Fin b → Comp 𝕃 γ}
    (h : InLanes r m K) {P : Fin n × Fin b → Measure Y} (hP : ∀ p, HasLaw β rY (K p) (P p)) (g : (Fin n × Fin b → Y) → ℝ≥0∞) (hg : Measurable g) :
    expectL β m (fun a => g fun p => rY (r a p)) = ∫⁻ y, g y ∂Measure.pi P := by
  induction m generalizing K P with
  | ret a =>
    have e : P = fun p => Measure.dirac (rY (r a p)) := by
      funext p
      have := hP p
      rw [h p] at this
      exact this
    rw [e, pi_dirac, lintegral_dirac' _ hg]
    rfl
  | draw d rep k ih =>
    obtain ⟨rep', K', h1, h2⟩ := h
    have h3 : ∀ p, HasLaw β rY (.draw (d p.1 p.2) rep' (K' p)) (P p) := fun p => h1 p ▸ hP p
    choose m1 m2 κ m3 m4 m5 using h3
    have e : P = fun p => ((β (d p.1 p.2)).withDensity fun v => dens (lp (d p.1 p.2) v)).bind (κ p) := funext m5
    have hρ : ∀ p : Fin n × Fin b, IsProbabilityMeasure ((β (d p.1 p.2)).withDensity fun v => dens (lp (d p.1 p.2) v)) := fun p => ⟨by
      rw [withDensity_apply _ MeasurableSet.univ, Measure.restrict_univ]
      exact m2 p⟩
    have hk : ∀ p v, IsProbabilityMeasure (κ p v) := fun p v => (m4 p v).prob
    rw [e, pi_bind _ κ m3 hk, Measure.lintegral_bind (measurable_pi_kernel κ m3 hk).aemeasurable hg.aemeasurable]
    simp only [expectL]
    exact lintegral_congr fun v => ih _ (h2 _) fun p => m4 p _
  | rand k ih =>
    exact (lintegral_congr fun u => ih u (h u) hP).trans (lintegral_uniform b _)

omit [MeasurableSpace V] in
theorem InLanes.bind {α γ α' γ' : Type} {r : α → Fin n × Fin b → γ} {r' : α' → Fin n × Fin b → γ'} {m : Comp 𝕋 α} {K : Fin n × Fin b → Comp 𝕃 γ}
    (h : InLanes r m K) {f : α → Comp 𝕋 α'} {F : Fin n × Fin b → γ → Comp 𝕃 γ'} (hf : ∀ a, InLanes r' (f a) fun p => F p (r a p)) :
    InLanes r' (m.bind f) fun p => (K p).bind (F p) := by
  induction m generalizing K with
  | ret a =>
    have e : (fun p => (K p).bind (F p)) = fun p => F p (r a p) := by
      funext p
      rw [h p]
      rfl
    rw [e]
    exact hf a
  | draw d rep k ih =>
    obtain ⟨rep', K', h1, h2⟩ := h
    refine ⟨rep', fun p v => (K' p v).bind (F p), fun p => ?_, fun v => ih v (h2 v)⟩
    show (K p).bind (F p) = _
    rw [h1 p]
    rfl
  | rand k ih => exact fun u => ih u (h u)

theorem expectL_like {α γ : Type} {Q : γ → α → World 𝕋 → Prop} {m : Comp 𝕋 (Except Err α × World 𝕋)} {K : Comp 𝕋 γ} (h : Like Q m K)
    {g : Except Err α × World 𝕋 → ℝ≥0∞} {k : γ → ℝ≥0∞} (hq : ∀ b a w, Q b a w → g (.ok a, w) = k b) : expectL β m g = expectL β K k := by
  induction h with
  | ret h => exact hq _ _ _ h
  | draw _ ih => exact lintegral_congr fun v => ih _
  | rand _ ih => exact lintegral_congr fun u => ih u
  | skip _ ih =>
    exact (lintegral_congr fun u => ih u).trans (lintegral_uniform _ _)

end Verif
