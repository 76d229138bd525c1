import Verif.Proofs.ChainLaw
import Verif.Proofs.SampleSize
import Verif.Props.Paper
/-
C76: estimates of vsmc without resampling converge, without any condition on variances.
-/
namespace Verif
open Spec MeasureTheory Filter
open scoped ENNReal Topology

section
variable {X D : Type} [MeasurableSpace X] {μ : Measure X} {lp : D → X → ℝ}

/-- C76. vsmc without resampling, K steps: log weight and last value of the particles of a batch element are independent copies of those of one chain of
annealed importance sampling. So the expectation of any measurable function of all of them is its integral against a product measure. -/
theorem C76_joint [SFinite μ] (S : AnnealSpec X D) (hS : S.Norm μ lp) (K : Nat) :
    ∃ P : Measure (ℝ × X), IsProbabilityMeasure P ∧
      (∀ φ : ℝ → X → ℝ≥0∞, Measurable (fun p : ℝ × X => φ p.1 p.2) → ∫⁻ p, φ p.1 p.2 ∂P = S.law μ lp K φ) ∧
      ∀ (n b : Nat) (j : Fin b) (M : AnnealModel (PopLang n b X D μ lp)), Vectorises M S j →
      ∀ (fresh : ObjId) (I : AnnealIds), I.Below fresh → ∀ lossFn, LossOk lossFn → ∀ transf, AnnealTransf transf → ∀ nd : Node (PopLang n b X D μ lp),
      vsmc fresh (M.initial I :: (List.range K).map (M.target I)) ((List.range K).map (M.forward I)) ((List.range K).map (M.reverse I)) lossFn transf none = .ok nd →
      ∀ c kw w, KwOk kw → (∀ i, w.cond i = none) → ∀ g : (Fin n → ℝ × X) → ℝ≥0∞, Measurable g →
        expectT (eval nd c kw w) (onReturn (atEnd K fun lw x => g fun s => (lw s j, x s j))) = ∫⁻ y, g y ∂Measure.pi fun _ => P := by
  refine ⟨S.endLaw μ lp K, endLaw_prob hS K, lintegral_endLaw hS K, ?_⟩
  intro n b j M hV fresh I hid lossFn hl transf ht nd hnd c kw w hk hw g hg
  rw [vsmc_atEnd fresh M I hid lossFn hl transf ht K nd hnd c kw w hk hw]
  exact chain_joint M j hV hS K g hg

theorem measurable_weighted {h : X → ℝ} (hh : Measurable h) : Measurable fun p : ℝ × X => Real.exp p.1 * h p.2 :=
  (Real.measurable_exp.comp measurable_fst).mul (hh.comp measurable_snd)

variable {S : AnnealSpec X D}

/-- The last values, weighted, have the last target's density. -/
theorem endLaw_weighted [SFinite μ] (hS : S.Norm μ lp) (K : Nat) :
    ((S.endLaw μ lp K).withDensity fun p => dens p.1).map Prod.snd = μ.withDensity fun x => dens (S.at' lp K x) := by
  have m1 : Measurable fun p : ℝ × X => dens p.1 := measurable_dens.comp measurable_fst
  ext A hA
  rw [Measure.map_apply measurable_snd hA, withDensity_apply _ (measurable_snd hA), withDensity_apply _ hA, ← lintegral_indicator (measurable_snd hA),
    ← lintegral_indicator hA]
  have e1 : ∀ p : ℝ × X, (Prod.snd ⁻¹' A).indicator (fun p : ℝ × X => dens p.1) p = dens p.1 * A.indicator 1 p.2 := by
    intro p
    by_cases hp : p.2 ∈ A
    · rw [Set.indicator_of_mem hp, Set.indicator_of_mem (show p ∈ Prod.snd ⁻¹' A from hp)]; simp
    · rw [Set.indicator_of_notMem hp, Set.indicator_of_notMem (show p ∉ Prod.snd ⁻¹' A from hp)]; simp
  have e2 : ∀ x, A.indicator (fun x => dens (S.at' lp K x)) x = dens (S.at' lp K x) * A.indicator 1 x := by
    intro x
    by_cases hp : x ∈ A
    · rw [Set.indicator_of_mem hp, Set.indicator_of_mem hp]; simp
    · rw [Set.indicator_of_notMem hp, Set.indicator_of_notMem hp]; simp
  simp only [e1, e2]
  have m2 : Measurable (A.indicator (1 : X → ℝ≥0∞)) := measurable_one.indicator hA
  rw [← law_proper S hS K _ m2]
  exact lintegral_endLaw hS K (fun w x => dens w * A.indicator 1 x) (m1.mul (m2.comp measurable_snd))

theorem integral_endLaw [SFinite μ] (hS : S.Norm μ lp) (K : Nat) (h : X → ℝ) (hh : Measurable h) :
    (Integrable (fun x => Real.exp (S.at' lp K x) * h x) μ → Integrable (fun p : ℝ × X => Real.exp p.1 * h p.2) (S.endLaw μ lp K)) ∧
    ∫ p, Real.exp p.1 * h p.2 ∂S.endLaw μ lp K = ∫ x, Real.exp (S.at' lp K x) * h x ∂μ := by
  have m1 : Measurable fun p : ℝ × X => dens p.1 := measurable_dens.comp measurable_fst
  have m2 : Measurable fun x => dens (S.at' lp K x) := measurable_dens.comp (measurable_at' hS K)
  have t1 : ∀ᵐ p : ℝ × X ∂S.endLaw μ lp K, dens p.1 < ⊤ := .of_forall fun x => ENNReal.ofReal_lt_top
  have t2 : ∀ᵐ x ∂μ, dens (S.at' lp K x) < ⊤ := .of_forall fun x => ENNReal.ofReal_lt_top
  have e : ∀ (y c : ℝ), (dens y).toReal • c = Real.exp y * c := fun y c => by rw [dens, ENNReal.toReal_ofReal (Real.exp_pos _).le, smul_eq_mul]
  have hw := endLaw_weighted hS K
  constructor
  · intro hi
    have h1 : Integrable h (μ.withDensity fun x => dens (S.at' lp K x)) := by
      rw [integrable_withDensity_iff_integrable_smul' m2 t2]
      exact hi.congr (.of_forall fun x => (e _ _).symm)
    rw [← hw, integrable_map_measure hh.aestronglyMeasurable measurable_snd.aemeasurable, integrable_withDensity_iff_integrable_smul' m1 t1] at h1
    exact h1.congr (.of_forall fun x => e _ _)
  · have h1 : ∫ x, h x ∂(μ.withDensity fun x => dens (S.at' lp K x)) = ∫ x, Real.exp (S.at' lp K x) * h x ∂μ := by
      rw [integral_withDensity_eq_integral_toReal_smul m2 t2]
      simp only [e]
    rw [← h1, ← hw, integral_map measurable_snd.aemeasurable hh.aestronglyMeasurable, integral_withDensity_eq_integral_toReal_smul m1 t1]
    simp only [e]

theorem evidence_pos [SFinite μ] (hS : S.Norm μ lp) (K : Nat) (hz : Integrable (fun x => Real.exp (S.at' lp K x)) μ) : 0 < ∫ x, Real.exp (S.at' lp K x) ∂μ := by
  have hne : μ ≠ 0 := by
    intro h0
    have := hS.d0.2
    rw [h0, lintegral_zero_measure] at this
    exact zero_ne_one this
  have : NeZero μ := ⟨hne⟩
  exact integral_exp_pos hz

/-- What is unlikely for many independent chains is unlikely in vsmc. -/
theorem chains_bound [SFinite μ] (hS : S.Norm μ lp) (K : Nat) (E : (n : Nat) → Set (Fin n → ℝ × X)) (hE : ∀ n, MeasurableSet (E n))
    (h : Tendsto (fun n => (Measure.pi fun _ : Fin n => S.endLaw μ lp K) (E n)) atTop (𝓝 0)) (δ : ℝ) (hδ : 0 < δ) :
    ∃ n0 : Nat, ∀ n b : Nat, n0 ≤ n → ∀ (j : Fin b) (M : AnnealModel (PopLang n b X D μ lp)), Vectorises M S j →
      ∀ (fresh : ObjId) (I : AnnealIds), I.Below fresh → ∀ lossFn, LossOk lossFn → ∀ transf, AnnealTransf transf → ∀ nd : Node (PopLang n b X D μ lp),
      vsmc fresh (M.initial I :: (List.range K).map (M.target I)) ((List.range K).map (M.forward I)) ((List.range K).map (M.reverse I)) lossFn transf none = .ok nd →
      ∀ c kw w, KwOk kw → (∀ i, w.cond i = none) →
        expectT (eval nd c kw w) (onReturn (atEnd K fun lw x => indicate ((fun s => (lw s j, x s j)) ∈ E n))) ≤ ENNReal.ofReal δ := by
  obtain ⟨n0, hn0⟩ := (ENNReal.tendsto_atTop_zero.1 h) (ENNReal.ofReal δ) (by simpa using hδ)
  refine ⟨n0, fun n b hn j M hV fresh I hid lossFn hl transf ht nd hnd c kw w hk hw => ?_⟩
  have e : ∀ x : Fin n → ℝ × X, indicate (x ∈ E n) = (E n).indicator 1 x := by
    intro x
    unfold indicate Set.indicator
    rfl
  have hg : Measurable fun x : Fin n → ℝ × X => indicate (x ∈ E n) := by
    simp only [e]
    exact measurable_one.indicator (hE n)
  rw [vsmc_atEnd fresh M I hid lossFn hl transf ht K nd hnd c kw w hk hw]
  refine (chain_joint M j hV hS K (fun y => indicate (y ∈ E n)) hg).trans_le ?_
  simp only [e]
  rw [lintegral_indicator_one (hE n)]
  exact hn0 n hn

/-- C76. As the number of particles grows, the mean over the particles of weight times a function of the last value converges in probability to the function's integral
against the last target's density, for every function that has one; no second moment is needed. -/
theorem C76_mean_converges [SFinite μ] (S : AnnealSpec X D) (hS : S.Norm μ lp) (K : Nat) (h : X → ℝ) (hh : Measurable h)
    (hi : Integrable (fun x => Real.exp (S.at' lp K x) * h x) μ) (ε δ : ℝ) (hε : 0 < ε) (hδ : 0 < δ) :
    ∃ n0 : Nat, ∀ n b : Nat, n0 ≤ n → ∀ (j : Fin b) (M : AnnealModel (PopLang n b X D μ lp)), Vectorises M S j →
      ∀ (fresh : ObjId) (I : AnnealIds), I.Below fresh → ∀ lossFn, LossOk lossFn → ∀ transf, AnnealTransf transf → ∀ nd : Node (PopLang n b X D μ lp),
      vsmc fresh (M.initial I :: (List.range K).map (M.target I)) ((List.range K).map (M.forward I)) ((List.range K).map (M.reverse I)) lossFn transf none = .ok nd →
      ∀ c kw w, KwOk kw → (∀ i, w.cond i = none) →
        expectT (eval nd c kw w) (onReturn (atEnd K fun lw x =>
          indicate (ε ≤ |(∑ s, Real.exp (lw s j) * h (x s j)) / n - ∫ x, Real.exp (S.at' lp K x) * h x ∂μ|))) ≤ ENNReal.ofReal δ := by
  have hp := endLaw_prob hS K
  have hw := measurable_weighted hh
  obtain ⟨h1, h2⟩ := integral_endLaw hS K h hh
  have h3 := average_law (S.endLaw μ lp K) _ hw (h1 hi) ε hε
  rw [h2] at h3
  exact chains_bound hS K _ (fun n => measurableSet_le measurable_const (continuous_abs.measurable.comp
    (((Finset.measurable_sum _ fun s _ => hw.comp (measurable_pi_apply s)).div_const _).sub_const _))) h3 δ hδ

/-- C76. Likewise the self-normalised average converges to the function's mean under the last target, if that has a normalising constant. -/
theorem C76_posterior_converges [SFinite μ] (S : AnnealSpec X D) (hS : S.Norm μ lp) (K : Nat) (h : X → ℝ) (hh : Measurable h)
    (hi : Integrable (fun x => Real.exp (S.at' lp K x) * h x) μ) (hz : Integrable (fun x => Real.exp (S.at' lp K x)) μ) (ε δ : ℝ) (hε : 0 < ε) (hδ : 0 < δ) :
    ∃ n0 : Nat, ∀ n b : Nat, n0 ≤ n → ∀ (j : Fin b) (M : AnnealModel (PopLang n b X D μ lp)), Vectorises M S j →
      ∀ (fresh : ObjId) (I : AnnealIds), I.Below fresh → ∀ lossFn, LossOk lossFn → ∀ transf, AnnealTransf transf → ∀ nd : Node (PopLang n b X D μ lp),
      vsmc fresh (M.initial I :: (List.range K).map (M.target I)) ((List.range K).map (M.forward I)) ((List.range K).map (M.reverse I)) lossFn transf none = .ok nd →
      ∀ c kw w, KwOk kw → (∀ i, w.cond i = none) →
        expectT (eval nd c kw w) (onReturn (atEnd K fun lw x => indicate (ε ≤ |(∑ s, Real.exp (lw s j) * h (x s j)) / (∑ s, Real.exp (lw s j)) -
          (∫ x, Real.exp (S.at' lp K x) * h x ∂μ) / ∫ x, Real.exp (S.at' lp K x) ∂μ|))) ≤ ENNReal.ofReal δ := by
  have hp := endLaw_prob hS K
  have hw := measurable_weighted hh
  have kw : Measurable fun p : ℝ × X => Real.exp p.1 := Real.measurable_exp.comp measurable_fst
  obtain ⟨h1, h2⟩ := integral_endLaw hS K h hh
  obtain ⟨k1, k2⟩ := integral_endLaw hS K (fun _ => 1) measurable_const
  simp only [mul_one] at k1 k2
  have h3 := ratio_law (S.endLaw μ lp K) _ _ hw (h1 hi) kw (k1 hz) (by rw [k2]; exact (evidence_pos hS K hz).ne') ε hε
  rw [h2, k2] at h3
  exact chains_bound hS K _ (fun n => measurableSet_le measurable_const (continuous_abs.measurable.comp
    (((Finset.measurable_sum _ fun s _ => hw.comp (measurable_pi_apply s)).div (Finset.measurable_sum _ fun s _ => kw.comp (measurable_pi_apply s))).sub_const _))) h3 δ hδ

theorem log_average_law {Y : Type} [MeasurableSpace Y] (P : Measure Y) [IsProbabilityMeasure P] (h : Y → ℝ) (hm : Measurable h) (hi : Integrable h P) (h0 : ∫ y, h y ∂P ≠ 0) (ε : ℝ) (hε : 0 < ε) :
    Tendsto (fun n : Nat => (Measure.pi fun _ : Fin n => P) {x | ε ≤ |Real.log ((∑ i, h (x i)) / n) - Real.log (∫ y, h y ∂P)|}) atTop (𝓝 0) := by
  refine in_probability P (fun n x => Real.log ((∑ i, h (x i)) / n))
    (fun n => Real.measurable_log.comp ((Finset.measurable_sum _ fun i _ => hm.comp (measurable_pi_apply i)).div_const _)) _ ?_ ε hε
  filter_upwards [average_ae P h hm hi] with ω h1
  exact h1.log h0

/-- C76. The evidence estimates that nvi_test reports converge: the one for step t to the logarithm of the normalising constant of g(t+1), if that exists. -/
theorem C76_report_converges [SFinite μ] (S : AnnealSpec X D) (hS : S.Norm μ lp) (t : Nat) (hz : Integrable (fun x => Real.exp (lp (S.g t) x)) μ)
    (ε δ : ℝ) (hε : 0 < ε) (hδ : 0 < δ) :
    ∃ n0 : Nat, ∀ n b : Nat, n0 ≤ n → ∀ (j : Fin b) (M : AnnealModel (PopLang n b X D μ lp)), Vectorises M S j →
      ∀ (fresh : ObjId) (I : AnnealIds), I.Below fresh → ∀ lossFn, LossOk lossFn → ∀ transf, AnnealTransf transf → ∀ (K : Nat), t < K → ∀ nd : Node (PopLang n b X D μ lp),
      vsmc fresh (M.initial I :: (List.range K).map (M.target I)) ((List.range K).map (M.forward I)) ((List.range K).map (M.reverse I)) lossFn transf none = .ok nd →
      ∀ kw w, KwOk kw → (∀ i, w.cond i = none) →
        expectT (nviTest popEss popLz nd kw w) (onReturn fun rep =>
          indicate (ε ≤ |reportLz t j rep - Real.log (∫ x, Real.exp (lp (S.g t) x) ∂μ)|)) ≤ ENNReal.ofReal δ := by
  have hp := endLaw_prob hS (t + 1)
  have kw : Measurable fun p : ℝ × X => Real.exp p.1 := Real.measurable_exp.comp measurable_fst
  obtain ⟨k1, k2⟩ := integral_endLaw hS (t + 1) (fun _ => 1) measurable_const
  simp only [mul_one] at k1 k2
  have h3 := log_average_law (S.endLaw μ lp (t + 1)) _ kw (k1 hz) (by rw [k2]; exact (evidence_pos hS (t + 1) hz).ne') ε hε
  rw [k2] at h3
  obtain ⟨n0, hn0⟩ := chains_bound hS (t + 1) _ (fun n => measurableSet_le measurable_const (continuous_abs.measurable.comp
    ((Real.measurable_log.comp ((Finset.measurable_sum _ fun s _ => kw.comp (measurable_pi_apply s)).div_const _)).sub_const _))) h3 δ hδ
  refine ⟨max n0 1, fun n b hn j M hV fresh I hid lossFn hl transf ht K htK nd hnd kw w hk hw => ?_⟩
  have : NeZero n := ⟨by have := le_max_right n0 1; omega⟩
  obtain ⟨nd2, e2, -⟩ := C30_vsmc fresh M I hid lossFn hl transf ht (t + 1)
  obtain ⟨nd1, e1, h1⟩ := C63_nvi_test (L := PopLang n b X D μ lp) popEss popLz fresh M I hid lossFn hl transf ht K
  rw [hnd] at e1
  cases e1
  obtain ⟨F, hF, hF'⟩ := (h1 kw w hk hw).2 (by omega)
  have hrep : expectT (nviTest popEss popLz nd kw w) (onReturn fun rep => indicate (ε ≤ |reportLz t j rep - Real.log (∫ x, Real.exp (lp (S.g t) x) ∂μ)|)) =
      expectT (nviTest popEss popLz nd kw w) (onReturn (atStep t fun lw x => indicate (ε ≤ |Real.log ((∑ s, Real.exp (lw s j)) / n) - Real.log (∫ x, Real.exp (lp (S.g t) x) ∂μ)|))) := by
    refine (isLaw_expectT (μ := μ) (lp := lp) (n := n) j).congr _ _ _ ?_
    rintro ⟨r, w'⟩ hr
    rw [hF, Comp.bind_Ret] at hr
    obtain ⟨z, -, hz⟩ := hr
    cases hz
    have b0 : (F z).lw[t]? = some (M.incoming z (t + 1)) := by rw [(hF' z).lw]; simp [htK]
    have b1 : (F z).lZHat[t]? = some (popLz (M.incoming z (t + 1))) := by rw [(hF' z).lZHat]; simp [htK]
    have b2 : (F z).samples[t]? = some (AnnealModel.name (t + 1), z (t + 1)) := by rw [(hF' z).samples]; simp [htK]
    simp only [onReturn, atStep, reportLz, b0, b1, b2, Option.getD_some, popLz]
    rw [logZHat, zHat]
  rw [hrep, C63_prefix fresh M I hid lossFn hl transf ht K t htK nd nd2 hnd e2 .none kw {} w hk (fun e he => by cases he) hw]
  exact hn0 n b (le_trans (le_max_left _ _) hn) j M hV fresh I hid lossFn hl transf ht nd2 e2 .none {} w (fun e he => by cases he) hw

/-- The effective sample size that a report lists for step `t` and batch element `j`. -/
noncomputable def Spec.reportEss {n b : Nat} (t : Nat) (j : Fin b) (rep : TestReport (PopLang n b X D μ lp) (Fin b → ℝ)) : ℝ := (rep.ess[t]?.getD 0) j

theorem report_ess [SFinite μ] (hS : S.Norm μ lp) (t : Nat) (a : ℝ) (ε : ℝ)
    (h3 : Tendsto (fun n : Nat => (Measure.pi fun _ : Fin n => S.endLaw μ lp (t + 1)) {x | ε ≤ |essFraction (fun p : ℝ × X => Real.exp p.1) n x - a|}) atTop (𝓝 0)) (δ : ℝ) (hδ : 0 < δ) :
    ∃ n0 : Nat, ∀ n b : Nat, n0 ≤ n → ∀ (j : Fin b) (M : AnnealModel (PopLang n b X D μ lp)), Vectorises M S j →
      ∀ (fresh : ObjId) (I : AnnealIds), I.Below fresh → ∀ lossFn, LossOk lossFn → ∀ transf, AnnealTransf transf → ∀ (K : Nat), t < K → ∀ nd : Node (PopLang n b X D μ lp),
      vsmc fresh (M.initial I :: (List.range K).map (M.target I)) ((List.range K).map (M.forward I)) ((List.range K).map (M.reverse I)) lossFn transf none = .ok nd →
      ∀ kw w, KwOk kw → (∀ i, w.cond i = none) →
        expectT (nviTest popEss popLz nd kw w) (onReturn fun rep => indicate (ε ≤ |reportEss t j rep / n - a|)) ≤ ENNReal.ofReal δ := by
  have kw : Measurable fun p : ℝ × X => Real.exp p.1 := Real.measurable_exp.comp measurable_fst
  obtain ⟨n0, hn0⟩ := chains_bound hS (t + 1) _ (fun n => measurableSet_le measurable_const (continuous_abs.measurable.comp
    ((measurable_essFraction _ kw n).sub_const _))) h3 δ hδ
  refine ⟨max n0 1, fun n b hn j M hV fresh I hid lossFn hl transf ht K htK nd hnd kw w hk hw => ?_⟩
  have : NeZero n := ⟨by have := le_max_right n0 1; omega⟩
  obtain ⟨nd2, e2, -⟩ := C30_vsmc fresh M I hid lossFn hl transf ht (t + 1)
  obtain ⟨nd1, e1, h1⟩ := C63_nvi_test (L := PopLang n b X D μ lp) popEss popLz fresh M I hid lossFn hl transf ht K
  rw [hnd] at e1
  cases e1
  obtain ⟨F, hF, hF'⟩ := (h1 kw w hk hw).2 (by omega)
  have hrep : expectT (nviTest popEss popLz nd kw w) (onReturn fun rep => indicate (ε ≤ |reportEss t j rep / n - a|)) =
      expectT (nviTest popEss popLz nd kw w) (onReturn (atStep t fun lw x =>
        indicate ((fun s => (lw s j, x s j)) ∈ {x : Fin n → ℝ × X | ε ≤ |essFraction (fun p : ℝ × X => Real.exp p.1) n x - a|}))) := by
    refine (isLaw_expectT (μ := μ) (lp := lp) (n := n) j).congr _ _ _ ?_
    rintro ⟨r, w'⟩ hr
    rw [hF, Comp.bind_Ret] at hr
    obtain ⟨z, -, hz⟩ := hr
    cases hz
    have b0 : (F z).lw[t]? = some (M.incoming z (t + 1)) := by rw [(hF' z).lw]; simp [htK]
    have b1 : (F z).ess[t]? = some (popEss (M.incoming z (t + 1))) := by rw [(hF' z).ess]; simp [htK]
    have b2 : (F z).samples[t]? = some (AnnealModel.name (t + 1), z (t + 1)) := by rw [(hF' z).samples]; simp [htK]
    simp only [onReturn, atStep, reportEss, b0, b1, b2, Option.getD_some, popEss]
    rw [C27_formula]
    rfl
  rw [hrep, C63_prefix fresh M I hid lossFn hl transf ht K t htK nd nd2 hnd e2 .none kw {} w hk (fun e he => by cases he) hw]
  exact hn0 n b (le_trans (le_max_left _ _) hn) j M hV fresh I hid lossFn hl transf ht nd2 e2 .none {} w (fun e he => by cases he) hw

/-- C76. The effective sample size that nvi_test reports for step t, as a fraction of the number of particles, converges to Z² / V, where Z is the normalising constant of
g(t+1) and V the second moment of one chain's weight; to 0 if that is infinite. -/
theorem C76_ess_converges [SFinite μ] (S : AnnealSpec X D) (hS : S.Norm μ lp) (t : Nat) (hz : Integrable (fun x => Real.exp (lp (S.g t) x)) μ)
    (ε δ : ℝ) (hε : 0 < ε) (hδ : 0 < δ) :
    ∃ n0 : Nat, ∀ n b : Nat, n0 ≤ n → ∀ (j : Fin b) (M : AnnealModel (PopLang n b X D μ lp)), Vectorises M S j →
      ∀ (fresh : ObjId) (I : AnnealIds), I.Below fresh → ∀ lossFn, LossOk lossFn → ∀ transf, AnnealTransf transf → ∀ (K : Nat), t < K → ∀ nd : Node (PopLang n b X D μ lp),
      vsmc fresh (M.initial I :: (List.range K).map (M.target I)) ((List.range K).map (M.forward I)) ((List.range K).map (M.reverse I)) lossFn transf none = .ok nd →
      ∀ kw w, KwOk kw → (∀ i, w.cond i = none) →
        expectT (nviTest popEss popLz nd kw w) (onReturn fun rep => indicate (ε ≤ |reportEss t j rep / n -
          (∫ x, Real.exp (lp (S.g t) x) ∂μ) ^ 2 / (S.law μ lp (t + 1) fun w _ => dens w ^ 2).toReal|)) ≤ ENNReal.ofReal δ := by
  have hp := endLaw_prob hS (t + 1)
  have kw : Measurable fun p : ℝ × X => Real.exp p.1 := Real.measurable_exp.comp measurable_fst
  obtain ⟨k1, k2⟩ := integral_endLaw hS (t + 1) (fun _ => 1) measurable_const
  simp only [mul_one] at k1 k2
  have hsq : ∀ y : ℝ, dens y ^ 2 = ENNReal.ofReal (Real.exp y ^ 2) := fun y => by rw [dens, ENNReal.ofReal_pow (Real.exp_pos _).le]
  have hV : ∫⁻ p, ENNReal.ofReal (Real.exp p.1 ^ 2) ∂S.endLaw μ lp (t + 1) = S.law μ lp (t + 1) fun w _ => dens w ^ 2 := by
    rw [← lintegral_endLaw hS (t + 1) (fun w _ => dens w ^ 2) ((measurable_dens.comp measurable_fst).pow_const 2)]
    simp only [hsq]
  refine report_ess hS t _ ε ?_ δ hδ
  by_cases hf : (S.law μ lp (t + 1) fun w _ => dens w ^ 2) = ⊤
  · rw [hf, ENNReal.toReal_top, div_zero]
    exact ess_infinite _ _ kw (k1 hz) (hV.trans hf) ε hε
  · have hm : Measurable fun p : ℝ × X => Real.exp p.1 ^ 2 := kw.pow_const 2
    have h2 : Integrable (fun p : ℝ × X => Real.exp p.1 ^ 2) (S.endLaw μ lp (t + 1)) := by
      refine ⟨hm.aestronglyMeasurable, ?_⟩
      rw [hasFiniteIntegral_iff_ofReal (.of_forall fun p => sq_nonneg _), hV]
      exact lt_top_iff_ne_top.2 hf
    have e : ∫ p, Real.exp p.1 ^ 2 ∂S.endLaw μ lp (t + 1) = (S.law μ lp (t + 1) fun w _ => dens w ^ 2).toReal := by
      rw [integral_eq_lintegral_of_nonneg_ae (.of_forall fun p => sq_nonneg _) hm.aestronglyMeasurable, hV]
    have h0 : ∫ p, Real.exp p.1 ^ 2 ∂S.endLaw μ lp (t + 1) ≠ 0 := by
      have : ∀ p : ℝ × X, Real.exp p.1 ^ 2 = Real.exp (2 * p.1) := fun p => by rw [← Real.exp_nat_mul]; norm_num
      simp only [this] at h2 ⊢
      exact (integral_exp_pos h2).ne'
    have h3 := ess_finite _ _ kw (k1 hz) h2 h0 ε hε
    rw [k2, e] at h3
    exact h3

end

section
variable (p : PaperParams)

theorem paper_integrable (K k : Nat) : Integrable (fun x => Real.exp (paperTarget p K k x)) volume := by
  have hm : Measurable fun x => Real.exp (paperTarget p K k x) := Real.measurable_exp.comp (measurable_paperTarget p K k)
  refine ⟨hm.aestronglyMeasurable, ?_⟩
  rw [hasFiniteIntegral_iff_ofReal (.of_forall fun x => (Real.exp_pos _).le)]
  obtain ⟨e1, e2⟩ := C79_evidence p K k
  by_cases h : k + 1 < K
  · exact lt_of_le_of_lt (e2 h).2 (lt_top_iff_ne_top.2 (ENNReal.rpow_ne_top_of_nonneg (sigmoid_mem _).1.le (by norm_num)))
  · have := e1 h
    simp only [dens] at this
    rw [this]
    norm_num

theorem paper_integral_last (K : Nat) : ∫ x, Real.exp (paperTarget p (K + 1) K x) = 8 := by
  rw [integral_eq_lintegral_of_nonneg_ae (.of_forall fun x => (Real.exp_pos _).le) (Real.measurable_exp.comp (measurable_paperTarget p (K + 1) K)).aestronglyMeasurable]
  have := (C79_evidence p (K + 1) K).1 (by omega)
  simp only [dens] at this
  rw [this]
  norm_num

/-- C79. Whatever the networks and logits: as the number of particles grows, the evidence estimate that nvi_test reports for the last target converges to log 8 in
probability. -/
theorem C79_converges (K : Nat) (ε δ : ℝ) (hε : 0 < ε) (hδ : 0 < δ) :
    ∃ n0 : Nat, ∀ n b : Nat, n0 ≤ n → ∀ (j : Fin b) (fresh : ObjId) (I : AnnealIds), I.Below fresh → ∀ lossFn, LossOk lossFn → ∀ transf, AnnealTransf transf →
      ∃ nd, vsmc fresh ((paperAnneal n b p (K + 1)).initial I :: (List.range (K + 1)).map ((paperAnneal n b p (K + 1)).target I))
        ((List.range (K + 1)).map ((paperAnneal n b p (K + 1)).forward I)) ((List.range (K + 1)).map ((paperAnneal n b p (K + 1)).reverse I)) lossFn transf none = .ok nd ∧
      ∀ kw w, KwOk kw → (∀ i, w.cond i = none) →
        expectT (nviTest popEss popLz nd kw w) (onReturn fun rep => indicate (ε ≤ |reportLz K j rep - Real.log 8|)) ≤ ENNReal.ofReal δ := by
  obtain ⟨n0, h0⟩ := C76_report_converges (paperSpec p (K + 1)) (paper_norm p (K + 1)) K (paper_integrable p (K + 1) K) ε δ hε hδ
  refine ⟨n0, fun n b hn j fresh I hid lossFn hl transf ht => ?_⟩
  obtain ⟨nd, e, -⟩ := C30_vsmc fresh (paperAnneal n b p (K + 1)) I hid lossFn hl transf ht (K + 1)
  refine ⟨nd, e, fun kw w hk hw => ?_⟩
  have := h0 n b hn j _ (paper_vectorises n b p (K + 1) j) fresh I hid lossFn hl transf ht (K + 1) (by omega) nd e kw w hk hw
  have e8 : ∫ x, Real.exp (paperLp ((paperSpec p (K + 1)).g K) x) = 8 := paper_integral_last p K
  rw [e8] at this
  exact this

/-- C79. Likewise self-normalised averages of any function that has a mean on the ring converge to it. -/
theorem C79_samples (K : Nat) (h : (Fin 2 → ℝ) → ℝ) (hh : Measurable h) (hi : Integrable (fun x => Real.exp (paperRing x) * h x) volume) (ε δ : ℝ) (hε : 0 < ε) (hδ : 0 < δ) :
    ∃ n0 : Nat, ∀ n b : Nat, n0 ≤ n → ∀ (j : Fin b) (fresh : ObjId) (I : AnnealIds), I.Below fresh → ∀ lossFn, LossOk lossFn → ∀ transf, AnnealTransf transf →
      ∃ nd, vsmc fresh ((paperAnneal n b p (K + 1)).initial I :: (List.range (K + 1)).map ((paperAnneal n b p (K + 1)).target I))
        ((List.range (K + 1)).map ((paperAnneal n b p (K + 1)).forward I)) ((List.range (K + 1)).map ((paperAnneal n b p (K + 1)).reverse I)) lossFn transf none = .ok nd ∧
      ∀ c kw w, KwOk kw → (∀ i, w.cond i = none) →
        expectT (eval nd c kw w) (onReturn (atEnd (K + 1) fun lw x => indicate (ε ≤ |(∑ s, Real.exp (lw s j) * h (x s j)) / (∑ s, Real.exp (lw s j)) -
          (∫ x, Real.exp (paperRing x) * h x) / 8|))) ≤ ENNReal.ofReal δ := by
  have er : ∀ x, (paperSpec p (K + 1)).at' paperLp (K + 1) x = paperTarget p (K + 1) K x := fun x => rfl
  have er2 : ∀ x, paperTarget p (K + 1) K x = paperRing x := fun x => by unfold paperTarget; rw [if_neg (by omega)]
  have e8 : ∫ x, Real.exp ((paperSpec p (K + 1)).at' paperLp (K + 1) x) = 8 := paper_integral_last p K
  obtain ⟨n0, h0⟩ := C76_posterior_converges (paperSpec p (K + 1)) (paper_norm p (K + 1)) (K + 1) h hh (by simp only [er, er2]; exact hi) (paper_integrable p (K + 1) K) ε δ hε hδ
  refine ⟨n0, fun n b hn j fresh I hid lossFn hl transf ht => ?_⟩
  obtain ⟨nd, e, -⟩ := C30_vsmc fresh (paperAnneal n b p (K + 1)) I hid lossFn hl transf ht (K + 1)
  refine ⟨nd, e, fun c kw w hk hw => ?_⟩
  have := h0 n b hn j _ (paper_vectorises n b p (K + 1) j) fresh I hid lossFn hl transf ht nd e c kw w hk hw
  rw [e8] at this
  simp only [er, er2] at this
  exact this

end
end Verif
