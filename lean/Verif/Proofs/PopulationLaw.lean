import Mathlib.MeasureTheory.Integral.IntervalIntegral.Basic
import Verif.Proofs.Population
import Verif.Spec.Population
import Verif.Props.ResampleWeights
import Verif.Props.Metrics
/-
Expectations over populations.
-/
namespace Verif
open Spec MeasureTheory
open scoped ENNReal

section
variable {n b : Nat} {X D : Type} [MeasurableSpace X] {μ : Measure X} {lp : D → X → ℝ}
local notation "ℙ" => PopLang n b X D μ lp

theorem expectT_bind {α β : Type} (m : Comp ℙ α) (f : α → Comp ℙ β) (g : β → ℝ≥0∞) :
    expectT (m.bind f) g = expectT m fun a => expectT (f a) g := by
  induction m with
  | ret a => rfl
  | draw d b k ih => exact lintegral_congr fun v => by rw [← ih v]
  | rand k ih => exact lintegral_congr fun u => by rw [← ih u]

theorem expectT_mul {α : Type} (m : Comp ℙ α) (x : ℝ≥0∞) (hx : x ≠ ⊤) (g : α → ℝ≥0∞) :
    expectT m (fun a => x * g a) = x * expectT m g := by
  induction m with
  | ret a => rfl
  | draw d b k ih => exact (lintegral_congr fun v => ih v).trans (lintegral_const_mul' _ _ hx)
  | rand k ih => exact (lintegral_congr fun u => ih u).trans (lintegral_const_mul' _ _ hx)

/-! ### Independent draws -/

theorem normalised_prob {d : D} (h : Normalised μ lp d) : IsProbabilityMeasure (μ.withDensity fun x => dens (lp d x)) := by
  constructor
  rw [withDensity_apply _ MeasurableSet.univ, Measure.restrict_univ, h.2]

/-- The marginal distribution of one element of a draw. -/
theorem lintegral_element (d : Fin n → Fin b → { d : D // Normalised μ lp d }) (s : Fin n) (j : Fin b) {F : X → ℝ≥0∞} (hF : Measurable F) :
    ∫⁻ v : Fin n → Fin b → X, F (v s j) ∂(Measure.pi fun s => Measure.pi fun j => μ.withDensity fun x => dens (lp (d s j).1 x)) =
      ∫⁻ x, dens (lp (d s j).1 x) * F x ∂μ := by
  have h1 : ∀ s j, IsProbabilityMeasure (μ.withDensity fun x => dens (lp (d s j).1 x)) := fun s j => normalised_prob (d s j).2
  have h2 := measurePreserving_eval (fun s => Measure.pi fun j => μ.withDensity fun x => dens (lp (d s j).1 x)) s
  have h3 := measurePreserving_eval (fun j => μ.withDensity fun x => dens (lp (d s j).1 x)) j
  refine ((h3.comp h2).lintegral_comp hF).trans ?_
  exact lintegral_withDensity_eq_lintegral_mul _ (measurable_dens.comp (d s j).2.1) hF

theorem expectT_congr {α : Type} (m : Comp ℙ α) (g g' : α → ℝ≥0∞) (h : ∀ a, m.Ret a → g a = g' a) : expectT m g = expectT m g' := by
  induction m with
  | ret a => exact h a rfl
  | draw d b k ih => exact lintegral_congr fun v => by rw [ih v fun a ha => h a ⟨v, ha⟩]
  | rand k ih => exact lintegral_congr fun u => ih u fun a ha => h a ⟨u, ha⟩

theorem isLaw_expectT (j : Fin b) :
    IsLaw μ (fun s : Fin n => particleLane (μ := μ) (lp := lp) s j) (fun {_} m g => expectT m g) where
  ret _ _ := rfl
  bind := expectT_bind
  congr := expectT_congr
  draw d b' k g F hF h := by
    refine Eq.trans (lintegral_congr h) ?_
    refine (lintegral_finset_sum _ fun s _ => ?_).trans (Finset.sum_congr rfl fun s _ => lintegral_element d s j (hF s))
    exact (hF s).comp ((measurable_pi_apply j).comp (measurable_pi_apply s))

/-! ### Uniform offsets -/

theorem unit_prob : IsProbabilityMeasure (Measure.comap (Subtype.val : Set.Ico (0 : ℝ) 1 → ℝ) volume) := by
  constructor
  rw [comap_subtype_coe_apply measurableSet_Ico, Set.image_univ, Subtype.range_coe]
  simp

theorem lintegral_offset (j : Fin b) (f : ℝ → ℝ≥0∞) (hf : Measurable f) :
    ∫⁻ u : Fin b → Set.Ico (0 : ℝ) 1, f (u j).1 ∂Measure.pi (fun _ => volume.comap Subtype.val) = ∫⁻ x in Set.Ioc 0 1, f x := by
  have := unit_prob
  have hp := measurePreserving_eval (fun _ : Fin b => Measure.comap (Subtype.val : Set.Ico (0 : ℝ) 1 → ℝ) volume) j
  rw [hp.lintegral_comp (f := fun x : Set.Ico (0 : ℝ) 1 => f x.1) (hf.comp measurable_subtype_coe),
    lintegral_subtype_comap measurableSet_Ico f]
  exact setLIntegral_congr (Ico_ae_eq_Ioc)

theorem measurableSet_ancestors [NeZero n] (w : Fin n → ℝ) (k i : Fin n) : MeasurableSet {u : ℝ | ancestors w u k = i.val} := by
  unfold ancestors ustep
  simp only [searchsorted_eq_iff, Set.setOf_and]
  refine MeasurableSet.inter (measurableSet_le (by fun_prop) (by fun_prop)) ?_
  simp only [Set.setOf_forall]
  exact MeasurableSet.iInter fun j => MeasurableSet.iInter fun _ => measurableSet_lt (by fun_prop) (by fun_prop)

theorem lintegral_offspring [NeZero n] (w : Fin n → ℝ) (hw : ∀ i, 0 ≤ w i) (hs : 0 < ∑ i, w i) (i : Fin n) :
    ∫⁻ u in Set.Ioc (0 : ℝ) 1, (offspring w u i : ℝ≥0∞) = ENNReal.ofReal (n * share w i) := by
  rw [← C23_expected_offspring w hw hs i, intervalIntegral.integral_of_le zero_le_one, ofReal_integral_eq_lintegral_ofReal]
  · refine lintegral_congr fun u => ?_
    rw [ENNReal.ofReal_natCast]
  · exact (intervalIntegrable_iff_integrableOn_Ioc_of_le zero_le_one).1 (integrable_offspring w hw hs i)
  · exact Filter.Eventually.of_forall fun u => Nat.cast_nonneg _

theorem measurable_offspring [NeZero n] (w : Fin n → ℝ) (i : Fin n) : Measurable fun u : ℝ => (offspring w u i : ℝ≥0∞) := by
  have h : ∀ u, (offspring w u i : ℝ≥0∞) = ∑ k : Fin n, Set.indicator {u : ℝ | ancestors w u k = i.val} (fun _ => 1) u := by
    intro u
    unfold offspring
    rw [Finset.card_filter, Nat.cast_sum]
    refine Finset.sum_congr rfl fun k _ => ?_
    by_cases hk : ancestors w u k = i.val <;> simp [hk]
  simp only [h]
  exact Finset.measurable_sum _ fun k _ => measurable_const.indicator (measurableSet_ancestors w k i)

/-! ### Systematic resampling -/

theorem lane_moved {t t' : Trace ℙ} {a : Fin n → Fin b → Fin n}
    (h : List.Forall₂ (fun e e' => e'.1 = e.1 ∧ Moved a e.2 e'.2) t.entries t'.entries) (hm : Movable t) (hl : Latent t) (s : Fin n) (j : Fin b) :
    laneEnv (particleLane s j) t' = laneEnv (particleLane (a s j) j) t := by
  have h' : List.Forall₂ (fun e e' => (e'.1 = e.1 ∧ Moved a e.2 e'.2) ∧ Permuted e.2) t.entries t'.entries := by
    have hall : ∀ e ∈ t.entries, Permuted e.2 := fun e he =>
      ⟨hm e.1 e.2 (Dict.get?_eq_some.2 he), hl e.1 e.2 (Dict.get?_eq_some.2 he)⟩
    revert hall
    generalize t.entries = l1 at h
    generalize t'.entries = l2 at h
    intro hall
    induction h with
    | nil => exact .nil
    | cons h1 h2 ih =>
      exact .cons ⟨h1, hall _ List.mem_cons_self⟩ (ih fun e he => hall e (List.mem_cons_of_mem _ he))
  unfold laneEnv
  generalize t.entries = l1 at h'
  generalize t'.entries = l2 at h'
  induction h' with
  | nil => rfl
  | @cons x y _ _ h1 h2 ih =>
    obtain ⟨⟨h3, h4, -⟩, h5⟩ := h1
    obtain ⟨e1, -, -, -, -, -, ev, elp⟩ := h4 h5
    simp only [List.map_cons, ih, h3, e1]
    congr 3
    · exact ev s j
    · exact elp s j

theorem unbiased_systematic_of [hn0 : NeZero n] (j : Fin b) {E : ∀ {α : Type}, Comp ℙ α → (α → ℝ≥0∞) → ℝ≥0∞}
    (hret : ∀ {α : Type} (a : α) (g : α → ℝ≥0∞), E (.ret a) g = g a)
    (hrand : ∀ {α : Type} (k : (Fin b → Set.Ico (0 : ℝ) 1) → Comp ℙ α) (g : α → ℝ≥0∞) (F : ℝ → ℝ≥0∞), Measurable F →
      (∀ u, E (k u) g = F (u j).1) → E (.rand k) g = ∫⁻ x in Set.Ioc 0 1, F x) :
    Unbiased (fun s : Fin n => particleLane (μ := μ) (lp := lp) s j) E (systematic false false) where
  moves sd bd t lw t' lw' h hm hl := by
    obtain ⟨-, lv, u, a, -, -, -, h2, -⟩ := systematic_ok _ _ _ _ _ _ _ _ h
    refine ⟨?_, fun s => a s j, fun s => lane_moved h2 hm hl s j⟩
    intro k rv' hk
    obtain ⟨h3, h4⟩ := sameAddrs_of_forall₂ h2
    obtain ⟨rv, h5⟩ := Dict.mem_keys_iff.1 (h3 ▸ Dict.mem_keys_iff.2 ⟨rv', hk⟩)
    obtain ⟨rv'', h6, h7, -⟩ := h4 k rv h5
    rw [hk] at h6
    cases h6
    exact (h7 ⟨hm k rv h5, hl k rv h5⟩).2.2.1
  law sd bd t lw hm hl hok G := by
    cases lw with
    | float0 =>
      exfalso
      unfold systematic at hok
      simp only at hok
      split at hok
      · obtain ⟨y, hy⟩ := hok _ rfl; cases hy
      · obtain ⟨y, hy⟩ := hok _ rfl; cases hy
    | tensor lv =>
      unfold systematic at hok ⊢
      simp only at hok ⊢
      cases hc : checkDims false n b sd bd with
      | error e => rw [hc] at hok; obtain ⟨y, hy⟩ := hok _ rfl; cases hy
      | ok _ =>
        rw [hc] at hok
        have hok' : ∀ u, ∃ y, systematicAt false t lv u = .ok y := fun u => hok _ ⟨u, rfl⟩
        set w : Fin n → ℝ := softmax fun i => lv i j with hw
        have key : ∀ (u : Fin b → Set.Ico (0 : ℝ) 1) y, systematicAt false t lv u = .ok y →
            ∑ s, dens ((particleLane (μ := μ) (lp := lp) s j).w y.2.val) * G (laneEnv (particleLane s j) y.1) =
            ∑ i, ENNReal.ofReal (zHat fun i => lv i j) * G (laneEnv (particleLane i j) t) * (offspring w (u j).1 i : ℝ≥0∞) := by
          rintro u ⟨t', lw'⟩ hy
          obtain ⟨a, h1, h2, rfl⟩ := systematicAt_ok _ _ _ _ _ _ hy
          have e2 : ∀ s, dens ((particleLane (μ := μ) (lp := lp) s j).w (LW.tensor (fun s j => resampledLw false (fun i => lv i j) s)).val) =
              ENNReal.ofReal (zHat fun i => lv i j) := by
            intro s
            show dens (resampledLw false (fun i => lv i j) s) = _
            rw [resampledLw_eq, dens, logZHat, Real.exp_log (zHat_pos _)]
          simp only [lane_moved h2 hm hl]
          have e3 : ∀ i : Fin n, (offspring w (u j).1 i : ℝ≥0∞) = ∑ s : Fin n, if a s j = i then 1 else 0 := by
            intro i
            unfold offspring
            rw [Finset.card_filter, Nat.cast_sum]
            refine Finset.sum_congr rfl fun s _ => ?_
            rw [hw, ← h1 s j]
            simp [Fin.ext_iff]
          simp only [e3, Finset.mul_sum]
          rw [Finset.sum_comm]
          refine Finset.sum_congr rfl fun s _ => ?_
          simp only [mul_ite, mul_one, mul_zero, Finset.sum_ite_eq, Finset.mem_univ, if_true]
          exact congrArg (· * _) (e2 s)
        have hS : (∑ i, Real.exp (lv i j)) ≠ 0 := (sum_exp_pos fun i => lv i j).ne'
        have hn : (n : ℝ) ≠ 0 := (n_pos (n := n)).ne'
        refine Eq.trans (hrand _ _ (fun x => ∑ i, ENNReal.ofReal (zHat fun i => lv i j) * G (laneEnv (particleLane i j) t) * (offspring w x i : ℝ≥0∞))
          (Finset.measurable_sum _ fun i _ => (measurable_offspring w i).const_mul _) fun u => by
          obtain ⟨y, hy⟩ := hok' u
          rw [hret]
          simp only [hy]
          exact key u y hy) ?_
        rw [lintegral_finset_sum _ fun i _ => (measurable_offspring w i).const_mul _]
        refine Finset.sum_congr rfl fun i _ => ?_
        rw [lintegral_const_mul _ (measurable_offspring w i), lintegral_offspring w (softmax_hyps _).1 (softmax_hyps _).2,
          mul_right_comm, ← ENNReal.ofReal_mul (zHat_pos _).le]
        congr 2
        show _ = Real.exp (lv i j)
        unfold share zHat
        rw [hw, softmax_sum, div_one, softmax]
        field_simp

theorem unbiased_systematic [NeZero n] (j : Fin b) :
    Unbiased (fun s : Fin n => particleLane (μ := μ) (lp := lp) s j) (fun {_} m g => expectT m g) (systematic false false) :=
  unbiased_systematic_of j (fun _ _ => rfl) fun _ _ F hF h => (lintegral_congr h).trans (lintegral_offset j F hF)

end
end Verif
