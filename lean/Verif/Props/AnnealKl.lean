import Mathlib.InformationTheory.KullbackLeibler.Basic
import Verif.Spec.AnnealPath
import Verif.Props.AnnealChains
import Verif.Props.ObjectiveChain
/-
C78: what nvo_avo minimises. The expected loss of vsmc is the divergence of the sampled paths from the extended target, minus the log evidence.
-/
namespace Verif
open Spec MeasureTheory InformationTheory
open scoped ENNReal

section
variable {X D : Type} [MeasurableSpace X] {μ : Measure X} {lp : D → X → ℝ}
open AnnealSpec

theorem sfinite_base [SFinite μ] : (K : Nat) → SFinite (base μ K)
  | 0 => inferInstanceAs (SFinite μ)
  | K + 1 => by
    have := sfinite_base K
    exact inferInstanceAs (SFinite ((base μ K).prod μ))

theorem measurable_endOf : (K : Nat) → Measurable (endOf (X := X) K)
  | 0 => measurable_id
  | _ + 1 => measurable_snd

theorem measurable_logSampled {S : AnnealSpec X D} (hS : S.Norm μ lp) : (K : Nat) → Measurable (S.logSampled lp K)
  | 0 => hS.d0.1
  | K + 1 => ((measurable_logSampled hS K).comp measurable_fst).add
      ((hS.measF K).comp (((measurable_endOf K).comp measurable_fst).prodMk measurable_snd))

theorem measurable_logReverse {S : AnnealSpec X D} (hS : S.Norm μ lp) : (K : Nat) → Measurable (S.logReverse lp K)
  | 0 => measurable_const
  | K + 1 => ((measurable_logReverse hS K).comp measurable_fst).add
      ((hS.measR K).comp (measurable_snd.prodMk ((measurable_endOf K).comp measurable_fst)))

/-- Log weight of a path. -/
def pathWeight (S : AnnealSpec X D) (lp : D → X → ℝ) (K : Nat) (p : Path X K) : ℝ :=
  S.at' lp K (endOf K p) + S.logReverse lp K p - S.logSampled lp K p

theorem measurable_pathWeight {S : AnnealSpec X D} (hS : S.Norm μ lp) (K : Nat) : Measurable (pathWeight S lp K) :=
  (((measurable_at' hS K).comp (measurable_endOf K)).add (measurable_logReverse hS K)).sub (measurable_logSampled hS K)

/-- The law of a chain, as an integral over its paths. -/
theorem law_path [SFinite μ] {S : AnnealSpec X D} (hS : S.Norm μ lp) (K : Nat) (φ : ℝ → X → ℝ≥0∞) (hφ : Measurable fun p : ℝ × X => φ p.1 p.2) :
    S.law μ lp K φ = ∫⁻ p, dens (S.logSampled lp K p) * φ (pathWeight S lp K p) (endOf K p) ∂base μ K := by
  induction K generalizing φ with
  | zero =>
    simp only [AnnealSpec.law, pathWeight, AnnealSpec.at', logReverse, logSampled, endOf, base]
    refine lintegral_congr fun x => ?_
    rw [add_zero, sub_self]
  | succ K ih =>
    have := sfinite_base (μ := μ) K
    have hψ : Measurable fun p : (ℝ × X) × X => dens (lp (S.f K p.1.2) p.2) * φ (p.1.1 + S.logIncrement lp K p.1.2 p.2) p.2 := by
      have m1 : Measurable fun p : (ℝ × X) × X => (p.1.2, p.2) := (measurable_snd.comp measurable_fst).prodMk measurable_snd
      refine (measurable_dens.comp ((hS.measF K).comp m1)).mul (hφ.comp (Measurable.prodMk ?_ measurable_snd))
      exact (measurable_fst.comp measurable_fst).add ((measurable_logIncrement hS K).comp m1)
    rw [AnnealSpec.law, ih _ hψ.lintegral_prod_right']
    have hm : Measurable fun p : Path X K × X => dens (S.logSampled lp (K + 1) p) * φ (pathWeight S lp (K + 1) p) (endOf (K + 1) p) :=
      (measurable_dens.comp (measurable_logSampled hS (K + 1))).mul
        (hφ.comp ((measurable_pathWeight hS (K + 1)).prodMk (measurable_endOf (K + 1))))
    refine Eq.trans ?_ (lintegral_prod (μ := base μ K) (ν := μ) _ hm.aemeasurable).symm
    refine lintegral_congr fun p => ?_
    rw [← lintegral_const_mul' _ _ (dens_ne_top _)]
    refine lintegral_congr fun y => ?_
    rw [← mul_assoc, ← dens_add]
    congr 2
    simp only [pathWeight, logIncrement, logReverse, logSampled, endOf]
    ring

theorem isProbabilityMeasure_sampled [SFinite μ] {S : AnnealSpec X D} (hS : S.Norm μ lp) (K : Nat) : IsProbabilityMeasure (S.sampled μ lp K) := by
  constructor
  rw [sampled, withDensity_apply _ MeasurableSet.univ, Measure.restrict_univ]
  have h := law_path hS K (fun _ _ => 1) measurable_const
  simp only [mul_one] at h
  rw [← h]
  clear h
  induction K with
  | zero => 
    simp only [AnnealSpec.law, mul_one]
    exact hS.d0.2
  | succ K ih =>
    simp only [AnnealSpec.law, mul_one]
    have : ∀ x, ∫⁻ y, dens (lp (S.f K x) y) ∂μ = 1 := fun x => (hS.f K x).2
    simp only [this]
    exact ih

theorem isProbabilityMeasure_extended [SFinite μ] {S : AnnealSpec X D} (hS : S.Norm μ lp) (K : Nat) (logZ : ℝ)
    (hZ : ∫⁻ x, dens (S.at' lp K x) ∂μ = dens logZ) : IsProbabilityMeasure (S.extended μ lp logZ K) := by
  constructor
  rw [extended, withDensity_apply _ MeasurableSet.univ, Measure.restrict_univ]
  have h := law_path hS K (fun w _ => dens w * dens (-logZ)) ((measurable_dens.comp measurable_fst).mul measurable_const)
  rw [law_proper S hS K (fun _ => dens (-logZ)) measurable_const, lintegral_mul_const' _ _ (dens_ne_top _), hZ, ← dens_add] at h
  have h1 : dens (logZ + -logZ) = 1 := by simp [dens]
  rw [h1] at h
  rw [h]
  refine lintegral_congr fun p => ?_
  rw [← dens_add, ← dens_add]
  congr 1
  simp only [pathWeight]
  ring

/-- The divergence of the sampled paths from the extended target, in terms of the weight. -/
theorem klDiv_path [SFinite μ] {S : AnnealSpec X D} (hS : S.Norm μ lp) (K : Nat) (logZ : ℝ) (hZ : ∫⁻ x, dens (S.at' lp K x) ∂μ = dens logZ) :
    klDiv (S.sampled μ lp K) (S.extended μ lp logZ K) =
      S.law μ lp K fun w _ => ENNReal.ofReal (Real.exp (w - logZ) - 1 - (w - logZ)) := by
  have i1 := isProbabilityMeasure_sampled hS K
  have i2 := isProbabilityMeasure_extended hS K logZ hZ
  have m1 := measurable_pathWeight hS K
  have mE : Measurable fun p : Path X K => dens (S.at' lp K (endOf K p) + S.logReverse lp K p - logZ) :=
    measurable_dens.comp ((((measurable_at' hS K).comp (measurable_endOf K)).add (measurable_logReverse hS K)).sub measurable_const)
  have mR : Measurable fun p : Path X K => dens (-(pathWeight S lp K p - logZ)) := measurable_dens.comp (m1.sub measurable_const).neg
  have e : S.sampled μ lp K = (S.extended μ lp logZ K).withDensity fun p => dens (-(pathWeight S lp K p - logZ)) := by
    rw [extended, ← withDensity_mul _ mE mR, sampled]
    congr 1
    funext p
    rw [Pi.mul_apply, ← dens_add]
    congr 1
    simp only [pathWeight]
    ring
  have hac : S.sampled μ lp K ≪ S.extended μ lp logZ K := by
    rw [e]
    exact withDensity_absolutelyContinuous _ _
  have hrn : (S.sampled μ lp K).rnDeriv (S.extended μ lp logZ K) =ᵐ[S.extended μ lp logZ K] fun p => dens (-(pathWeight S lp K p - logZ)) := by
    rw [e]
    exact Measure.rnDeriv_withDensity _ mR
  rw [klDiv_eq_lintegral_klFun_of_ac hac]
  have h1 : ∫⁻ p, ENNReal.ofReal (klFun ((S.sampled μ lp K).rnDeriv (S.extended μ lp logZ K) p).toReal) ∂S.extended μ lp logZ K =
      ∫⁻ p, ENNReal.ofReal (klFun (Real.exp (-(pathWeight S lp K p - logZ)))) ∂S.extended μ lp logZ K := by
    refine lintegral_congr_ae (hrn.mono fun p hp => ?_)
    beta_reduce at hp ⊢
    rw [hp, dens, ENNReal.toReal_ofReal (Real.exp_pos _).le]
  have mk : Measurable fun p : Path X K => ENNReal.ofReal (klFun (Real.exp (-(pathWeight S lp K p - logZ)))) :=
    (measurable_klFun.comp (Real.measurable_exp.comp (m1.sub measurable_const).neg)).ennreal_ofReal
  rw [h1, extended, lintegral_withDensity_eq_lintegral_mul _ mE mk, law_path hS K _ (by fun_prop)]
  refine lintegral_congr fun p => ?_
  rw [Pi.mul_apply]
  have h2 : S.at' lp K (endOf K p) + S.logReverse lp K p - logZ = S.logSampled lp K p + (pathWeight S lp K p - logZ) := by
    simp only [pathWeight]
    ring
  rw [h2, dens_add, mul_assoc]
  congr 1
  rw [dens, ← ENNReal.ofReal_mul (Real.exp_pos _).le, klFun, Real.log_exp]
  congr 1
  have : Real.exp (pathWeight S lp K p - logZ) * Real.exp (-(pathWeight S lp K p - logZ)) = 1 := by
    rw [← Real.exp_add]
    simp
  linear_combination (-(pathWeight S lp K p - logZ) - 1) * this

end

section
variable {n b : Nat} {X D : Type} [MeasurableSpace X] {μ : Measure X} {lp : D → X → ℝ} {E : Type} {θ₀ : E}
  {lpθ : (Fin n → Fin b → { d : D // Normalised μ lp d }) → (Fin n → Fin b → X) → Ten n b E}
local notation "𝕆" => CLang n b E θ₀ (Fin n → Fin b → X) (Fin n → Fin b → { d : D // Normalised μ lp d }) lpθ id
local notation "ℙ" => PopLang n b X D μ lp

theorem expectTU_one [Nonempty X] [SFinite μ] {α : Type} (m : Comp ℙ α) : expectTU m (fun _ => 1) = 1 := by
  induction m with
  | ret a => rfl
  | draw d b k ih =>
    have h1 : ∀ s j, IsProbabilityMeasure (μ.withDensity fun x => dens (lp (d s j).1 x)) := fun s j => normalised_prob (d s j).2
    refine (congrArg (upper (Y := Fin n → Fin _ → X) _ _) (funext ih)).trans ((upper_measurable _ _ measurable_const).trans ?_)
    refine (lintegral_congr fun _ => mul_one _).trans ?_
    exact lintegral_one.trans measure_univ
  | rand k ih =>
    have := unit_prob
    refine (congrArg (upper (Y := Fin b → Set.Ico (0 : ℝ) 1) _ _) (funext ih)).trans ((upper_measurable _ _ measurable_const).trans ?_)
    refine (lintegral_congr fun _ => mul_one _).trans ?_
    exact lintegral_one.trans measure_univ

theorem recast_bind {α β : Type} (m : Comp 𝕆 α) (f : α → Comp 𝕆 β) : (m.bind f).recast = m.recast.bind fun a => (f a).recast := by
  induction m with
  | ret a => rfl
  | draw d r k ih => exact congrArg (Comp.draw (L := ℙ) d r) (funext ih)
  | rand k ih => exact ih ()

theorem recast_ret {α : Type} (m : Comp 𝕆 α) (a : α) (h : m.recast.Ret a) : m.Ret a := by
  induction m with
  | ret a' => exact h
  | draw d r k ih =>
    obtain ⟨v, hv⟩ := h
    exact ⟨v, ih v hv⟩
  | rand k ih => exact ⟨(), ih () h⟩

/-- The particle `s` of batch element `j`, at the current parameters. -/
def particleLaneAt {j : Fin b} (h : ∀ d v s, lpθ d v s j θ₀ = lp (d s j).1 (v s j)) (s : Fin n) : Lane 𝕆 lp where
  v x := x s j
  w := { toFun := fun x => x s j θ₀, map_zero' := rfl, map_add' := fun _ _ => rfl }
  d x := (x s j).1
  logProb d v := h d v s
  detachV _ := rfl
  detachW _ := rfl

theorem isLaw_recast {G : (Fin n → ℝ≥0∞) → ℝ≥0∞} {j : Fin b} (h : ∀ d v s, lpθ d v s j θ₀ = lp (d s j).1 (v s j))
    {F : ∀ {α : Type}, Comp ℙ α → (α → ℝ≥0∞) → ℝ≥0∞} (hF : IsLawOf G μ (fun s : Fin n => particleLane (μ := μ) (lp := lp) s j) F) :
    IsLawOf G μ (fun s => particleLaneAt h s) (fun {_} (m : Comp 𝕆 _) g => F m.recast g) where
  ret a g := hF.ret a g
  bind m f g := by
    rw [recast_bind]
    exact hF.bind _ _ _
  congr m g g' h := hF.congr _ _ _ fun a ha => h a (recast_ret m a ha)
  draw d r k g Φ hΦ h := hF.draw d r (fun v => (k v).recast) g Φ hΦ h

theorem VectorisesAt.sees {M : AnnealModel 𝕆} {S : AnnealSpec X D} {j : Fin b} (h : VectorisesAt M S j) (s : Fin n) :
    Sees (particleLaneAt h.logProb s) M S :=
  ⟨h.d0 s, fun k v => h.g s k v, fun k v => h.f s k v, fun k v => h.r s k v⟩

/-- Mean value and divergence, for means that are superadditive, and subadditive if one summand is taken with the upper mean. -/
theorem gap_of_means {α : Type} (F FU : (α → ℝ≥0∞) → ℝ≥0∞) (hone : F (fun _ => 1) = 1) (honeU : FU (fun _ => 1) = 1)
    (hmono : ∀ f g, (∀ a, f a ≤ g a) → F f ≤ F g) (hsup : ∀ f g, F f + F g ≤ F fun a => f a + g a)
    (hsub : ∀ f g, F (fun a => f a + g a) ≤ FU f + F g) (x : α → ℝ) (A Δ : α → ℝ≥0∞) (κ : ℝ≥0∞) (hA : F A = κ) (hAU : FU A = κ) (hΔ : F Δ = 1)
    (hΔU : FU Δ = 1) (hx : ∀ a, ENNReal.ofReal (x a) + Δ a = A a + (1 + ENNReal.ofReal (-x a))) (hle : ∀ a, ENNReal.ofReal (-x a) ≤ Δ a) :
    F (fun a => ENNReal.ofReal (x a)) = κ + F (fun a => ENNReal.ofReal (-x a)) ∧ F (fun a => ENNReal.ofReal (-x a)) ≤ 1 := by
  have hx' : (fun a => ENNReal.ofReal (x a) + Δ a) = fun a => A a + (1 + ENNReal.ofReal (-x a)) := funext hx
  have hx'' : (fun a => Δ a + ENNReal.ofReal (x a)) = fun a => A a + (1 + ENNReal.ofReal (-x a)) := by
    rw [← hx']
    funext a
    exact add_comm _ _
  refine ⟨le_antisymm ?_ ?_, ?_⟩
  · have h1 : F (fun a => ENNReal.ofReal (x a)) + 1 ≤ κ + F (fun a => ENNReal.ofReal (-x a)) + 1 := by
      calc _ = F (fun a => ENNReal.ofReal (x a)) + F Δ := by rw [hΔ]
        _ ≤ F (fun a => A a + (1 + ENNReal.ofReal (-x a))) := by
          rw [← hx']
          exact hsup _ _
        _ ≤ FU A + (FU (fun _ => 1) + F (fun a => ENNReal.ofReal (-x a))) := (hsub _ _).trans (add_le_add le_rfl (hsub _ _))
        _ = _ := by
          rw [hAU, honeU]
          ring
    exact (ENNReal.add_le_add_iff_right ENNReal.one_ne_top).1 h1
  · have h1 : κ + F (fun a => ENNReal.ofReal (-x a)) + 1 ≤ F (fun a => ENNReal.ofReal (x a)) + 1 := by
      calc _ = F A + (F (fun _ => 1) + F (fun a => ENNReal.ofReal (-x a))) := by
            rw [hA, hone]
            ring
        _ ≤ F (fun a => A a + (1 + ENNReal.ofReal (-x a))) := (add_le_add le_rfl (hsup _ _)).trans (hsup _ _)
        _ ≤ FU Δ + F (fun a => ENNReal.ofReal (x a)) := by
          rw [← hx'']
          exact hsub _ _
        _ = _ := by
          rw [hΔU]
          ring
    exact (ENNReal.add_le_add_iff_right ENNReal.one_ne_top).1 h1
  · rw [← hΔ]
    exact hmono _ _ hle

theorem mean_ofReal (hn : n ≠ 0) (x : Fin n → ℝ) (hx : ∀ i, 0 ≤ x i) : ∑ i, ENNReal.ofReal (x i) / n = ENNReal.ofReal (Spec.mean x) := by
  have hn' : (0 : ℝ) < n := by exact_mod_cast Nat.pos_of_ne_zero hn
  rw [Spec.mean, Finset.sum_div, ENNReal.ofReal_sum_of_nonneg fun i _ => div_nonneg (hx i) hn'.le]
  refine Finset.sum_congr rfl fun i _ => ?_
  rw [ENNReal.ofReal_div_of_pos hn', ENNReal.ofReal_natCast]

/-- The identity behind C78: loss + log Z, the mean weight and the divergence, with positive and negative parts. -/
theorem mean_identity (hn : n ≠ 0) (u : Fin n → ℝ) :
    ENNReal.ofReal (-Spec.mean u) + ∑ i, dens (u i) / n = ∑ i, ENNReal.ofReal (Real.exp (u i) - 1 - u i) / n + (1 + ENNReal.ofReal (-(-Spec.mean u))) ∧
      ENNReal.ofReal (-(-Spec.mean u)) ≤ ∑ i, dens (u i) / n := by
  have hn' : (0 : ℝ) < n := by exact_mod_cast Nat.pos_of_ne_zero hn
  have hk : ∀ i, 0 ≤ Real.exp (u i) - 1 - u i := fun i => by linarith [Real.add_one_le_exp (u i)]
  simp only [dens]
  rw [mean_ofReal hn _ hk, mean_ofReal hn (fun i => Real.exp (u i)) fun i => (Real.exp_pos _).le, neg_neg]
  have h0 : Spec.mean (fun i => Real.exp (u i) - 1 - u i) = Spec.mean (fun i => Real.exp (u i)) - 1 - Spec.mean u := by
    simp only [Spec.mean, Finset.sum_sub_distrib, sub_div, Finset.sum_const, Finset.card_univ, Fintype.card_fin, nsmul_eq_mul, mul_one, div_self hn'.ne']
  have h1 : 0 ≤ Spec.mean (fun i => Real.exp (u i) - 1 - u i) := div_nonneg (Finset.sum_nonneg fun i _ => hk i) hn'.le
  have h2 : 0 ≤ Spec.mean fun i => Real.exp (u i) := div_nonneg (Finset.sum_nonneg fun i _ => (Real.exp_pos _).le) hn'.le
  rw [h0] at h1 ⊢
  constructor
  · rcases le_total 0 (Spec.mean u) with hu | hu
    · rw [ENNReal.ofReal_of_nonpos (p := -Spec.mean u) (by linarith), zero_add, ← ENNReal.ofReal_one, ← ENNReal.ofReal_add zero_le_one hu,
        ← ENNReal.ofReal_add h1 (by linarith)]
      congr 1
      ring
    · rw [ENNReal.ofReal_of_nonpos hu, add_zero, ← ENNReal.ofReal_one, ← ENNReal.ofReal_add (by linarith) h2, ← ENNReal.ofReal_add h1 zero_le_one]
      congr 1
      ring
  · exact ENNReal.ofReal_le_ofReal (by linarith)

/-- The value of the loss of batch element `j` (0 if there is none). -/
noncomputable def Spec.lossAt (j : Fin b) (o : Out 𝕆) : ℝ :=
  match o.loss with
  | none => 0
  | some l => (l : Red b E) j θ₀

variable [Nonempty X] [SFinite μ]

/-- The same for the chain. -/
theorem chain_gap (hn : n ≠ 0) (M : AnnealModel 𝕆) (S : AnnealSpec X D) (j : Fin b) (hV : VectorisesAt M S j) (hS : S.Norm μ lp) (K : Nat)
    (logZ : ℝ) (hZ : ∫⁻ x, dens (S.at' lp K x) ∂μ = dens logZ) :
    let x : (Nat → Fin n → Fin b → X) → ℝ := fun z => -Spec.mean (fun i => (M.weight z K : Ten n b E) i j θ₀ - logZ)
    expectO (M.chain K) (fun z => ENNReal.ofReal (x z)) =
        klDiv (S.sampled μ lp K) (S.extended μ lp logZ K) + expectO (M.chain K) (fun z => ENNReal.ofReal (-x z)) ∧
      expectO (M.chain K) (fun z => ENNReal.ofReal (-x z)) ≤ 1 := by
  intro x
  have hn0 : (n : ℝ≥0∞) ≠ 0 := by exact_mod_cast hn
  have hnt : (n : ℝ≥0∞) ≠ ⊤ := ENNReal.natCast_ne_top n
  have key : ∀ {F : ∀ {α : Type}, Comp ℙ α → (α → ℝ≥0∞) → ℝ≥0∞}, IsLaw μ (fun s : Fin n => particleLane (μ := μ) (lp := lp) s j) F →
      ∀ φ : ℝ → ℝ≥0∞, Measurable φ → F (M.chain K).recast (fun z => ∑ i, φ ((M.weight z K : Ten n b E) i j θ₀ - logZ) / n) =
        S.law μ lp K fun w _ => φ (w - logZ) := by
    intro F hF φ hφ
    have hφ' : Measurable fun w : ℝ => φ (w - logZ) / n := (hφ.comp (measurable_id.sub measurable_const)).div_const _
    have := chain_law (isLaw_recast (lpθ := lpθ) hV.logProb hF) (M := M) (fun _ => hS) (fun s => hV.sees s) K (fun _ w _ => φ (w - logZ) / n)
      fun _ => hφ'.comp measurable_fst
    refine this.trans ?_
    beta_reduce
    rw [Finset.sum_const, Finset.card_univ, Fintype.card_fin, nsmul_eq_mul, law_path hS K _ (hφ'.comp measurable_fst),
      law_path hS K (fun w _ => φ (w - logZ)) ((hφ.comp (measurable_id.sub measurable_const)).comp measurable_fst), ← lintegral_const_mul' _ _ hnt]
    refine lintegral_congr fun p => ?_
    rw [mul_left_comm, ENNReal.mul_div_cancel hn0 hnt]
  have mk : Measurable fun u : ℝ => ENNReal.ofReal (Real.exp u - 1 - u) := by fun_prop
  have hΔ : S.law μ lp K (fun w _ => dens (w - logZ)) = 1 := by
    have := law_proper S hS K (fun _ => dens (-logZ)) measurable_const
    rw [lintegral_mul_const' _ _ (dens_ne_top _), hZ, ← dens_add] at this
    simp only [← dens_add, ← sub_eq_add_neg] at this
    rw [this]
    simp [dens]
  refine gap_of_means (expectT (M.chain K).recast) (expectTU (M.chain K).recast) (expectT_one _) (expectTU_one _) (fun _ _ h => expectT_mono _ fun a _ => h a)
    (expectT_add_le _) (expectT_add_upper _) x (fun z => ∑ i, ENNReal.ofReal (Real.exp ((M.weight z K : Ten n b E) i j θ₀ - logZ) - 1 - ((M.weight z K : Ten n b E) i j θ₀ - logZ)) / n)
    (fun z => ∑ i, dens ((M.weight z K : Ten n b E) i j θ₀ - logZ) / n) _ ?_ ?_ ?_ ?_ (fun z => (mean_identity hn _).1) fun z => (mean_identity hn _).2
  · rw [klDiv_path hS K logZ hZ]
    exact key (isLaw_expectT j) _ mk
  · rw [klDiv_path hS K logZ hZ]
    exact key (isLaw_expectTU j) _ mk
  · rw [← hΔ]
    exact key (isLaw_expectT j) _ measurable_dens
  · rw [← hΔ]
    exact key (isLaw_expectTU j) _ measurable_dens

section
variable [NormedAddCommGroup E] [NormedSpace ℝ E]

/-- What a run of vsmc with nvo_avo returns, as a function of the chain. -/
theorem avo_run (fresh : ObjId) (M : AnnealModel 𝕆) (I : AnnealIds) (hid : I.Below fresh)
    (transf : Option (Trace 𝕆 → Kw 𝕆 → Except Err (Trace 𝕆))) (ht : AnnealTransf transf) (K : Nat) (hK : K ≠ 0) (nd : Node 𝕆)
    (hnd : vsmc fresh (M.initial I :: (List.range K).map (M.target I)) ((List.range K).map (M.forward I))
        ((List.range K).map (M.reverse I)) nvoAvo transf none = .ok nd)
    (c : PyVal 𝕆) (kw : Kw 𝕆) (w : World 𝕆) (hk : KwOk kw) (hw : ∀ i, w.cond i = none) (j : Fin b) (g : ℝ → ℝ≥0∞) :
    expectO (eval nd c kw w) (onReturn fun o => g (lossAt j o)) =
      expectO (M.chain K) fun z => g (-Spec.mean fun i => (M.weight z K : Ten n b E) i j θ₀) := by
  obtain ⟨nd2, h1, h2⟩ := C30_vsmc fresh M I hid nvoAvo C59_avo_returns transf ht K
  rw [hnd] at h1
  cases h1
  obtain ⟨F, e1, e2⟩ := h2 c kw w hk hw
  rw [e1, expectO, recast_bind, expectT_bind]
  congr 1
  funext z
  obtain ⟨-, -, -, r2⟩ := e2 z
  obtain ⟨l, l1, -, l3⟩ := C59_avo_loss M z K hK _ r2
  show g (lossAt j (F z)) = _
  rw [lossAt, l1]
  exact congrArg g (l3 j)

/-- C78. What nvo_avo minimises. vsmc of K ≥ 1 steps without resampling, n ≥ 1 particles; the normalising constant of the last target is `exp logZ`. The loss of a
batch element has the mean KL(sampled paths ‖ extended target) - logZ, over all draws: the mean of the positive part of loss + logZ is the divergence plus the mean of
the negative part, and the latter is at most 1. -/
theorem C78_avo (fresh : ObjId) (hn : n ≠ 0) (M : AnnealModel 𝕆) (S : AnnealSpec X D) (j : Fin b) (hV : VectorisesAt M S j) (hS : S.Norm μ lp)
    (I : AnnealIds) (hid : I.Below fresh) (transf : Option (Trace 𝕆 → Kw 𝕆 → Except Err (Trace 𝕆))) (ht : AnnealTransf transf) (K : Nat) (hK : K ≠ 0)
    (nd : Node 𝕆) (hnd : vsmc fresh (M.initial I :: (List.range K).map (M.target I)) ((List.range K).map (M.forward I))
        ((List.range K).map (M.reverse I)) nvoAvo transf none = .ok nd)
    (c : PyVal 𝕆) (kw : Kw 𝕆) (w : World 𝕆) (hk : KwOk kw) (hw : ∀ i, w.cond i = none) (logZ : ℝ) (hZ : ∫⁻ x, dens (S.at' lp K x) ∂μ = dens logZ) :
    expectO (eval nd c kw w) (onReturn fun o => ENNReal.ofReal (lossAt j o + logZ)) =
        klDiv (S.sampled μ lp K) (S.extended μ lp logZ K) + expectO (eval nd c kw w) (onReturn fun o => ENNReal.ofReal (-(lossAt j o + logZ))) ∧
      expectO (eval nd c kw w) (onReturn fun o => ENNReal.ofReal (-(lossAt j o + logZ))) ≤ 1 := by
  rw [avo_run fresh M I hid transf ht K hK nd hnd c kw w hk hw j fun l => ENNReal.ofReal (l + logZ),
    avo_run fresh M I hid transf ht K hK nd hnd c kw w hk hw j fun l => ENNReal.ofReal (-(l + logZ))]
  have hn' : (n : ℝ) ≠ 0 := by exact_mod_cast hn
  have := chain_gap hn M S j hV hS K logZ hZ
  have e : ∀ z : Nat → Fin n → Fin b → X, -Spec.mean (fun i => (M.weight z K : Ten n b E) i j θ₀ - logZ) =
      -Spec.mean (fun i => (M.weight z K : Ten n b E) i j θ₀) + logZ := by
    intro z
    simp only [Spec.mean, Finset.sum_sub_distrib, sub_div, Finset.sum_const, Finset.card_univ, Fintype.card_fin, nsmul_eq_mul, mul_div_cancel_left₀ _ hn']
    ring
  simp only [e] at this
  exact this

/-- C78. The mean loss is -logZ exactly if paths are sampled from the extended target. -/
theorem C78_optimal (fresh : ObjId) (hn : n ≠ 0) (M : AnnealModel 𝕆) (S : AnnealSpec X D) (j : Fin b) (hV : VectorisesAt M S j) (hS : S.Norm μ lp)
    (I : AnnealIds) (hid : I.Below fresh) (transf : Option (Trace 𝕆 → Kw 𝕆 → Except Err (Trace 𝕆))) (ht : AnnealTransf transf) (K : Nat) (hK : K ≠ 0)
    (nd : Node 𝕆) (hnd : vsmc fresh (M.initial I :: (List.range K).map (M.target I)) ((List.range K).map (M.forward I))
        ((List.range K).map (M.reverse I)) nvoAvo transf none = .ok nd)
    (c : PyVal 𝕆) (kw : Kw 𝕆) (w : World 𝕆) (hk : KwOk kw) (hw : ∀ i, w.cond i = none) (logZ : ℝ) (hZ : ∫⁻ x, dens (S.at' lp K x) ∂μ = dens logZ) :
    expectO (eval nd c kw w) (onReturn fun o => ENNReal.ofReal (lossAt j o + logZ)) =
        expectO (eval nd c kw w) (onReturn fun o => ENNReal.ofReal (-(lossAt j o + logZ))) ↔
      S.sampled μ lp K = S.extended μ lp logZ K := by
  have i1 := isProbabilityMeasure_sampled hS K
  have i2 := isProbabilityMeasure_extended hS K logZ hZ
  obtain ⟨h1, h2⟩ := C78_avo fresh hn M S j hV hS I hid transf ht K hK nd hnd c kw w hk hw logZ hZ
  rw [h1, ← klDiv_eq_zero_iff]
  have hfin := ne_top_of_le_ne_top ENNReal.one_ne_top h2
  constructor
  · intro h
    exact (ENNReal.add_left_inj hfin).1 (h.trans (zero_add _).symm)
  · intro h
    rw [h, zero_add]

/-- C78. If paths are sampled from the extended target, then the loss is -logZ with probability one (there is no noise left). -/
theorem C78_attained (fresh : ObjId) (hn : n ≠ 0) (M : AnnealModel 𝕆) (S : AnnealSpec X D) (j : Fin b) (hV : VectorisesAt M S j) (hS : S.Norm μ lp)
    (I : AnnealIds) (hid : I.Below fresh) (transf : Option (Trace 𝕆 → Kw 𝕆 → Except Err (Trace 𝕆))) (ht : AnnealTransf transf) (K : Nat) (hK : K ≠ 0)
    (nd : Node 𝕆) (hnd : vsmc fresh (M.initial I :: (List.range K).map (M.target I)) ((List.range K).map (M.forward I))
        ((List.range K).map (M.reverse I)) nvoAvo transf none = .ok nd)
    (c : PyVal 𝕆) (kw : Kw 𝕆) (w : World 𝕆) (hk : KwOk kw) (hw : ∀ i, w.cond i = none) (logZ : ℝ) (h : S.sampled μ lp K = S.extended μ lp logZ K) :
    expectO (eval nd c kw w) (onReturn fun o => indicate (lossAt j o ≠ -logZ)) = 0 := by
  have hn' : (n : ℝ) ≠ 0 := by exact_mod_cast hn
  rw [avo_run fresh M I hid transf ht K hK nd hnd c kw w hk hw j fun l => indicate (l ≠ -logZ)]
  have i1 := isProbabilityMeasure_sampled hS K
  have mS : Measurable fun p : AnnealSpec.Path X K => dens (S.logSampled lp K p) := measurable_dens.comp (measurable_logSampled hS K)
  have mE : Measurable fun p : AnnealSpec.Path X K => dens (S.at' lp K (AnnealSpec.endOf K p) + S.logReverse lp K p - logZ) :=
    measurable_dens.comp ((((measurable_at' hS K).comp (measurable_endOf K)).add (measurable_logReverse hS K)).sub measurable_const)
  have hfin : ∫⁻ p, dens (S.logSampled lp K p) ∂AnnealSpec.base μ K ≠ ⊤ := by
    have := i1.measure_univ
    rw [AnnealSpec.sampled, withDensity_apply _ MeasurableSet.univ, Measure.restrict_univ] at this
    rw [this]
    exact ENNReal.one_ne_top
  have hae := (withDensity_eq_iff mS.aemeasurable mE.aemeasurable hfin).1 h
  have hmeas : Measurable fun w : ℝ => indicate (w ≠ logZ) := by
    unfold indicate
    exact Measurable.ite (measurableSet_singleton logZ).compl measurable_const measurable_const
  have hlaw : S.law μ lp K (fun w _ => indicate (w ≠ logZ)) = 0 := by
    rw [law_path hS K _ (hmeas.comp measurable_fst)]
    refine (lintegral_congr_ae (hae.mono fun p hp => ?_)).trans lintegral_zero
    beta_reduce at hp ⊢
    have : pathWeight S lp K p = logZ := by
      simp only [dens] at hp
      rw [ENNReal.ofReal_eq_ofReal_iff (Real.exp_pos _).le (Real.exp_pos _).le, Real.exp_eq_exp] at hp
      simp only [pathWeight]
      linarith
    simp [this, indicate]
  have hsum : expectO (M.chain K) (fun z => ∑ i, indicate ((M.weight z K : Ten n b E) i j θ₀ ≠ logZ)) = 0 := by
    refine (chain_law (isLaw_recast (lpθ := lpθ) hV.logProb (isLaw_expectT j)) (M := M) (fun _ => hS) (fun s => hV.sees s) K (fun _ w _ => indicate (w ≠ logZ))
      fun _ => hmeas.comp measurable_fst).trans ?_
    simp [hlaw]
  refine le_antisymm ?_ zero_le
  rw [← hsum]
  refine expectT_mono _ fun z _ => ?_
  by_cases hz : ∀ i, (M.weight z K : Ten n b E) i j θ₀ = logZ
  · have : -Spec.mean (fun i => (M.weight z K : Ten n b E) i j θ₀) = -logZ := by
      simp only [Spec.mean, hz, Finset.sum_const, Finset.card_univ, Fintype.card_fin, nsmul_eq_mul, mul_div_cancel_left₀ _ hn']
    rw [this]
    simp [indicate]
  · push Not at hz
    obtain ⟨i, hi⟩ := hz
    refine le_trans ?_ (Finset.single_le_sum (f := fun i => indicate ((M.weight z K : Ten n b E) i j θ₀ ≠ logZ)) (fun _ _ => zero_le) (Finset.mem_univ i))
    simp only [indicate, hi, ne_eq, not_false_eq_true, if_true]
    split
    · exact le_rfl
    · exact zero_le

end
end

/-! ### Coins -/
namespace CoinKl
open Coin

/-- Parameters shift the log density of everything; the current parameter is 0. -/
noncomputable def lpθ (n : Nat) (d : Fin n → Fin 1 → { d : Bool × Bool // Normalised Measure.count lpU d }) (v : Fin n → Fin 1 → Bool) : Ten n 1 ℝ :=
  fun s j θ => lpU (d s j).1 (v s j) + θ * if v s j then 1 else 0

noncomputable abbrev L (n : Nat) : Lang :=
  CLang n 1 ℝ 0 (Fin n → Fin 1 → Bool) (Fin n → Fin 1 → { d : Bool × Bool // Normalised Measure.count lpU d }) (lpθ n) id

/-- The coins of C76. -/
noncomputable def M (n : Nat) : AnnealModel (L n) where
  d0 _ _ := ⟨(false, false), normalisedU _⟩
  rep0 := false
  cls0 := "FixedMultivariateNormal"
  g k v s j _ := lpU (k % 2 == 0, true) (v s j)
  cls _ := "Tempered"
  f _ v s j := ⟨(v s j, false), normalisedU _⟩
  rep := true
  r _ v s j := ⟨(v s j, false), normalisedU _⟩
  rep' := false

theorem vectorises (n : Nat) : VectorisesAt (M n) annealSpec 0 :=
  ⟨fun _ _ _ => by simp [lpθ], fun _ => rfl, fun _ _ _ => rfl, fun _ _ _ => rfl, fun _ _ _ => rfl⟩

/-- Kernels that are perfect for a single step: forward to the target, back to the initial distribution. -/
noncomputable def perfect : AnnealSpec Bool (Bool × Bool) where
  d0 := (false, false)
  g _ := (true, true)
  f _ _ := (true, false)
  r _ _ := (false, false)

noncomputable def P (n : Nat) : AnnealModel (L n) where
  d0 _ _ := ⟨(false, false), normalisedU _⟩
  rep0 := false
  cls0 := "FixedMultivariateNormal"
  g k v s j _ := lpU (true, true) (v s j)
  cls _ := "Tempered"
  f _ v s j := ⟨(true, false), normalisedU _⟩
  rep := true
  r _ v s j := ⟨(false, false), normalisedU _⟩
  rep' := false

theorem perfect_vectorises (n : Nat) : VectorisesAt (P n) perfect 0 :=
  ⟨fun _ _ _ => by simp [lpθ], fun _ => rfl, fun _ _ _ => rfl, fun _ _ _ => rfl, fun _ _ _ => rfl⟩

theorem perfect_norm : perfect.Norm Measure.count lpU := ⟨normalisedU _, fun _ _ => normalisedU _, fun _ _ => normalisedU _,
  fun _ => measurable_of_countable _, fun _ => measurable_of_countable _, fun _ => measurable_of_countable _⟩

theorem perfect_eq : perfect.sampled Measure.count lpU 1 = perfect.extended Measure.count lpU 1 1 := by
  unfold AnnealSpec.sampled AnnealSpec.extended
  congr 1
  funext p
  congr 1
  simp only [AnnealSpec.logSampled, AnnealSpec.at', AnnealSpec.logReverse, AnnealSpec.endOf, perfect, lpU]
  simp
  ring

end CoinKl

/-- C78: coins, n particles, any number of steps: the mean loss of nvo_avo is the divergence minus 1. -/
example (n : Nat) (hn : n ≠ 0) (K : Nat) :
    ∃ nd, vsmc 100 ((CoinKl.M n).initial Toy.annealIds :: (List.range (K + 1)).map ((CoinKl.M n).target Toy.annealIds))
      ((List.range (K + 1)).map ((CoinKl.M n).forward Toy.annealIds)) ((List.range (K + 1)).map ((CoinKl.M n).reverse Toy.annealIds))
      nvoAvo none none = .ok nd ∧
    expectO (eval nd .none {} { cond := fun _ => none, store := Store.init }) (onReturn fun o => ENNReal.ofReal (lossAt 0 o + 1)) =
      klDiv (Coin.annealSpec.sampled Measure.count Coin.lpU (K + 1)) (Coin.annealSpec.extended Measure.count Coin.lpU 1 (K + 1)) +
        expectO (eval nd .none {} { cond := fun _ => none, store := Store.init }) (onReturn fun o => ENNReal.ofReal (-(lossAt 0 o + 1))) := by
  obtain ⟨nd, h1, -⟩ := C30_vsmc 100 (CoinKl.M n) Toy.annealIds Coin.ids_below nvoAvo C59_avo_returns none (Or.inl rfl) (K + 1)
  exact ⟨nd, h1, (C78_avo 100 hn (CoinKl.M n) Coin.annealSpec 0 (CoinKl.vectorises n) Coin.spec_norm Toy.annealIds Coin.ids_below none (Or.inl rfl) (K + 1)
    K.succ_ne_zero nd h1 .none {} _ (fun e he => by cases he) (fun _ => rfl) 1 (Coin.evidence K)).1⟩

/-- C78: with perfect kernels the loss is -1 with probability one. -/
example (n : Nat) (hn : n ≠ 0) :
    ∃ nd, vsmc 100 ((CoinKl.P n).initial Toy.annealIds :: (List.range 1).map ((CoinKl.P n).target Toy.annealIds))
      ((List.range 1).map ((CoinKl.P n).forward Toy.annealIds)) ((List.range 1).map ((CoinKl.P n).reverse Toy.annealIds))
      nvoAvo none none = .ok nd ∧
    expectO (eval nd .none {} { cond := fun _ => none, store := Store.init }) (onReturn fun o => indicate (lossAt 0 o ≠ -1)) = 0 := by
  obtain ⟨nd, h1, -⟩ := C30_vsmc 100 (CoinKl.P n) Toy.annealIds Coin.ids_below nvoAvo C59_avo_returns none (Or.inl rfl) 1
  exact ⟨nd, h1, C78_attained 100 hn (CoinKl.P n) CoinKl.perfect 0 (CoinKl.perfect_vectorises n) CoinKl.perfect_norm Toy.annealIds Coin.ids_below none (Or.inl rfl) 1
    one_ne_zero nd h1 .none {} _ (fun e he => by cases he) (fun _ => rfl) 1 CoinKl.perfect_eq⟩

end Verif
