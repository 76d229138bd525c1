import Mathlib.MeasureTheory.Integral.Lebesgue.Countable
import Mathlib.MeasureTheory.Integral.Pi
import Verif.Spec.Batch
import Verif.Proofs.Parts
import Verif.Proofs.PopulationLaw
/-
Systematic resampling treats batch elements on their own; independent draws.
-/
namespace Verif
open Spec Part MeasureTheory
open scoped ENNReal

section
variable {n b b' : Nat} {X D D' : Type} {lp : D → (Fin n → Fin b → X) → Fin n → Fin b → ℝ} {lp' : D' → (Fin n → Fin b' → X) → Fin n → Fin b' → ℝ}
  {σ : Fin b' → Fin b} {hσ : Function.Injective σ} {hb : b' ≠ 0} {dm : D → D'}
  {hd : ∀ d x, (fun s i => lp d x s (σ i)) = lp' (dm d) fun s i => x s (σ i)} {lo : ℝ → ℝ → Prop}
local notation "𝕡" => batchPart σ hσ hb dm hd lo

theorem pickT_rel {Y : Type} (a : Fin n → Fin b → Nat) (ha : ∀ s j, a s j < n) (z : Fin n → Fin b → Y) :
    ExEq (fun x x' => x' = fun s i => x s (σ i)) (pickT a z) (pickT (fun s i => a s (σ i)) fun s i => z s (σ i)) := by
  unfold pickT
  rw [dif_pos ha, dif_pos fun s i => ha s (σ i)]
  rfl

theorem resampleRV_rel (a : Fin n → Fin b → Nat) (ha : ∀ s j, a s j < n) {rv : RV (TLang n b X D lp)} {rv' : RV (TLang n b' X D' lp')}
    (h : (𝕡).RVRel rv rv') : ExEq (𝕡).RVRel (resampleRV a rv) (resampleRV (fun s i => a s (σ i)) rv') := by
  obtain ⟨k, v, l, p, rp, rs⟩ := rv
  obtain ⟨k', v', l', p', rp', rs'⟩ := rv'
  obtain ⟨hk, hv, hl, hp, hr, hs⟩ := h
  simp only at hk hv hl hp hr hs
  subst hv hl hp hr hs
  unfold resampleRV
  simp only
  split
  · exact ⟨hk, rfl, rfl, rfl, rfl, rfl⟩
  · refine ExEq.bind (pickT_rel a ha v) fun x x' hx => ExEq.bind (pickT_rel a ha l) fun y y' hy => ?_
    subst hx hy
    cases k <;> cases k' <;> simp only [KindRel] at hk
    · exact ⟨hk, rfl, rfl, rfl, rfl, rfl⟩
    · exact ⟨hk, rfl, rfl, rfl, rfl, rfl⟩
    · rfl

theorem resampleTrace_rel (a : Fin n → Fin b → Nat) (ha : ∀ s j, a s j < n) {t : Trace (TLang n b X D lp)} {t' : Trace (TLang n b' X D' lp')}
    (h : (𝕡).TrRel t t') : ExEq (𝕡).TrRel (resampleTrace a t) (resampleTrace (fun s i => a s (σ i)) t') := by
  refine foldlM_rel (S := (𝕡).TrRel) ?_ h _ _ TrRel.empty
  intro x y u v hx hu
  refine (resampleRV_rel a ha hu.2).bind fun r r' hr => ?_
  show (𝕡).TrRel _ _
  rw [← hu.1]
  exact hx.insert _ hr

theorem systematicAt_rel (normalize : Bool) {t : Trace (TLang n b X D lp)} {t' : Trace (TLang n b' X D' lp')} (h : (𝕡).TrRel t t')
    (lw : Fin n → Fin b → ℝ) (u : Fin b → Set.Ico (0 : ℝ) 1) :
    ExEq (fun x x' => (𝕡).TrRel x.1 x'.1 ∧ (𝕡).lw x.2 = x'.2) (systematicAt normalize t lw u)
      (systematicAt normalize t' (fun s i => lw s (σ i)) fun i => u (σ i)) := by
  unfold systematicAt
  by_cases hn : n = 0
  · rw [dif_pos hn, dif_pos hn]
    rfl
  · rw [dif_neg hn, dif_neg hn]
    have : NeZero n := ⟨hn⟩
    have key := resampleTrace_rel (fun s j => ancestors (softmax fun i => lw i j) (u j).1 s)
      (fun s j => ancestors_lt (softmax_hyps _).1 (softmax_hyps _).2 (u j).2.2.le s) h
    simp only
    generalize resampleTrace (fun s j => ancestors (softmax fun i => lw i j) (u j).1 s) t = x at key ⊢
    generalize resampleTrace (fun s i => ancestors (softmax fun k => lw k (σ i)) (u (σ i)).1 s) t' = x' at key ⊢
    cases x <;> cases x' <;> simp only [ExEq] at key ⊢
    · exact key
    · exact ⟨key, rfl⟩

/-- `Systematic` works on some batch elements as on all, except that a `batch_dim` of 0 is accepted or not depending on the size of the batch. -/
theorem systematic_rel (oneD normalize : Bool) :
    (𝕡).ResRel (fun _ bd => bd ≠ .int 0) (systematic oneD normalize) (systematic oneD normalize) := by
  intro sd bd hbd t t' lw ht
  unfold systematic
  cases lw with
  | float0 =>
    simp only [Part.lw]
    cases sd
    case int i =>
      by_cases hi : i = 0
      · subst hi
        exact .ret _ _ rfl
      · simp only [py]
        split <;> split <;> first | exact .ret _ _ rfl | (exfalso; simp_all)
    all_goals exact .ret _ _ rfl
  | tensor lw =>
    simp only [Part.lw]
    have e : checkDims oneD n b' ((𝕡).py sd) ((𝕡).py bd) = checkDims oneD n b sd bd := by
      unfold checkDims
      cases sd
      case int i =>
        by_cases hi : i = 0
        · subst hi
          cases oneD
          · cases bd
            case int k =>
              simp only [py]
              by_cases h1 : k = 1
              · subst h1; rfl
              · by_cases h2 : k = -1
                · subst h2; rfl
                · by_cases h3 : k = 0
                  · subst h3; exact absurd rfl hbd
                  · split <;> split <;> simp_all
            all_goals rfl
          · cases bd <;> rfl
        · simp only [py]
          split <;> split <;> simp_all
      all_goals rfl
    rw [e]
    cases checkDims oneD n b sd bd with
    | error e => exact .ret _ _ rfl
    | ok _ => exact .rand _ _ fun u => .ret _ _ (systematicAt_rel normalize ht lw u)

end

/-! ### Independent draws -/

section
variable {A B : Type} [MeasurableSpace A] [MeasurableSpace B]

/-- Values with the measure `ν` consist of independent parts, one of which is `π` with the measure `νB` (the rest are values in `C`). -/
def HasPart (C : Type) [MeasurableSpace C] (ν : Measure A) (π : A → B) (νB : Measure B) : Prop :=
  ∃ (ρ : Measure C) (Ψ : B × C → A), IsProbabilityMeasure ρ ∧ MeasurePreserving Ψ (νB.prod ρ) ν ∧ Measurable π ∧ ∀ x, π (Ψ x) = x.1

/-- Integrals of arbitrary functions of the part. -/
theorem HasPart.lintegral {C : Type} [MeasurableSpace C] {ν : Measure A} {π : A → B} {νB : Measure B} [SFinite νB] (h : HasPart C ν π νB) (f : B → ℝ≥0∞) :
    ∫⁻ a, f (π a) ∂ν = ∫⁻ x, f x ∂νB := by
  obtain ⟨ρ, Ψ, _, hΨ, hπ, hsec⟩ := h
  apply le_antisymm
  · obtain ⟨k, hk, hle, heq⟩ := exists_measurable_le_lintegral_eq ν fun a => f (π a)
    rw [heq, ← hΨ.lintegral_comp hk, lintegral_prod (fun x => k (Ψ x)) (hk.comp hΨ.measurable).aemeasurable]
    refine lintegral_mono fun x => ?_
    refine le_trans (lintegral_mono (g := fun _ => f x) fun c => ?_) ?_
    · have := hle (Ψ (x, c))
      simp only [hsec] at this
      exact this
    · rw [lintegral_const, measure_univ, mul_one]
  · obtain ⟨k, hk, hle, heq⟩ := exists_measurable_le_lintegral_eq νB f
    rw [heq]
    refine le_trans (le_of_eq ?_) (lintegral_mono (f := fun a => k (π a)) fun a => hle (π a))
    rw [← hΨ.lintegral_comp (f := fun a => k (π a)) (hk.comp hπ)]
    simp only [hsec]
    rw [lintegral_prod (fun x : B × C => k x.1) (by fun_prop)]
    simp

/-- Some coordinates of independent ones. -/
theorem hasPart_pi {ι ι' X : Type} [Fintype ι] [Fintype ι'] [MeasurableSpace X] (e : ι' → ι) (he : Function.Injective e) (μ : ι → Measure X)
    [∀ i, IsProbabilityMeasure (μ i)] :
    HasPart ({i // i ∉ Set.range e} → X) (Measure.pi μ) (fun x i => x (e i)) (Measure.pi fun i => μ (e i)) := by
  classical
  refine ⟨Measure.pi fun i => μ i.1, fun x i => if h : i ∈ Set.range e then x.1 h.choose else x.2 ⟨i, h⟩, inferInstance, ⟨?_, ?_⟩, ?_, ?_⟩
  · refine measurable_pi_lambda _ fun i => ?_
    split_ifs with h
    · exact (measurable_pi_apply _).comp measurable_fst
    · exact (measurable_pi_apply _).comp measurable_snd
  · refine (Measure.pi_eq fun S hS => ?_).symm
    rw [Measure.map_apply ?_ (MeasurableSet.univ_pi hS)]
    · have hpre : (fun (x : (ι' → X) × ({i // i ∉ Set.range e} → X)) i => if h : i ∈ Set.range e then x.1 h.choose else x.2 ⟨i, h⟩) ⁻¹' Set.univ.pi S =
          (Set.univ.pi fun i => S (e i)) ×ˢ (Set.univ.pi fun i => S i.1) := by
        ext x
        simp only [Set.mem_preimage, Set.mem_pi, Set.mem_univ, true_implies, Set.mem_prod]
        constructor
        · intro h
          refine ⟨fun i => ?_, fun i => ?_⟩
          · have := h (e i)
            rw [dif_pos ⟨i, rfl⟩] at this
            rwa [he (Exists.choose_spec (⟨i, rfl⟩ : e i ∈ Set.range e))] at this
          · have := h i.1
            rwa [dif_neg i.2] at this
        · rintro ⟨h1, h2⟩ i
          split_ifs with h
          · have := h1 h.choose
            rwa [h.choose_spec] at this
          · exact h2 ⟨i, h⟩
      rw [hpre, Measure.prod_prod, Measure.pi_pi, Measure.pi_pi, ← Fintype.prod_subtype_mul_prod_subtype (fun i => i ∈ Set.range e) fun i => μ i (S i)]
      congr 1
      convert Equiv.prod_comp (Equiv.ofInjective e he) fun i : {i // i ∈ Set.range e} => μ i.1 (S i.1)
      all_goals rfl
    · refine measurable_pi_lambda _ fun i => ?_
      split_ifs with h
      · exact (measurable_pi_apply _).comp measurable_fst
      · exact (measurable_pi_apply _).comp measurable_snd
  · exact measurable_pi_lambda _ fun i => measurable_pi_apply _
  · intro x
    funext i
    simp only [Set.mem_range, exists_apply_eq_apply, dif_pos]
    exact congrArg x.1 (he (Exists.choose_spec (⟨i, rfl⟩ : e i ∈ Set.range e)))

/-- Parts of independent values. -/
theorem hasPart_arrow {ι C : Type} [Fintype ι] [MeasurableSpace C] {ν : ι → Measure A} {π : A → B} {νB : ι → Measure B} [∀ i, IsProbabilityMeasure (νB i)]
    [∀ i, IsProbabilityMeasure (ν i)] (h : ∀ i, HasPart C (ν i) π (νB i)) : HasPart (ι → C) (Measure.pi ν) (fun x i => π (x i)) (Measure.pi νB) := by
  choose ρ Ψ hρ hΨ hπ hsec using h
  have hp := hρ
  refine ⟨Measure.pi ρ, fun x i => Ψ i (x.1 i, x.2 i), inferInstance, ?_, ?_, ?_⟩
  · have h1 := measurePreserving_pi (fun i => (νB i).prod (ρ i)) ν hΨ
    have h2 := (measurePreserving_arrowProdEquivProdArrow B C ι νB ρ).symm
    exact h1.comp h2
  · refine measurable_pi_lambda _ fun i => ?_
    exact (hπ i).comp (measurable_pi_apply i)
  · intro x
    funext i
    exact hsec i (x.1 i, x.2 i)

theorem lintegral_prod_mul_any {μ : Measure A} {ν : Measure B} [SFinite μ] [SFinite ν] (f : A → ℝ≥0∞) (g : B → ℝ≥0∞) (hf : ∀ a, f a ≠ ⊤) (hg : ∫⁻ x, g x ∂ν ≠ ⊤) :
    ∫⁻ x, f x.1 * g x.2 ∂(μ.prod ν) = (∫⁻ a, f a ∂μ) * ∫⁻ x, g x ∂ν := by
  apply le_antisymm
  · obtain ⟨k, hk, hle, heq⟩ := exists_measurable_le_lintegral_eq (μ.prod ν) fun x => f x.1 * g x.2
    rw [heq, lintegral_prod _ hk.aemeasurable]
    rw [← lintegral_mul_const' _ _ hg]
    refine lintegral_mono fun a => ?_
    rw [← lintegral_const_mul' _ _ (hf a)]
    exact lintegral_mono fun c => hle (a, c)
  · obtain ⟨f0, hf0, hfle, hfeq⟩ := exists_measurable_le_lintegral_eq μ f
    obtain ⟨g0, hg0, hgle, hgeq⟩ := exists_measurable_le_lintegral_eq ν g
    rw [hfeq, hgeq, ← lintegral_prod_mul hf0.aemeasurable hg0.aemeasurable]
    exact lintegral_mono fun x => mul_le_mul' (hfle x.1) (hgle x.2)

/-- Two different sets of coordinates of independent ones. -/
theorem lintegral_two_pi {ι ι₁ ι₂ X : Type} [Fintype ι] [Fintype ι₁] [Fintype ι₂] [MeasurableSpace X] (e₁ : ι₁ → ι) (e₂ : ι₂ → ι)
    (he : Function.Injective (Sum.elim e₁ e₂)) (μ : ι → Measure X) [∀ i, IsProbabilityMeasure (μ i)] (f : (ι₁ → X) × (ι₂ → X) → ℝ≥0∞) :
    ∫⁻ x, f (fun i => x (e₁ i), fun i => x (e₂ i)) ∂Measure.pi μ =
      ∫⁻ x, f x ∂((Measure.pi fun i => μ (e₁ i)).prod (Measure.pi fun i => μ (e₂ i))) := by
  have h1 := (hasPart_pi (Sum.elim e₁ e₂) he μ).lintegral fun y => f (fun i => y (.inl i), fun i => y (.inr i))
  refine h1.trans ?_
  have h2 := measurePreserving_sumPiEquivProdPi (X := fun _ : ι₁ ⊕ ι₂ => X) fun i => μ (Sum.elim e₁ e₂ i)
  exact h2.lintegral_comp_emb (MeasurableEquiv.measurableEmbedding _) f

theorem lintegral_two {κ ι ι₁ ι₂ X : Type} [Fintype κ] [Fintype ι] [Fintype ι₁] [Fintype ι₂] [MeasurableSpace X] (e₁ : ι₁ → ι) (e₂ : ι₂ → ι)
    (he : Function.Injective (Sum.elim e₁ e₂)) (μ : κ → ι → Measure X) [∀ s i, IsProbabilityMeasure (μ s i)]
    (f : (κ → ι₁ → X) × (κ → ι₂ → X) → ℝ≥0∞) :
    ∫⁻ x, f (fun s i => x s (e₁ i), fun s i => x s (e₂ i)) ∂Measure.pi (fun s => Measure.pi (μ s)) =
      ∫⁻ x, f x ∂((Measure.pi fun s => Measure.pi fun i => μ s (e₁ i)).prod (Measure.pi fun s => Measure.pi fun i => μ s (e₂ i))) := by
  have h1 := (hasPart_arrow fun s => hasPart_pi (Sum.elim e₁ e₂) he (μ s)).lintegral fun y => f (fun s i => y s (.inl i), fun s i => y s (.inr i))
  refine h1.trans ?_
  have h2 := measurePreserving_pi _ _ fun s => measurePreserving_sumPiEquivProdPi (X := fun _ : ι₁ ⊕ ι₂ => X) fun i => μ s (Sum.elim e₁ e₂ i)
  have h3 := measurePreserving_arrowProdEquivProdArrow (ι₁ → X) (ι₂ → X) κ (fun s => Measure.pi fun i => μ s (e₁ i)) fun s => Measure.pi fun i => μ s (e₂ i)
  refine Eq.trans ?_ ((h2.lintegral_comp_emb (MeasurableEquiv.piCongrRight fun _ => MeasurableEquiv.sumPiEquivProdPi fun _ : ι₁ ⊕ ι₂ => X).measurableEmbedding
    fun y => f (MeasurableEquiv.arrowProdEquivProdArrow (ι₁ → X) (ι₂ → X) κ y)).trans (h3.lintegral_comp_emb (MeasurableEquiv.measurableEmbedding _) f))
  rfl

end
end Verif
