import Verif.Proofs.LaneLaw
import Verif.Proofs.LargeNumbers
import Verif.Props.AnnealChains
/-
The particles of vsmc without resampling, for one batch element: their joint law is a product of laws of one chain.
-/
namespace Verif
open Spec MeasureTheory Filter
open scoped ENNReal Topology

variable {n b : Nat} {X D : Type} [MeasurableSpace X] {μ : Measure X} {lp : D → X → ℝ}
local notation "ℙ" => PopLang n b X D μ lp

/-- Where a chain with log weight and value `p` is after step `k`. -/
noncomputable def AnnealSpec.stepLaw (S : AnnealSpec X D) (μ : Measure X) (lp : D → X → ℝ) (k : Nat) (p : ℝ × X) : Measure (ℝ × X) :=
  (μ.withDensity fun y => dens (lp (S.f k p.2) y)).map fun y => (p.1 + S.logIncrement lp k p.2 y, y)

/-- The law of log weight and last value as a measure. -/
noncomputable def AnnealSpec.endLaw (S : AnnealSpec X D) (μ : Measure X) (lp : D → X → ℝ) : Nat → Measure (ℝ × X)
  | 0 => (μ.withDensity fun x => dens (lp S.d0 x)).map fun x => (0, x)
  | K + 1 => (S.endLaw μ lp K).bind (S.stepLaw μ lp K)

variable {S : AnnealSpec X D}

theorem measurable_toStep (hS : S.Norm μ lp) (k : Nat) (p : ℝ × X) : Measurable fun y => (p.1 + S.logIncrement lp k p.2 y, y) :=
  (measurable_const.add ((measurable_logIncrement hS k).comp (measurable_const.prodMk measurable_id))).prodMk measurable_id

theorem lintegral_stepLaw (hS : S.Norm μ lp) (k : Nat) (p : ℝ × X) (φ : ℝ × X → ℝ≥0∞) (hφ : Measurable φ) :
    ∫⁻ q, φ q ∂S.stepLaw μ lp k p = ∫⁻ y, dens (lp (S.f k p.2) y) * φ (p.1 + S.logIncrement lp k p.2 y, y) ∂μ := by
  unfold AnnealSpec.stepLaw
  rw [lintegral_map hφ (measurable_toStep hS k p)]
  exact lintegral_withDensity_eq_lintegral_mul μ (measurable_dens.comp (hS.f k p.2).1) (hφ.comp (measurable_toStep hS k p))

theorem measurable_stepLaw [SFinite μ] (hS : S.Norm μ lp) (k : Nat) : Measurable (S.stepLaw μ lp k) := by
  refine Measure.measurable_of_measurable_coe _ fun A hA => ?_
  obtain ⟨φ, hφ0⟩ : ∃ φ : ℝ × X → ℝ≥0∞, φ = A.indicator 1 := ⟨_, rfl⟩
  have hφ : Measurable φ := hφ0 ▸ measurable_one.indicator hA
  have e : ∀ p, S.stepLaw μ lp k p A = ∫⁻ y, dens (lp (S.f k p.2) y) * φ (p.1 + S.logIncrement lp k p.2 y, y) ∂μ := fun p => by
    rw [← lintegral_stepLaw hS k p φ hφ, hφ0, lintegral_indicator_one hA]
  simp only [e]
  have m1 : Measurable fun p : (ℝ × X) × X => (p.1.2, p.2) := (measurable_snd.comp measurable_fst).prodMk measurable_snd
  have m2 : Measurable fun p : (ℝ × X) × X => dens (lp (S.f k p.1.2) p.2) * φ (p.1.1 + S.logIncrement lp k p.1.2 p.2, p.2) := by
    refine (measurable_dens.comp ((hS.measF k).comp m1)).mul (hφ.comp (Measurable.prodMk ?_ measurable_snd))
    exact (measurable_fst.comp measurable_fst).add ((measurable_logIncrement hS k).comp m1)
  exact m2.lintegral_prod_right'

theorem stepLaw_prob (hS : S.Norm μ lp) (k : Nat) (p : ℝ × X) : IsProbabilityMeasure (S.stepLaw μ lp k p) := ⟨by
  rw [← lintegral_one, lintegral_stepLaw hS k p _ measurable_const]
  simp only [mul_one]
  exact (hS.f k p.2).2⟩

theorem lintegral_endLaw [SFinite μ] (hS : S.Norm μ lp) (K : Nat) (φ : ℝ → X → ℝ≥0∞) (hφ : Measurable fun p : ℝ × X => φ p.1 p.2) :
    ∫⁻ p, φ p.1 p.2 ∂S.endLaw μ lp K = S.law μ lp K φ := by
  induction K generalizing φ with
  | zero =>
    unfold AnnealSpec.endLaw AnnealSpec.law
    have m : Measurable fun x : X => ((0 : ℝ), x) := measurable_const.prodMk measurable_id
    rw [lintegral_map hφ m]
    exact lintegral_withDensity_eq_lintegral_mul μ (measurable_dens.comp hS.d0.1) (hφ.comp m)
  | succ K ih =>
    unfold AnnealSpec.endLaw AnnealSpec.law
    rw [Measure.lintegral_bind (measurable_stepLaw hS K).aemeasurable hφ.aemeasurable]
    have e : ∀ p : ℝ × X, ∫⁻ q, φ q.1 q.2 ∂S.stepLaw μ lp K p = ∫⁻ y, dens (lp (S.f K p.2) y) * φ (p.1 + S.logIncrement lp K p.2 y) y ∂μ :=
      fun p => lintegral_stepLaw hS K p _ hφ
    rw [← ih]
    · exact lintegral_congr e
    · have := (Measure.measurable_lintegral hφ).comp (measurable_stepLaw hS K)
      exact (funext e : (fun p : ℝ × X => ∫⁻ q, φ q.1 q.2 ∂S.stepLaw μ lp K p) = _) ▸ this

theorem endLaw_prob [SFinite μ] (hS : S.Norm μ lp) (K : Nat) : IsProbabilityMeasure (S.endLaw μ lp K) := by
  induction K with
  | zero =>
    constructor
    unfold AnnealSpec.endLaw
    have m : Measurable fun x : X => ((0 : ℝ), x) := measurable_const.prodMk measurable_id
    rw [Measure.map_apply m MeasurableSet.univ, Set.preimage_univ, withDensity_apply _ MeasurableSet.univ, Measure.restrict_univ]
    exact hS.d0.2
  | succ K ih =>
    have := stepLaw_prob hS K
    constructor
    unfold AnnealSpec.endLaw
    rw [Measure.bind_apply MeasurableSet.univ (measurable_stepLaw hS K).aemeasurable]
    simp

/-- One column of a draw of all elements. -/
theorem lintegral_draw_column (d : Fin n → Fin b → { d : D // Normalised μ lp d }) (j : Fin b) (g : (Fin n → X) → ℝ≥0∞) (hg : Measurable g) :
    ∫⁻ v : Fin n → Fin b → X, g (fun s => v s j) ∂(Measure.pi fun s => Measure.pi fun j => μ.withDensity fun x => dens (lp (d s j).1 x)) =
      ∫⁻ x, g x ∂Measure.pi fun s => μ.withDensity fun x => dens (lp (d s j).1 x) := by
  have h1 : ∀ s j, IsProbabilityMeasure (μ.withDensity fun x => dens (lp (d s j).1 x)) := fun s j => normalised_prob (d s j).2
  have h2 : ∀ s, (Measure.pi fun j => μ.withDensity fun x => dens (lp (d s j).1 x)).map (fun v => v j) = μ.withDensity fun x => dens (lp (d s j).1 x) :=
    fun s => (measurePreserving_eval (fun j => μ.withDensity fun x => dens (lp (d s j).1 x)) j).map_eq
  have h3 : ∀ s, SigmaFinite ((Measure.pi fun j => μ.withDensity fun x => dens (lp (d s j).1 x)).map (fun v => v j)) := fun s => by
    rw [h2]
    infer_instance
  have h4 := Measure.pi_map_pi (μ := fun s => Measure.pi fun j => μ.withDensity fun x => dens (lp (d s j).1 x)) (f := fun _ v => v j)
    fun s => (measurable_pi_apply j).aemeasurable
  simp only [h2] at h4
  rw [← h4, lintegral_map hg (measurable_pi_lambda _ fun s => (measurable_pi_apply j).comp (measurable_pi_apply s))]

/-- Whatever happens to other batch elements, the particles of batch element `j` are independent chains. -/
theorem chain_joint [SFinite μ] (M : AnnealModel ℙ) (j : Fin b) (hV : Vectorises M S j) (hS : S.Norm μ lp) (K : Nat)
    (g : (Fin n → ℝ × X) → ℝ≥0∞) (hg : Measurable g) :
    expectT (M.chain K) (fun z => g fun s => (M.weight z K s j, z K s j)) = ∫⁻ y, g y ∂Measure.pi fun _ : Fin n => S.endLaw μ lp K := by
  have hp := fun K => endLaw_prob hS K
  induction K generalizing g with
  | zero =>
    have m : Measurable fun x : X => ((0 : ℝ), x) := measurable_const.prodMk measurable_id
    have m' : Measurable fun (x : Fin n → X) s => ((0 : ℝ), x s) := measurable_pi_lambda _ fun s => m.comp (measurable_pi_apply s)
    have h0 := hp 0
    have e : Measure.pi (fun _ : Fin n => S.endLaw μ lp 0) = (Measure.pi fun _ : Fin n => μ.withDensity fun x => dens (lp S.d0 x)).map fun x s => ((0 : ℝ), x s) := by
      have h : IsProbabilityMeasure ((μ.withDensity fun x => dens (lp S.d0 x)).map fun x => ((0 : ℝ), x)) := h0
      have : ∀ _ : Fin n, SigmaFinite ((μ.withDensity fun x => dens (lp S.d0 x)).map fun x => ((0 : ℝ), x)) := fun _ => inferInstance
      exact (Measure.pi_map_pi (μ := fun _ : Fin n => μ.withDensity fun x => dens (lp S.d0 x)) (f := fun _ x => ((0 : ℝ), x)) fun s => m.aemeasurable).symm
    rw [e, lintegral_map hg m']
    have := lintegral_draw_column M.d0 j (fun x => g fun s => ((0 : ℝ), x s)) (hg.comp m')
    simp only [hV.d0] at this
    exact this
  | succ K ih =>
    have hk := stepLaw_prob hS K
    have hm := measurable_pi_kernel (fun _ : Fin n => S.stepLaw μ lp K) (fun _ => measurable_stepLaw hS K) fun _ => hk
    have h1 : Measure.pi (fun _ : Fin n => S.endLaw μ lp (K + 1)) = _ :=
      pi_bind (fun _ : Fin n => S.endLaw μ lp K) (fun _ => S.stepLaw μ lp K) (fun _ => measurable_stepLaw hS K) fun _ => hk
    rw [h1, Measure.lintegral_bind hm.aemeasurable hg.aemeasurable]
    refine Eq.trans ?_ (ih (fun y => ∫⁻ x, g x ∂Measure.pi fun s : Fin n => S.stepLaw μ lp K (y s)) ((Measure.measurable_lintegral hg).comp hm))
    rw [AnnealModel.chain, expectT_bind]
    congr 1
    funext z
    have m : ∀ s, Measurable fun y => (M.weight z K s j + S.logIncrement lp K (z K s j) y, y) := fun s => measurable_toStep hS K (M.weight z K s j, z K s j)
    have m' : Measurable fun (x : Fin n → X) s => (M.weight z K s j + S.logIncrement lp K (z K s j) (x s), x s) :=
      measurable_pi_lambda _ fun s => (m s).comp (measurable_pi_apply s)
    have e : Measure.pi (fun s : Fin n => S.stepLaw μ lp K (M.weight z K s j, z K s j)) =
        (Measure.pi fun s : Fin n => μ.withDensity fun y => dens (lp (S.f K (z K s j)) y)).map
          fun x s => (M.weight z K s j + S.logIncrement lp K (z K s j) (x s), x s) := by
      have : ∀ s : Fin n, SigmaFinite ((μ.withDensity fun y => dens (lp (S.f K (z K s j)) y)).map
          fun y => (M.weight z K s j + S.logIncrement lp K (z K s j) y, y)) := fun s => by
        have h : IsProbabilityMeasure ((μ.withDensity fun y => dens (lp (S.f K (z K s j)) y)).map
          fun y => (M.weight z K s j + S.logIncrement lp K (z K s j) y, y)) := hk (M.weight z K s j, z K s j)
        infer_instance
      exact (Measure.pi_map_pi (μ := fun s : Fin n => μ.withDensity fun y => dens (lp (S.f K (z K s j)) y))
        (f := fun s y => (M.weight z K s j + S.logIncrement lp K (z K s j) y, y)) fun s => (m s).aemeasurable).symm
    have h2 := lintegral_draw_column (M.f K (AnnealModel.point z K)) j (fun x => g fun s => (M.weight z K s j + S.logIncrement lp K (z K s j) (x s), x s)) (hg.comp m')
    have hpt : AnnealModel.point z K = z K := by cases K <;> rfl
    simp only [hV.f, hpt] at h2
    have h3 : ∫⁻ y, g y ∂Measure.pi (fun s : Fin n => S.stepLaw μ lp K (M.weight z K s j, z K s j)) =
        ∫⁻ x, g (fun s => (M.weight z K s j + S.logIncrement lp K (z K s j) (x s), x s)) ∂Measure.pi fun s : Fin n => μ.withDensity fun y => dens (lp (S.f K (z K s j)) y) := by
      rw [e, lintegral_map hg m']
    refine Eq.trans ?_ h3.symm
    rw [← h2, hpt]
    refine lintegral_congr fun v => ?_
    show g _ = g _
    congr 1
    funext s
    have hz : M.weight (fun i => if i ≤ K then z i else v) K = M.weight z K := weight_congr M fun i hi => by simp [hi]
    have h4 := lane_weight (particleLane s j) (hV.sees s) (fun i => if i ≤ K then z i else v) K
    simp only [hz, le_refl, if_true, Nat.not_succ_le_self, if_false] at h4
    exact Prod.ext h4 (by simp)

end Verif
