import Mathlib.Probability.Distributions.Gaussian.Real
import Verif.Model.Paper
import Verif.Proofs.AnnealPop
import Verif.Props.Path
/-
Densities of the annealing model of the paper: kernels are normalised whatever their networks, the ring has mass 8.
-/
namespace Verif
open Spec MeasureTheory ProbabilityTheory
open scoped ENNReal

theorem softplus_pos (x : ℝ) : 0 < softplus x := by
  unfold softplus
  split
  · linarith
  · exact Real.log_pos (by linarith [Real.exp_pos x])

theorem measurable_softplus : Measurable softplus := by
  unfold softplus
  refine Measurable.ite measurableSet_Ioi measurable_id ?_
  exact Real.measurable_log.comp (measurable_const.add Real.measurable_exp)

theorem measurable_app {a b : Nat} (l : Linear a b) (i : Fin b) : Measurable fun x => l.app x i := by
  unfold Linear.app
  fun_prop

theorem measurable_relu {a : Nat} : Measurable (relu (a := a)) := by
  refine measurable_pi_lambda _ fun i => ?_
  unfold relu
  fun_prop

theorem measurable_forward {d h : Nat} (n : ResMLPJ d h) : Measurable n.forward := by
  have hy : Measurable fun x => relu (n.joint.app x) := measurable_relu.comp (measurable_pi_lambda _ fun i => measurable_app _ i)
  refine measurable_pi_lambda _ fun i => ?_
  refine Fin.addCases (fun i => ?_) (fun i => ?_) i
  · simp only [ResMLPJ.forward, Fin.append_left]
    exact ((measurable_app n.mu i).comp hy).add (measurable_pi_apply i)
  · simp only [ResMLPJ.forward, Fin.append_right]
    exact (measurable_app n.cov i).comp hy

theorem measurable_kernelDist {h : Nat} (net : ResMLPJ 2 h) : Measurable (kernelDist net) := by
  unfold kernelDist
  refine Measurable.prodMk ?_ ?_
  · exact measurable_pi_lambda _ fun i => (measurable_pi_apply _).comp (measurable_forward net)
  · exact measurable_pi_lambda _ fun i => measurable_softplus.comp ((measurable_pi_apply _).comp (measurable_forward net))

theorem kernelDist_pos {h : Nat} (net : ResMLPJ 2 h) (x : Fin 2 → ℝ) (i : Fin 2) : 0 < (kernelDist net x).2 i := softplus_pos _

theorem measurable_mvn {Γ : Type} [MeasurableSpace Γ] {d : Γ → (Fin 2 → ℝ) × (Fin 2 → ℝ)} {v : Γ → Fin 2 → ℝ} (hd : Measurable d) (hv : Measurable v) :
    Measurable fun γ => mvnLogProb (d γ) (v γ) := by
  unfold mvnLogProb
  simp only [Fin.sum_univ_two, Fin.prod_univ_two]
  have m1 : ∀ i : Fin 2, Measurable fun γ => (d γ).1 i := fun i => (measurable_pi_apply i).comp (measurable_fst.comp hd)
  have m2 : ∀ i : Fin 2, Measurable fun γ => (d γ).2 i := fun i => (measurable_pi_apply i).comp (measurable_snd.comp hd)
  have m3 : ∀ i : Fin 2, Measurable fun γ => v γ i := fun i => (measurable_pi_apply i).comp hv
  refine Measurable.sub (measurable_const.mul (measurable_const.add (Measurable.add ?_ ?_))) (measurable_const.mul (Real.measurable_log.comp ((m2 0).mul (m2 1))))
  · exact (((m3 0).sub (m1 0)).pow_const 2).div (m2 0)
  · exact (((m3 1).sub (m1 1)).pow_const 2).div (m2 1)

/-- The density of the normal distribution in the plane is the product of the densities of its coordinates. -/
theorem dens_mvn (m s v : Fin 2 → ℝ) (hs : ∀ i, 0 < s i) :
    dens (mvnLogProb (m, s) v) = gaussianPDF (m 0) (s 0).toNNReal (v 0) * gaussianPDF (m 1) (s 1).toNNReal (v 1) := by
  have h0 := hs 0
  have h1 := hs 1
  have hp := Real.pi_pos
  simp only [dens, gaussianPDF]
  rw [← ENNReal.ofReal_mul (gaussianPDFReal_nonneg _ _ _)]
  congr 1
  simp only [gaussianPDFReal, mvnLogProb, Fin.sum_univ_two, Fin.prod_univ_two, Real.coe_toNNReal _ h0.le, Real.coe_toNNReal _ h1.le]
  have e : -(1 / 2) * (2 * Real.log (2 * Real.pi) + ((v 0 - m 0) ^ 2 / s 0 + (v 1 - m 1) ^ 2 / s 1)) - 1 / 2 * Real.log (s 0 * s 1) =
      -Real.log (√(2 * Real.pi * s 0)) + -Real.log (√(2 * Real.pi * s 1)) + (-(v 0 - m 0) ^ 2 / (2 * s 0) + -(v 1 - m 1) ^ 2 / (2 * s 1)) := by
    rw [Real.log_sqrt (by positivity), Real.log_sqrt (by positivity), Real.log_mul (x := 2 * Real.pi) (by positivity) h0.ne',
      Real.log_mul (x := 2 * Real.pi) (by positivity) h1.ne', Real.log_mul h0.ne' h1.ne']
    field_simp
    ring
  rw [e, Real.exp_add, Real.exp_add, Real.exp_add, Real.exp_neg, Real.exp_neg, Real.exp_log (by positivity), Real.exp_log (by positivity)]
  ring

theorem lintegral_plane (f g : ℝ → ℝ≥0∞) (hf : Measurable f) (hg : Measurable g) :
    ∫⁻ v : Fin 2 → ℝ, f (v 0) * g (v 1) = (∫⁻ x, f x) * ∫⁻ y, g y := by
  have h := (volume_preserving_finTwoArrow ℝ).lintegral_comp (f := fun p : ℝ × ℝ => f p.1 * g p.2) (by fun_prop)
  have e : ∀ v : Fin 2 → ℝ, (MeasurableEquiv.finTwoArrow v : ℝ × ℝ) = (v 0, v 1) := fun v => rfl
  simp only [e] at h
  rw [h]
  exact lintegral_prod_mul hf.aemeasurable hg.aemeasurable

theorem mvn_mass (m s : Fin 2 → ℝ) (hs : ∀ i, 0 < s i) : ∫⁻ v, dens (mvnLogProb (m, s) v) = 1 := by
  simp only [dens_mvn m s _ hs]
  rw [lintegral_plane _ _ (measurable_gaussianPDF _ _) (measurable_gaussianPDF _ _), lintegral_gaussianPDF_eq_one, lintegral_gaussianPDF_eq_one, one_mul]
  · simp [hs 1]
  · simp [hs 0]

theorem measurable_mvn_right (d : (Fin 2 → ℝ) × (Fin 2 → ℝ)) : Measurable (mvnLogProb d) := measurable_mvn measurable_const measurable_id

theorem mvn_normalised (d : (Fin 2 → ℝ) × (Fin 2 → ℝ)) (hs : ∀ i, 0 < d.2 i) : Normalised volume paperLp (.inl d) :=
  ⟨measurable_mvn_right d, mvn_mass d.1 d.2 hs⟩

theorem kernel_normalised {h : Nat} (net : ResMLPJ 2 h) (x : Fin 2 → ℝ) : Normalised volume paperLp (.inl (kernelDist net x)) :=
  mvn_normalised _ (kernelDist_pos net x)

theorem initial_normalised : Normalised volume paperLp (.inl paperInitial) := mvn_normalised _ fun _ => by norm_num [paperInitial]

/-- The ring has eight normalised components. -/
theorem paperComponents_ok : ∃ cs, paperComponents = .ok cs ∧ cs.length = 8 ∧ ∀ c ∈ cs, Measurable c ∧ ∫⁻ v, dens (c v) = 1 := by
  obtain ⟨ls, h1, h2, -⟩ := (C52_ring 10 8).2 (by decide)
  unfold paperComponents
  rw [h1]
  refine ⟨_, if_pos (by simp [h2]), by simp [h2], fun c hc => ?_⟩
  obtain ⟨⟨l, s⟩, he, rfl⟩ := List.mem_map.1 hc
  have hs := (List.of_mem_zip he).2
  rw [List.mem_replicate] at hs
  obtain ⟨-, rfl⟩ := hs
  exact ⟨measurable_mvn_right _, mvn_mass _ _ fun _ => by norm_num⟩

theorem paperRing_ok : ∃ cs, paperComponents = .ok cs ∧ cs.length = 8 ∧ (∀ c ∈ cs, Measurable c ∧ ∫⁻ v, dens (c v) = 1) ∧
    ∀ v, gmmDensity cs v = .ok (paperRing v) := by
  obtain ⟨cs, h1, h2, h3⟩ := paperComponents_ok
  refine ⟨cs, h1, h2, h3, fun v => ?_⟩
  obtain ⟨d, hd, -⟩ := C52_density cs (by rintro rfl; simp at h2) v
  unfold paperRing
  rw [h1, hd]
  simp only [hd]

theorem paperRing_exp : ∃ cs, paperComponents = .ok cs ∧ ∀ v, Real.exp (paperRing v) = (cs.map fun c => Real.exp (c v)).sum := by
  obtain ⟨cs, h1, h2, -, h4⟩ := paperRing_ok
  refine ⟨cs, h1, fun v => ?_⟩
  obtain ⟨d, hd, e⟩ := C52_density cs (by rintro rfl; simp at h2) v
  rw [h4 v] at hd
  cases hd
  exact e

theorem measurable_ring : Measurable paperRing := by
  obtain ⟨cs, h1, h2, h3, h4⟩ := paperRing_ok
  have e : paperRing = fun v => Real.log ((cs.map fun c => Real.exp (c v)).sum) := by
    funext v
    have := h4 v
    rw [gmmDensity, if_neg (by cases cs <;> simp_all)] at this
    injection this with this
    exact this.symm
  rw [e]
  refine Real.measurable_log.comp ?_
  have : ∀ l : List ((Fin 2 → ℝ) → ℝ), (∀ c ∈ l, Measurable c) → Measurable fun v => (l.map fun c => Real.exp (c v)).sum := by
    intro l
    induction l with
    | nil => intro _; simp
    | cons c l ih =>
      intro h
      simp only [List.map_cons, List.sum_cons]
      exact (Real.measurable_exp.comp (h c (by simp))).add (ih fun c hc => h c (by simp [hc]))
  exact this cs fun c hc => (h3 c hc).1

theorem ring_mass : ∫⁻ v, dens (paperRing v) = 8 := by
  obtain ⟨cs, h1, h2, h3, h4⟩ := paperRing_ok
  have := C52_normaliser volume cs (by rintro rfl; simp at h2) (fun c hc => (h3 c hc).1) (fun c hc => (h3 c hc).2) paperRing h4
  rw [h2] at this
  exact_mod_cast this

theorem sigmoid_mem (l : ℝ) : 0 < sigmoid l ∧ sigmoid l < 1 := by
  have := Real.exp_pos (-l)
  unfold sigmoid
  exact ⟨by positivity, by rw [div_lt_one (by positivity)]; linarith⟩

theorem measurable_tempered (l : ℝ) : Measurable (temperedAt l (mvnLogProb paperInitial) paperRing) := by
  unfold temperedAt
  exact ((measurable_mvn_right _).mul_const _).add (measurable_ring.mul_const _)

theorem dens_rpow (x a : ℝ) (ha : 0 ≤ a) : dens x ^ a = dens (x * a) := by
  rw [dens, dens, ENNReal.ofReal_rpow_of_nonneg (Real.exp_pos x).le ha, Real.exp_mul]

/-- Hölder: the mass of a tempered target is at most 8 to the power of its temperature. -/
theorem tempered_mass_le (l : ℝ) : ∫⁻ v, dens (temperedAt l (mvnLogProb paperInitial) paperRing v) ≤ 8 ^ sigmoid l := by
  obtain ⟨h0, h1⟩ := sigmoid_mem l
  have e : ∀ v, dens (temperedAt l (mvnLogProb paperInitial) paperRing v) =
      dens (mvnLogProb paperInitial v) ^ (1 - sigmoid l) * dens (paperRing v) ^ sigmoid l := by
    intro v
    rw [dens_rpow _ _ (by linarith), dens_rpow _ _ h0.le, ← dens_add]
    rfl
  simp only [e]
  refine (ENNReal.lintegral_mul_norm_pow_le (measurable_dens.comp (measurable_mvn_right _)).aemeasurable (measurable_dens.comp measurable_ring).aemeasurable
    (by linarith) h0.le (by ring)).trans ?_
  have h2 : ∫⁻ v, dens (mvnLogProb paperInitial v) = 1 := initial_normalised.2
  have h3 := ring_mass
  simp only [Function.comp_def]
  rw [h2, h3]
  simp

theorem mass_pos (g : (Fin 2 → ℝ) → ℝ) (hg : Measurable g) : ∫⁻ v, dens (g v) ≠ 0 := by
  rw [Ne, lintegral_eq_zero_iff (by exact measurable_dens.comp hg)]
  intro h
  have hne : ∀ v, dens (g v) ≠ 0 := fun v => by simp [dens, Real.exp_pos]
  have : (volume : Measure (Fin 2 → ℝ)) Set.univ = 0 := by
    rw [← nonpos_iff_eq_zero]
    refine le_of_eq_of_le ?_ (le_of_eq (ae_iff.1 h))
    congr 1
    ext v
    simp [hne v]
  simp at this

end Verif
