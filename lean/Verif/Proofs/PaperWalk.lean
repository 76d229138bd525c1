import Verif.Spec.Paper
import Verif.Props.AnnealChains
import Verif.Props.Kernel
/-
The second moment of the weights of the annealing model of the paper before training.
-/
namespace Verif
open Spec MeasureTheory ProbabilityTheory
open scoped ENNReal

namespace PaperWalk

/-- One step of the random walk, on functions. -/
noncomputable def P (ψ : (Fin 2 → ℝ) → ℝ≥0∞) (x : Fin 2 → ℝ) : ℝ≥0∞ := ∫⁻ y, dens (mvnLogProb (x, fun _ => 1) y) * ψ y

theorem symm (x y : Fin 2 → ℝ) : mvnLogProb (x, fun _ => 1) y = mvnLogProb (y, fun _ => 1) x := by
  simp only [mvnLogProb, Fin.sum_univ_two]
  ring

theorem measurable_step : Measurable fun q : (Fin 2 → ℝ) × (Fin 2 → ℝ) => dens (mvnLogProb (q.1, fun _ => 1) q.2) :=
  measurable_dens.comp (measurable_mvn (measurable_fst.prodMk measurable_const) measurable_snd)

theorem measurable_P {ψ : (Fin 2 → ℝ) → ℝ≥0∞} (h : Measurable ψ) : Measurable (P ψ) := by
  unfold P
  exact Measurable.lintegral_prod_right' (f := fun q : (Fin 2 → ℝ) × (Fin 2 → ℝ) => dens (mvnLogProb (q.1, fun _ => 1) q.2) * ψ q.2)
    (measurable_step.mul (h.comp measurable_snd))

theorem measurable_iter {ψ : (Fin 2 → ℝ) → ℝ≥0∞} (h : Measurable ψ) (m : Nat) : Measurable (P^[m] ψ) := by
  induction m generalizing ψ with
  | zero => exact h
  | succ m ih => exact ih (measurable_P h)

theorem P_const_mul (c : ℝ≥0∞) (hc : c ≠ ⊤) (ψ : (Fin 2 → ℝ) → ℝ≥0∞) : P (fun x => c * ψ x) = fun x => c * P ψ x := by
  funext x
  unfold P
  rw [← lintegral_const_mul' _ _ hc]
  refine lintegral_congr fun y => ?_
  ring

theorem iter_const_mul (c : ℝ≥0∞) (hc : c ≠ ⊤) (m : Nat) (ψ : (Fin 2 → ℝ) → ℝ≥0∞) : P^[m] (fun x => c * ψ x) = fun x => c * P^[m] ψ x := by
  induction m generalizing ψ with
  | zero => rfl
  | succ m ih => rw [Function.iterate_succ_apply, P_const_mul c hc, ih]; rfl

/-- The walk is reversible. -/
theorem adjoint {a b : (Fin 2 → ℝ) → ℝ≥0∞} (ha : Measurable a) (hb : Measurable b) : ∫⁻ x, a x * P b x = ∫⁻ y, P a y * b y := by
  have e1 : ∀ x, a x * P b x = ∫⁻ y, a x * (dens (mvnLogProb (x, fun _ => 1) y) * b y) := fun x => by
    unfold P
    exact (lintegral_const_mul _ ((measurable_step.comp (measurable_const.prodMk measurable_id)).mul hb)).symm
  have e2 : ∀ y, P a y * b y = ∫⁻ x, a x * (dens (mvnLogProb (x, fun _ => 1) y) * b y) := fun y => by
    unfold P
    refine (lintegral_mul_const _ ((measurable_step.comp (measurable_const.prodMk measurable_id)).mul ha)).symm.trans ?_
    refine lintegral_congr fun x => ?_
    simp only [Function.comp, id, Pi.mul_apply]
    rw [symm y x]
    ring
  simp only [e1, e2]
  refine lintegral_lintegral_swap (f := fun x y => a x * (dens (mvnLogProb (x, fun _ => 1) y) * b y)) ?_
  exact ((ha.comp measurable_fst).mul (measurable_step.mul (hb.comp measurable_snd))).aemeasurable

theorem adjoint_iter {a b : (Fin 2 → ℝ) → ℝ≥0∞} (ha : Measurable a) (hb : Measurable b) (m : Nat) : ∫⁻ x, a x * P^[m] b x = ∫⁻ y, P^[m] a y * b y := by
  induction m generalizing b with
  | zero => rfl
  | succ m ih =>
    rw [Function.iterate_succ_apply, ih (measurable_P hb), adjoint (measurable_iter ha m) hb, Function.iterate_succ_apply']

/-- Kernels before training. -/
def Untrained (p : PaperParams) : Prop := ∀ k x, kernelDist (p.net k) x = (x, fun _ => 1) ∧ kernelDist (p.net' k) x = (x, fun _ => 1)

theorem law_walk (p : PaperParams) (hp : Untrained p) (K m : Nat) (Φ : ℝ → (Fin 2 → ℝ) → ℝ≥0∞) :
    (paperSpec p K).law volume paperLp m (fun w x => Φ (w - (paperSpec p K).at' paperLp m x) x) =
      ∫⁻ x, dens (mvnLogProb paperInitial x) * P^[m] (Φ (-mvnLogProb paperInitial x)) x := by
  induction m generalizing Φ with
  | zero =>
    simp only [AnnealSpec.law, AnnealSpec.at', zero_sub]
    rfl
  | succ m ih =>
    rw [AnnealSpec.law]
    have e : (fun (w : ℝ) (x : Fin 2 → ℝ) => ∫⁻ y, dens (paperLp ((paperSpec p K).f m x) y) *
          Φ (w + (paperSpec p K).logIncrement paperLp m x y - (paperSpec p K).at' paperLp (m + 1) y) y) =
        fun w x => (fun u => P (Φ u)) (w - (paperSpec p K).at' paperLp m x) x := by
      funext w x
      refine lintegral_congr fun y => ?_
      have h1 : paperLp ((paperSpec p K).f m x) y = mvnLogProb (x, fun _ => 1) y := by
        show mvnLogProb (kernelDist (p.net m) x) y = _
        rw [(hp m x).1]
      have h2 : paperLp ((paperSpec p K).r m y) x = mvnLogProb (x, fun _ => 1) y := by
        show mvnLogProb (kernelDist (p.net' m) y) x = _
        rw [(hp m y).2, symm]
      rw [AnnealSpec.logIncrement, h1, h2]
      congr 2
      ring
    rw [e]
    exact ih fun u => P (Φ u)

/-- exp(α|x|²) -/
noncomputable def G (α : ℝ) (x : Fin 2 → ℝ) : ℝ≥0∞ := ENNReal.ofReal (Real.exp (α * x 0 ^ 2)) * ENNReal.ofReal (Real.exp (α * x 1 ^ 2))

theorem measurable_G (α : ℝ) : Measurable (G α) := by
  unfold G
  fun_prop

theorem line (m v α : ℝ) (hv : 0 < v) (h : 2 * α * v < 1) :
    ∫⁻ y, gaussianPDF m v.toNNReal y * ENNReal.ofReal (Real.exp (α * y ^ 2)) =
      ENNReal.ofReal ((√(1 - 2 * α * v))⁻¹) * ENNReal.ofReal (Real.exp (α / (1 - 2 * α * v) * m ^ 2)) := by
  have hs : 0 < 1 - 2 * α * v := by linarith
  have hv' : 0 < v / (1 - 2 * α * v) := by positivity
  have hp := Real.pi_pos
  have e : ∀ y, gaussianPDF m v.toNNReal y * ENNReal.ofReal (Real.exp (α * y ^ 2)) =
      (ENNReal.ofReal ((√(1 - 2 * α * v))⁻¹) * ENNReal.ofReal (Real.exp (α / (1 - 2 * α * v) * m ^ 2))) *
        gaussianPDF (m / (1 - 2 * α * v)) (v / (1 - 2 * α * v)).toNNReal y := by
    intro y
    simp only [gaussianPDF]
    rw [← ENNReal.ofReal_mul (gaussianPDFReal_nonneg _ _ _), ← ENNReal.ofReal_mul (by positivity), ← ENNReal.ofReal_mul (by positivity)]
    congr 1
    simp only [gaussianPDFReal, Real.coe_toNNReal _ hv.le, Real.coe_toNNReal _ hv'.le]
    rw [mul_assoc, ← Real.exp_add]
    have e1 : √(2 * Real.pi * (v / (1 - 2 * α * v))) = √(2 * Real.pi * v) * (√(1 - 2 * α * v))⁻¹ := by
      rw [← mul_div_assoc, Real.sqrt_div (by positivity), div_eq_mul_inv]
    have e2 : -(y - m) ^ 2 / (2 * v) + α * y ^ 2 =
        α / (1 - 2 * α * v) * m ^ 2 + -(y - m / (1 - 2 * α * v)) ^ 2 / (2 * (v / (1 - 2 * α * v))) := by
      generalize hb : 1 - 2 * α * v = β at hs ⊢
      have hα : α = (1 - β) / (2 * v) := by field_simp; linarith
      rw [hα]
      field_simp
      ring
    rw [e1, e2, Real.exp_add, mul_inv, inv_inv]
    have : √(1 - 2 * α * v) ≠ 0 := (Real.sqrt_pos.2 hs).ne'
    generalize √(1 - 2 * α * v) = q at this ⊢
    generalize Real.exp (α / (1 - 2 * α * v) * m ^ 2) = r
    field_simp
  simp only [e]
  rw [lintegral_const_mul _ (measurable_gaussianPDF _ _), lintegral_gaussianPDF_eq_one _ (by simpa using hv'), mul_one]

theorem line_top (m α : ℝ) (h : 1 / 2 ≤ α) : ∫⁻ y, gaussianPDF m (1 : ℝ).toNNReal y * ENNReal.ofReal (Real.exp (α * y ^ 2)) = ⊤ := by
  have hp := Real.pi_pos
  have key : ∀ y, 0 ≤ m * y → ENNReal.ofReal ((√(2 * Real.pi))⁻¹ * Real.exp (-(m ^ 2) / 2)) ≤
      gaussianPDF m (1 : ℝ).toNNReal y * ENNReal.ofReal (Real.exp (α * y ^ 2)) := by
    intro y hy
    simp only [gaussianPDF]
    rw [← ENNReal.ofReal_mul (gaussianPDFReal_nonneg _ _ _)]
    refine ENNReal.ofReal_le_ofReal ?_
    simp only [gaussianPDFReal, Real.coe_toNNReal _ zero_le_one, mul_one]
    rw [mul_assoc, ← Real.exp_add]
    refine mul_le_mul_of_nonneg_left (Real.exp_le_exp.2 ?_) (by positivity)
    nlinarith [sq_nonneg y]
  have hc : ENNReal.ofReal ((√(2 * Real.pi))⁻¹ * Real.exp (-(m ^ 2) / 2)) ≠ 0 := by
    rw [Ne, ENNReal.ofReal_eq_zero, not_le]
    positivity
  have hvol : (volume : Measure ℝ) {y | 0 ≤ m * y} = ⊤ := by
    rcases le_total 0 m with hm | hm
    · refine top_le_iff.1 (le_of_eq_of_le (Real.volume_Ici (a := 0)).symm (measure_mono fun y hy => ?_))
      exact mul_nonneg hm hy
    · refine top_le_iff.1 (le_of_eq_of_le (Real.volume_Iic (a := 0)).symm (measure_mono fun y hy => ?_))
      exact mul_nonneg_of_nonpos_of_nonpos hm hy
  have hms : MeasurableSet {y : ℝ | 0 ≤ m * y} := measurableSet_le measurable_const (by fun_prop)
  refine top_le_iff.1 ?_
  refine le_trans ?_ (setLIntegral_le_lintegral {y : ℝ | 0 ≤ m * y} _)
  refine le_trans ?_ (setLIntegral_mono' hms key)
  rw [setLIntegral_const, hvol, ENNReal.mul_top hc]

theorem plane (m s : Fin 2 → ℝ) (hs : ∀ i, 0 < s i) (α : ℝ) : ∫⁻ y, dens (mvnLogProb (m, s) y) * G α y =
    (∫⁻ y, gaussianPDF (m 0) (s 0).toNNReal y * ENNReal.ofReal (Real.exp (α * y ^ 2))) *
      ∫⁻ y, gaussianPDF (m 1) (s 1).toNNReal y * ENNReal.ofReal (Real.exp (α * y ^ 2)) := by
  have hm : ∀ (c : ℝ) (u : NNReal), Measurable fun y => gaussianPDF c u y * ENNReal.ofReal (Real.exp (α * y ^ 2)) :=
    fun c u => (measurable_gaussianPDF c u).mul (by fun_prop)
  refine Eq.trans ?_ (lintegral_plane _ _ (hm (m 0) (s 0).toNNReal) (hm (m 1) (s 1).toNNReal))
  refine lintegral_congr fun y => ?_
  rw [dens_mvn m s y hs, G]
  ring

/-- A step on exp(α|x|²), α < 1/2 ... -/
theorem P_G (α : ℝ) (h : 2 * α < 1) : ∃ c : ℝ≥0∞, c ≠ 0 ∧ c ≠ ⊤ ∧ P (G α) = fun x => c * G (α / (1 - 2 * α)) x := by
  have h' : 2 * α * 1 < 1 := by linarith
  have hs : (0 : ℝ) < 1 - 2 * α * 1 := by linarith
  refine ⟨ENNReal.ofReal ((√(1 - 2 * α * 1))⁻¹) * ENNReal.ofReal ((√(1 - 2 * α * 1))⁻¹), ?_, ?_, ?_⟩
  · have : ENNReal.ofReal ((√(1 - 2 * α * 1))⁻¹) ≠ 0 := by
      rw [Ne, ENNReal.ofReal_eq_zero, not_le]
      positivity
    exact mul_ne_zero this this
  · exact ENNReal.mul_ne_top ENNReal.ofReal_ne_top ENNReal.ofReal_ne_top
  · funext x
    unfold P
    rw [plane x (fun _ => 1) (fun _ => one_pos) α, line _ 1 α one_pos h', line _ 1 α one_pos h', G, mul_one]
    ring

/-- ... and beyond. -/
theorem P_G_top (α : ℝ) (h : 1 / 2 ≤ α) : P (G α) = fun _ => ⊤ := by
  funext x
  unfold P
  rw [plane x (fun _ => 1) (fun _ => one_pos) α, line_top _ α h, line_top _ α h]
  rfl

theorem P_top : P (fun _ => ⊤) = fun _ => ⊤ := by
  funext x
  unfold P
  have hm : Measurable fun y => dens (mvnLogProb (x, fun _ => 1) y) := measurable_dens.comp (measurable_mvn_right _)
  refine (lintegral_mul_const ⊤ hm).trans ?_
  rw [mvn_mass x (fun _ => 1) fun _ => one_pos, one_mul]

theorem iter_G (m : Nat) (hm : m < 25) : ∃ c : ℝ≥0∞, c ≠ 0 ∧ c ≠ ⊤ ∧ P^[m] (G (1 / 50)) = fun x => c * G (1 / (2 * (25 - m))) x := by
  induction m with
  | zero => exact ⟨1, one_ne_zero, ENNReal.one_ne_top, by funext x; norm_num⟩
  | succ m ih =>
    obtain ⟨c, h1, h2, h3⟩ := ih (by omega)
    have hm' : (m : ℝ) + 1 < 25 := by exact_mod_cast hm
    have hpos : (0 : ℝ) < 25 - m := by linarith
    have hpos' : (0 : ℝ) < 25 - (m + 1) := by linarith
    obtain ⟨d, k1, k2, k3⟩ := P_G (1 / (2 * (25 - m))) (by
      rw [mul_one_div, div_lt_one (by linarith)]
      linarith)
    refine ⟨c * d, mul_ne_zero h1 k1, ENNReal.mul_ne_top h2 k2, ?_⟩
    rw [Function.iterate_succ_apply', h3, P_const_mul c h2, k3]
    have e : 1 / (2 * (25 - (m : ℝ))) / (1 - 2 * (1 / (2 * (25 - m)))) = 1 / (2 * (25 - ((m + 1 : Nat) : ℝ))) := by
      push_cast
      have : 1 - 2 * (1 / (2 * (25 - (m : ℝ)))) = (25 - (m + 1)) / (25 - m) := by
        field_simp
        ring
      rw [this]
      field_simp
    rw [e]
    funext x
    ring

theorem iter_G_top (m : Nat) (hm : 25 ≤ m) : P^[m] (G (1 / 50)) = fun _ => ⊤ := by
  induction m, hm using Nat.le_induction with
  | base =>
    obtain ⟨c, h1, h2, h3⟩ := iter_G 24 (by omega)
    rw [Function.iterate_succ_apply', h3, P_const_mul c h2, P_G_top _ (by norm_num)]
    funext x
    exact ENNReal.mul_top h1
  | succ m hm ih => rw [Function.iterate_succ_apply', ih, P_top]

theorem initial_inv : ∃ c : ℝ≥0∞, c ≠ 0 ∧ c ≠ ⊤ ∧ ∀ x, dens (-mvnLogProb paperInitial x) = c * G (1 / 50) x := by
  refine ⟨dens (Real.log (2 * Real.pi) + 1 / 2 * Real.log (25 * 25)), by simp [dens, Real.exp_pos], ENNReal.ofReal_ne_top, fun x => ?_⟩
  have : G (1 / 50) x = dens (1 / 50 * x 0 ^ 2) * dens (1 / 50 * x 1 ^ 2) := rfl
  rw [this, ← dens_add, ← dens_add]
  congr 1
  simp only [mvnLogProb, paperInitial, Fin.sum_univ_two, Fin.prod_univ_two]
  norm_num
  ring

theorem second_moment (p : PaperParams) (hp : Untrained p) (K : Nat) (hK : K ≠ 0) : ∃ c : ℝ≥0∞, c ≠ 0 ∧ c ≠ ⊤ ∧
    (paperSpec p K).law volume paperLp K (fun w _ => dens w ^ 2) = c * ∫⁻ y, P^[K] (G (1 / 50)) y * dens (paperRing y) ^ 2 := by
  obtain ⟨c, h1, h2, h3⟩ := initial_inv
  refine ⟨c, h1, h2, ?_⟩
  have hat : (paperSpec p K).at' paperLp K = paperRing := by
    obtain ⟨k, rfl⟩ := Nat.exists_eq_succ_of_ne_zero hK
    show paperTarget p (k + 1) k = paperRing
    rw [paperTarget, if_neg (by omega)]
  have e : (fun (w : ℝ) (_ : Fin 2 → ℝ) => dens w ^ 2) =
      fun w x => (fun u x => dens u ^ 2 * dens (paperRing x) ^ 2) (w - (paperSpec p K).at' paperLp K x) x := by
    funext w x
    simp only [hat]
    rw [← mul_pow, ← dens_add, sub_add_cancel]
  rw [e, law_walk p hp K K fun u x => dens u ^ 2 * dens (paperRing x) ^ 2]
  have hr : Measurable fun y => dens (paperRing y) ^ 2 := (measurable_dens.comp measurable_ring).pow_const 2
  have e2 : ∀ x, dens (mvnLogProb paperInitial x) * P^[K] (fun y => dens (-mvnLogProb paperInitial x) ^ 2 * dens (paperRing y) ^ 2) x =
      c * (G (1 / 50) x * P^[K] (fun y => dens (paperRing y) ^ 2) x) := by
    intro x
    rw [iter_const_mul (dens (-mvnLogProb paperInitial x) ^ 2) (ENNReal.pow_ne_top ENNReal.ofReal_ne_top) K]
    have : dens (mvnLogProb paperInitial x) * dens (-mvnLogProb paperInitial x) = 1 := by rw [← dens_add, add_neg_cancel]; simp [dens]
    calc _ = (dens (mvnLogProb paperInitial x) * dens (-mvnLogProb paperInitial x)) * dens (-mvnLogProb paperInitial x) *
          P^[K] (fun y => dens (paperRing y) ^ 2) x := by ring
      _ = _ := by rw [this, h3, one_mul, mul_assoc]
  simp only [e2]
  rw [lintegral_const_mul' _ _ h2, adjoint_iter (measurable_G _) hr]

theorem ring_le (y : Fin 2 → ℝ) : dens (paperRing y) ≤ 8 := by
  obtain ⟨ls, h1, h2, -⟩ := (C52_ring 10 8).2 (by decide)
  obtain ⟨cs, k1, k2⟩ := paperRing_exp
  obtain ⟨cs', q1, q2, -⟩ := paperRing_ok
  rw [k1] at q1
  cases q1
  unfold paperComponents at k1
  rw [h1] at k1
  simp only [gmmComponents, h2, List.length_replicate, if_true] at k1
  have hle : ∀ c ∈ cs, Real.exp (c y) ≤ 1 := by
    intro c hc
    injection k1 with k1
    rw [← k1] at hc
    obtain ⟨⟨l, s⟩, he, rfl⟩ := List.mem_map.1 hc
    have hs := (List.of_mem_zip he).2
    rw [List.mem_replicate] at hs
    obtain ⟨-, rfl⟩ := hs
    rw [Real.exp_le_one_iff]
    simp only [mvnLogProb, Fin.sum_univ_two, Fin.prod_univ_two]
    have hl : Real.log (1 * (1 / 2) * (1 * (1 / 2))) = -(2 * Real.log 2) := by
      rw [show (1 : ℝ) * (1 / 2) * (1 * (1 / 2)) = (2 ^ 2)⁻¹ by norm_num, Real.log_inv, Real.log_pow]
      push_cast
      ring
    have hpi : Real.log 2 ≤ Real.log (2 * Real.pi) := Real.log_le_log (by norm_num) (by nlinarith [Real.pi_gt_three])
    rw [hl]
    have := div_nonneg (sq_nonneg (y 0 - ![l.1, l.2] 0)) (by norm_num : (0 : ℝ) ≤ 1 * (1 / 2))
    have := div_nonneg (sq_nonneg (y 1 - ![l.1, l.2] 1)) (by norm_num : (0 : ℝ) ≤ 1 * (1 / 2))
    linarith
  rw [dens, k2 y]
  refine le_of_le_of_eq (ENNReal.ofReal_le_ofReal (?_ : _ ≤ (8 : ℝ))) (by norm_num)
  have : ∀ l : List ((Fin 2 → ℝ) → ℝ), (∀ c ∈ l, Real.exp (c y) ≤ 1) → (l.map fun c => Real.exp (c y)).sum ≤ l.length := by
    intro l
    induction l with
    | nil => intro _; simp
    | cons c l ih =>
      intro h
      rw [List.map_cons, List.sum_cons, List.length_cons]
      push_cast
      linarith [h c (by simp), ih fun c hc => h c (by simp [hc])]
  have := this cs hle
  rw [q2] at this
  exact_mod_cast this

theorem ring_G (α : ℝ) (h : α < 1) : ∫⁻ y, G α y * dens (paperRing y) ≠ ⊤ := by
  obtain ⟨ls, h1, h2, -⟩ := (C52_ring 10 8).2 (by decide)
  obtain ⟨cs, k1, k2⟩ := paperRing_exp
  have hc : ∀ c ∈ cs, Measurable c ∧ ∫⁻ y, G α y * dens (c y) ≠ ⊤ := by
    intro c hc
    unfold paperComponents at k1
    rw [h1] at k1
    simp only [gmmComponents, h2, List.length_replicate, if_true] at k1
    injection k1 with k1
    rw [← k1] at hc
    obtain ⟨⟨l, s⟩, he, rfl⟩ := List.mem_map.1 hc
    have hs := (List.of_mem_zip he).2
    rw [List.mem_replicate] at hs
    obtain ⟨-, rfl⟩ := hs
    refine ⟨measurable_mvn_right _, ?_⟩
    have := plane ![l.1, l.2] (fun _ => 1 * (1 / 2)) (fun _ => by norm_num) α
    simp only [mul_comm (G α _)]
    rw [this, line _ _ α (by norm_num) (by linarith), line _ _ α (by norm_num) (by linarith)]
    finiteness
  have e : ∀ y, G α y * dens (paperRing y) = (cs.map fun c => G α y * dens (c y)).sum := by
    intro y
    rw [dens, k2 y, List.sum_map_mul_left]
    congr 1
    clear k1 k2 hc
    induction cs with
    | nil => simp
    | cons c l ih =>
      rw [List.map_cons, List.sum_cons, List.map_cons, List.sum_cons, ENNReal.ofReal_add (Real.exp_pos _).le, ih]
      · rfl
      · exact List.sum_nonneg (by
          intro x hx
          obtain ⟨c', -, rfl⟩ := List.mem_map.mp hx
          exact (Real.exp_pos _).le)
  simp only [e]
  clear e k1 k2
  induction cs with
  | nil => simp
  | cons c l ih =>
    simp only [List.map_cons, List.sum_cons]
    have hm : Measurable fun y => G α y * dens (c y) := (measurable_G α).mul (measurable_dens.comp (hc c (by simp)).1)
    rw [lintegral_add_left hm]
    exact ENNReal.add_ne_top.2 ⟨(hc c (by simp)).2, ih fun c hc' => hc c (by simp [hc'])⟩

/-- The second moment of the weight of a chain is finite exactly for fewer than 25 steps. -/
theorem second_moment_iff (p : PaperParams) (hp : Untrained p) (K : Nat) (hK : K ≠ 0) :
    (paperSpec p K).law volume paperLp K (fun w _ => dens w ^ 2) ≠ ⊤ ↔ K < 25 := by
  obtain ⟨c, h1, h2, h3⟩ := second_moment p hp K hK
  rw [h3]
  constructor
  · intro h
    by_contra hge
    refine h ?_
    rw [iter_G_top K (by omega)]
    have hpos : ∀ y, dens (paperRing y) ^ 2 ≠ 0 := fun y => pow_ne_zero 2 (by simp [dens, Real.exp_pos])
    have : ∀ y : Fin 2 → ℝ, (⊤ : ℝ≥0∞) * dens (paperRing y) ^ 2 = ⊤ := fun y => ENNReal.top_mul (hpos y)
    simp only [this]
    simp [ENNReal.mul_top h1]
  · intro hlt
    obtain ⟨d, -, k2, k3⟩ := iter_G K hlt
    refine ENNReal.mul_ne_top h2 ?_
    rw [k3]
    have hK' : (K : ℝ) + 1 ≤ 25 := by exact_mod_cast hlt
    have hα : 1 / (2 * (25 - (K : ℝ))) < 1 := by
      rw [div_lt_one (by linarith)]
      linarith
    refine ne_top_of_le_ne_top (ENNReal.mul_ne_top (ENNReal.mul_ne_top k2 (by norm_num : (8 : ℝ≥0∞) ≠ ⊤)) (ring_G _ hα)) ?_
    rw [← lintegral_const_mul' _ _ (ENNReal.mul_ne_top k2 (by norm_num))]
    refine lintegral_mono fun y => ?_
    rw [sq]
    calc _ = d * G (1 / (2 * (25 - (K : ℝ)))) y * dens (paperRing y) * dens (paperRing y) := by ring
      _ ≤ d * G (1 / (2 * (25 - (K : ℝ)))) y * dens (paperRing y) * 8 := by gcongr; exact ring_le y
      _ = _ := by ring

end PaperWalk
end Verif
