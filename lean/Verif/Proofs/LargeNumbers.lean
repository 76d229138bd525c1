import Mathlib.Probability.StrongLaw
import Mathlib.Probability.Independence.InfinitePi
import Mathlib.MeasureTheory.Function.ConvergenceInMeasure
/-
Averages over many independent particles, when nothing but the mean is finite.
-/
namespace Verif
open MeasureTheory ProbabilityTheory Filter
open scoped ENNReal Topology

variable {Y : Type} [MeasurableSpace Y] (P : Measure Y) [IsProbabilityMeasure P]

theorem infinite_range (n : Nat) : (Measure.infinitePi fun _ : Nat => P).map (fun ω (i : Fin n) => ω i.val) = Measure.pi fun _ => P := by
  have h : iIndepFun (fun (i : Nat) (ω : Nat → Y) => ω i) (Measure.infinitePi fun _ : Nat => P) :=
    iIndepFun_infinitePi (X := fun _ ω => ω) fun _ => measurable_id
  have h2 := h.precomp (g := fun i : Fin n => i.val) Fin.val_injective
  rw [(iIndepFun_iff_map_fun_eq_pi_map fun i => (measurable_pi_apply _).aemeasurable).1 h2]
  congr 1
  funext i
  exact Measure.infinitePi_map_eval _ _

/-- Statistics of the first n of infinitely many particles that converge almost surely converge in probability. -/
theorem in_probability (F : (n : Nat) → (Fin n → Y) → ℝ) (hF : ∀ n, Measurable (F n)) (c : ℝ)
    (h : ∀ᵐ ω ∂Measure.infinitePi fun _ : Nat => P, Tendsto (fun n => F n fun i => ω i.val) atTop (𝓝 c)) (ε : ℝ) (hε : 0 < ε) :
    Tendsto (fun n => (Measure.pi fun _ : Fin n => P) {x | ε ≤ |F n x - c|}) atTop (𝓝 0) := by
  have hm : ∀ n : Nat, Measurable fun (ω : Nat → Y) (i : Fin n) => ω i.val := fun n => measurable_pi_lambda _ fun i => measurable_pi_apply _
  have h1 := tendstoInMeasure_of_tendsto_ae (fun n => ((hF n).comp (hm n)).aestronglyMeasurable) h (ENNReal.ofReal ε) (by simpa using hε)
  refine h1.congr fun n => ?_
  rw [← infinite_range P n, Measure.map_apply (hm n)]
  · congr 1
    ext ω
    simp only [Set.mem_setOf_eq, Set.mem_preimage, edist_dist, Real.dist_eq, Function.comp]
    exact ENNReal.ofReal_le_ofReal_iff (abs_nonneg _)
  · exact measurableSet_le measurable_const (continuous_abs.measurable.comp ((hF n).sub_const c))

theorem average_ae (h : Y → ℝ) (hm : Measurable h) (hi : Integrable h P) :
    ∀ᵐ ω ∂Measure.infinitePi fun _ : Nat => P, Tendsto (fun n : Nat => (∑ i : Fin n, h (ω i.val)) / n) atTop (𝓝 (∫ y, h y ∂P)) := by
  have hp : ∀ i : Nat, MeasurePreserving (fun ω : Nat → Y => ω i) (Measure.infinitePi fun _ : Nat => P) P := fun i => measurePreserving_eval_infinitePi (fun _ => P) i
  have hind : iIndepFun (fun (i : Nat) (ω : Nat → Y) => h (ω i)) (Measure.infinitePi fun _ : Nat => P) :=
    iIndepFun_infinitePi (X := fun _ => h) fun _ => hm
  have := strong_law_ae_real (fun (i : Nat) (ω : Nat → Y) => h (ω i)) ((hp 0).integrable_comp_of_integrable hi)
    (fun i j hij => hind.indepFun hij) fun i => ⟨(hm.comp (measurable_pi_apply i)).aemeasurable, (hm.comp (measurable_pi_apply 0)).aemeasurable, by
      have e : ∀ i : Nat, Measure.map (fun ω : Nat → Y => h (ω i)) (Measure.infinitePi fun _ : Nat => P) = P.map h := fun i =>
        (Measure.map_map hm (measurable_pi_apply i)).symm.trans (congrArg (Measure.map h) (hp i).map_eq)
      rw [e, e]⟩
  have e : ∫ ω : Nat → Y, h (ω 0) ∂(Measure.infinitePi fun _ : Nat => P) = ∫ y, h y ∂P := by
    rw [← integral_map (μ := Measure.infinitePi fun _ : Nat => P) (f := h) (measurable_pi_apply 0).aemeasurable hm.aestronglyMeasurable, (hp 0).map_eq]
  rw [e] at this
  filter_upwards [this] with ω hω
  refine hω.congr fun n => ?_
  rw [Finset.sum_range]

theorem average_law (h : Y → ℝ) (hm : Measurable h) (hi : Integrable h P) (ε : ℝ) (hε : 0 < ε) :
    Tendsto (fun n : Nat => (Measure.pi fun _ : Fin n => P) {x | ε ≤ |(∑ i, h (x i)) / n - ∫ y, h y ∂P|}) atTop (𝓝 0) :=
  in_probability P (fun n x => (∑ i, h (x i)) / n)
    (fun n => (Finset.measurable_sum _ fun i _ => hm.comp (measurable_pi_apply i)).div_const _) _ (average_ae P h hm hi) ε hε

theorem ratio_law (h k : Y → ℝ) (hm : Measurable h) (hi : Integrable h P) (km : Measurable k) (ki : Integrable k P) (k0 : ∫ y, k y ∂P ≠ 0) (ε : ℝ) (hε : 0 < ε) :
    Tendsto (fun n : Nat => (Measure.pi fun _ : Fin n => P) {x | ε ≤ |(∑ i, h (x i)) / (∑ i, k (x i)) - (∫ y, h y ∂P) / ∫ y, k y ∂P|}) atTop (𝓝 0) := by
  refine in_probability P (fun n x => (∑ i, h (x i)) / (∑ i, k (x i)))
    (fun n => (Finset.measurable_sum _ fun i _ => hm.comp (measurable_pi_apply i)).div (Finset.measurable_sum _ fun i _ => km.comp (measurable_pi_apply i))) _ ?_ ε hε
  filter_upwards [average_ae P h hm hi, average_ae P k km ki] with ω h1 h2
  refine (h1.div h2 k0).congr' ?_
  filter_upwards [eventually_gt_atTop 0] with n hn
  have : (n : ℝ) ≠ 0 := by positivity
  simp only [Pi.div_apply]
  rw [div_div_div_cancel_right₀ this]

/-- One column of independent rows and columns. -/
theorem pi_column {n b : Nat} (Q : Fin n × Fin b → Measure Y) [∀ p, IsProbabilityMeasure (Q p)] (j : Fin b) :
    (Measure.pi Q).map (fun x s => x (s, j)) = Measure.pi fun s => Q (s, j) := by
  symm
  refine Measure.pi_eq fun s hs => ?_
  have hm : Measurable fun (x : Fin n × Fin b → Y) (t : Fin n) => x (t, j) := measurable_pi_lambda _ fun i => measurable_pi_apply _
  rw [Measure.map_apply hm (MeasurableSet.univ_pi hs)]
  have e : (fun (x : Fin n × Fin b → Y) (t : Fin n) => x (t, j)) ⁻¹' Set.univ.pi s = Set.univ.pi fun p : Fin n × Fin b => if p.2 = j then s p.1 else Set.univ := by
    ext x
    simp only [Set.mem_preimage, Set.mem_univ_pi]
    constructor
    · intro h p
      split_ifs with hp
      · rw [← hp] at h
        exact h p.1
      · trivial
    · intro h t
      simpa using h (t, j)
  rw [e, Measure.pi_pi, Fintype.prod_prod_type]
  refine Finset.prod_congr rfl fun t _ => ?_
  rw [Finset.prod_eq_single j]
  · simp
  · intro i _ hi
    simp [hi]
  · simp

end Verif
