import Verif.Model.GmmSample
import Mathlib.Data.Fin.Tuple.Sort
/-
C72: samples of a mixture.
-/
namespace Verif
open MeasureTheory
open scoped ENNReal

variable {V : Type} [MeasurableSpace V]

namespace Spec
/-- The mixture of the components with equal weights. -/
noncomputable def mixture {K : Nat} (comp : Fin K → Measure V) : Measure V := (K : ℝ≥0∞)⁻¹ • ∑ k, comp k
end Spec
open Spec

instance {K : Nat} (comp : Fin K → Measure V) [∀ k, IsProbabilityMeasure (comp k)] : IsFiniteMeasure (∑ k, comp k) :=
  ⟨by rw [Measure.finset_sum_apply]; exact ENNReal.sum_lt_top.2 fun k _ => measure_lt_top _ _⟩

theorem pi_perm {n : Nat} (μ : Fin n → Measure V) [∀ i, SigmaFinite (μ i)] (π : Equiv.Perm (Fin n)) (f : (Fin n → V) → ℝ≥0∞)
    (hf : Measurable f) : ∫⁻ xs, f (fun i => xs (π i)) ∂Measure.pi μ = ∫⁻ xs, f xs ∂Measure.pi fun i => μ (π i) := by
  have hm : Measurable fun xs : Fin n → V => fun i => xs (π i) := measurable_pi_lambda _ fun i => measurable_pi_apply _
  have h : (Measure.pi μ).map (fun xs i => xs (π i)) = Measure.pi fun i => μ (π i) := by
    refine (Measure.pi_eq fun s hs => ?_).symm
    rw [Measure.map_apply hm (MeasurableSet.univ_pi hs)]
    have : (fun (xs : Fin n → V) i => xs (π i)) ⁻¹' Set.univ.pi s = Set.univ.pi fun i => s (π.symm i) := by
      ext xs
      simp only [Set.mem_preimage, Set.mem_pi, Set.mem_univ, true_implies]
      exact ⟨fun h i => by simpa using h (π.symm i), fun h i => by simpa using h (π i)⟩
    rw [this, Measure.pi_pi]
    exact Fintype.prod_equiv π.symm _ _ fun i => by simp
  rw [← h, lintegral_map hf hm]

theorem pi_mixture {K n : Nat} (comp : Fin K → Measure V) [∀ k, IsProbabilityMeasure (comp k)] :
    Measure.pi (fun _ : Fin n => mixture comp) = ∑ zs : Fin n → Fin K, (K : ℝ≥0∞)⁻¹ ^ n • Measure.pi fun i => comp (zs i) := by
  rcases Nat.eq_zero_or_pos K with rfl | hK
  · rcases Nat.eq_zero_or_pos n with rfl | hn
    · simp
      congr 1
      exact Subsingleton.elim _ _
    · have : IsEmpty (Fin n → Fin 0) := ⟨fun f => (f ⟨0, hn⟩).elim0⟩
      have : Nonempty (Fin n) := ⟨⟨0, hn⟩⟩
      simp only [mixture, Finset.univ_eq_empty, Finset.sum_empty, smul_zero]
      rw [← Measure.measure_univ_eq_zero, Measure.pi_univ]
      simp [hn.ne']
  have : IsFiniteMeasure (mixture comp) := ⟨by
    unfold mixture
    rw [Measure.smul_apply, smul_eq_mul]
    exact ENNReal.mul_lt_top (ENNReal.inv_lt_top.2 (by exact_mod_cast hK)) (measure_lt_top _ _)⟩
  refine Measure.pi_eq fun s hs => ?_
  rw [Measure.finset_sum_apply]
  simp only [Measure.smul_apply, Measure.pi_pi, smul_eq_mul]
  rw [← Finset.mul_sum]
  have h2 : ∏ i, (mixture comp) (s i) = ∏ i, ((K : ℝ≥0∞)⁻¹ * ∑ k, comp k (s i)) := by
    refine Finset.prod_congr rfl fun i _ => ?_
    rw [mixture, Measure.smul_apply, smul_eq_mul, Measure.finset_sum_apply]
  rw [h2, Finset.prod_mul_distrib, Finset.prod_const, Finset.card_univ, Fintype.card_fin, Finset.prod_univ_sum, Fintype.piFinset_univ]

theorem exists_perm {K n : Nat} (f g : Fin n → Fin K) (h : (List.ofFn f).Perm (List.ofFn g)) : ∃ σ : Equiv.Perm (Fin n), ∀ i, f i = g (σ i) := by
  have e : List.ofFn (f ∘ Tuple.sort f) = List.ofFn (g ∘ Tuple.sort g) :=
    ((((Tuple.sort f).ofFn_comp_perm f).trans h).trans ((Tuple.sort g).ofFn_comp_perm g).symm).eq_of_pairwise'
      (Tuple.monotone_sort f).sortedLE_ofFn.pairwise (Tuple.monotone_sort g).sortedLE_ofFn.pairwise
  have e := List.ofFn_injective e
  refine ⟨(Tuple.sort f).symm.trans (Tuple.sort g), fun i => ?_⟩
  have := congrFun e ((Tuple.sort f).symm i)
  simpa using this

/-- C72. The n points that GMM.sample returns are independent draws from the mixture of its components with equal weights. -/
theorem C72_independent {K : Nat} (comp : Fin K → Measure V) [∀ k, IsProbabilityMeasure (comp k)] (n : Nat)
    (f : (Fin n → V) → ℝ≥0∞) (hf : Measurable f) : gmmSample comp n f = ∫⁻ xs, f xs ∂Measure.pi fun _ : Fin n => mixture comp := by
  have h1 : ∀ zs : Fin n → Fin K, ∃ σ : Equiv.Perm (Fin n), ∀ i, (gmmRows zs).get (i.cast (gmmRows_length zs).symm) = zs (σ i) := by
    intro zs
    have hp : (List.ofFn fun i : Fin n => (gmmRows zs).get (i.cast (gmmRows_length zs).symm)).Perm (List.ofFn zs) := by
      refine List.Perm.trans (List.Perm.of_eq ?_) (gmmRows_perm zs)
      apply List.ext_get (by simp [gmmRows_length])
      intro j h h'
      simp
    exact exists_perm _ _ hp
  choose σ hσ using h1
  unfold gmmSample
  simp only [hσ]
  have h2 : ∀ zs : Fin n → Fin K, ∫⁻ xs, ∑ ix : Equiv.Perm (Fin n), (n.factorial : ℝ≥0∞)⁻¹ * f (fun i => xs (ix i)) ∂Measure.pi (fun i => comp (zs (σ zs i))) =
      ∑ ix : Equiv.Perm (Fin n), (n.factorial : ℝ≥0∞)⁻¹ * ∫⁻ xs, f xs ∂Measure.pi fun i => comp (zs (ix i)) := by
    intro zs
    have hm : ∀ ix : Equiv.Perm (Fin n), Measurable fun xs : Fin n → V => f fun i => xs (ix i) := fun ix =>
      hf.comp (measurable_pi_lambda _ fun i => measurable_pi_apply _)
    rw [lintegral_finset_sum _ fun ix _ => (hm ix).const_mul _]
    refine Fintype.sum_equiv (Equiv.mulLeft (σ zs)) _ _ fun ix => ?_
    rw [lintegral_const_mul _ (hm ix), pi_perm _ ix f hf]
    rfl
  simp only [h2]
  have h3 : ∀ ix : Equiv.Perm (Fin n), ∑ zs : Fin n → Fin K, ∫⁻ xs, f xs ∂Measure.pi (fun i => comp (zs (ix i))) =
      ∑ zs : Fin n → Fin K, ∫⁻ xs, f xs ∂Measure.pi (fun i => comp (zs i)) := fun ix =>
    Fintype.sum_equiv (Equiv.arrowCongr ix.symm (Equiv.refl _)) _ _ fun zs => by
      congr 1
  rw [← Finset.mul_sum, Finset.sum_comm]
  simp only [← Finset.mul_sum, h3]
  rw [Finset.sum_const, Finset.card_univ, Fintype.card_perm, Fintype.card_fin, nsmul_eq_mul, ← mul_assoc (n.factorial : ℝ≥0∞)⁻¹,
    ENNReal.inv_mul_cancel (by exact_mod_cast n.factorial_ne_zero) (ENNReal.natCast_ne_top _), one_mul]
  rw [pi_mixture, lintegral_finset_sum_measure, Finset.mul_sum]
  simp only [lintegral_smul_measure, smul_eq_mul]

/-- C72. As many points are returned as were asked for, in one row, exactly if the shape has at most two dimensions or its inner
dimensions are 1 (or nothing was asked for); otherwise there are too many. -/
theorem C72_shape (s : Shape) (d : Nat) (hd : 0 < d) :
    (gmmShape s d).prod = s.prod * d ↔ s.prod = 0 ∨ ((s.drop 1).dropLast).prod = 1 := by
  unfold gmmShape
  simp only [List.prod_append, List.prod_cons, List.prod_nil, mul_one]
  rcases Nat.eq_zero_or_pos s.prod with h | h
  · simp [h]
  · constructor
    · intro e
      right
      have e := Nat.eq_of_mul_eq_mul_right hd e
      exact Nat.eq_of_mul_eq_mul_left h (by rw [e, mul_one])
    · rintro (h' | h')
      · omega
      · rw [h', mul_one]

/-- C72: with two components that sit at 0 and at 1, three samples are all 0 with probability 1/8. -/
example : gmmSample (fun k : Fin 2 => Measure.dirac (k.val : ℝ)) 3 ((Set.univ.pi fun _ => {0}).indicator 1) = 1 / 8 := by
  rw [C72_independent _ 3 _ (measurable_one.indicator (MeasurableSet.univ_pi fun _ => measurableSet_singleton _)),
    lintegral_indicator_one (MeasurableSet.univ_pi fun _ => measurableSet_singleton _), pi_mixture, Measure.finset_sum_apply]
  simp only [Measure.smul_apply, Measure.pi_pi, smul_eq_mul, ← Finset.mul_sum]
  rw [← Fintype.piFinset_univ, ← Finset.prod_univ_sum (fun _ => Finset.univ) fun (_ : Fin 3) (k : Fin 2) => Measure.dirac (k.val : ℝ) {0}]
  have : ∑ k : Fin 2, Measure.dirac (k.val : ℝ) {0} = 1 := by
    rw [Fin.sum_univ_two]
    simp
  simp only [this, Finset.prod_const_one, mul_one]
  rw [← ENNReal.inv_pow, one_div]
  norm_num

/-- C72: one point for each of three by two by four draws, and again for each of the two: 48 rows. -/
example : gmmShape [3, 2, 4] 2 = [24, 2, 2] ∧ gmmShape [10] 2 = [10, 2] ∧ gmmShape [3, 4] 2 = [12, 2] := ⟨rfl, rfl, rfl⟩

end Verif
