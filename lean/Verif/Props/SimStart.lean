import Mathlib.Probability.ConditionalProbability
import Mathlib.Probability.ProductMeasure
import Mathlib.Analysis.SpecificLimits.Basic
import Mathlib.MeasureTheory.Measure.Lebesgue.Basic
import Mathlib.MeasureTheory.Constructions.BorelSpace.Real
import Mathlib.Tactic.Linarith
import Mathlib.Tactic.NormNum
import Verif.Model.Simulator
import Verif.Props.Simulator
/-
C49: the law of the initial positions that the rejection loop of the simulator accepts.
-/
namespace Verif
open MeasureTheory ProbabilityTheory
open scoped ENNReal

/-! ### The first success among independent repetitions -/

section
variable {Y : Type} [MeasurableSpace Y] (P : Measure Y) [IsProbabilityMeasure P]

/-- The first `k` repetitions fail. -/
theorem failures (A : Set Y) (hA : MeasurableSet A) (k : Nat) :
    (Measure.infinitePi fun _ : Nat => P) {ω | ∀ i < k, ω i ∉ A} = (1 - P A) ^ k := by
  have e : {ω : Nat → Y | ∀ i < k, ω i ∉ A} = Set.pi (Finset.range k : Set Nat) fun _ => Aᶜ := by
    ext ω; simp [Set.mem_pi]
  rw [e, Measure.infinitePi_pi (fun _ => P) fun _ _ => hA.compl, Finset.prod_const, Finset.card_range, prob_compl_eq_one_sub hA]

/-- The first `k` repetitions fail and the next is in `B`. -/
theorem failures_then (A B : Set Y) (hA : MeasurableSet A) (hB : MeasurableSet B) (k : Nat) :
    (Measure.infinitePi fun _ : Nat => P) {ω | (∀ i < k, ω i ∉ A) ∧ ω k ∈ B} = (1 - P A) ^ k * P B := by
  have e : {ω : Nat → Y | (∀ i < k, ω i ∉ A) ∧ ω k ∈ B} =
      Set.pi (Finset.range (k + 1) : Set Nat) fun i => if i = k then B else Aᶜ := by
    ext ω
    simp only [Set.mem_setOf_eq, Set.mem_pi, Finset.coe_range, Set.mem_Iio]
    constructor
    · rintro ⟨h1, h2⟩ i hi
      by_cases hik : i = k
      · rw [if_pos hik, hik]; exact h2
      · rw [if_neg hik]; exact h1 i (by omega)
    · intro h
      refine ⟨fun i hi => ?_, ?_⟩
      · have := h i (by omega)
        rw [if_neg (by omega)] at this
        exact this
      · have := h k (by omega)
        rw [if_pos rfl] at this
        exact this
  rw [e, Measure.infinitePi_pi (fun _ => P)]
  · rw [Finset.prod_range_succ, if_pos rfl]
    congr 1
    rw [Finset.prod_congr rfl (g := fun _ => 1 - P A), Finset.prod_const, Finset.card_range]
    intro i hi
    rw [if_neg (by have := Finset.mem_range.1 hi; omega), prob_compl_eq_one_sub hA]
  · intro i _
    split
    · exact hB
    · exact hA.compl

theorem first_success (A B : Set Y) (hA : MeasurableSet A) (hB : MeasurableSet B) (h0 : P A ≠ 0) :
    (Measure.infinitePi fun _ : Nat => P) {ω | ∃ k, (∀ i < k, ω i ∉ A) ∧ ω k ∈ A ∩ B} = P[|A] B := by
  have e : {ω : Nat → Y | ∃ k, (∀ i < k, ω i ∉ A) ∧ ω k ∈ A ∩ B} = ⋃ k : Nat, {ω | (∀ i < k, ω i ∉ A) ∧ ω k ∈ A ∩ B} := by
    ext ω; simp
  rw [e, measure_iUnion]
  · simp only [failures_then P A (A ∩ B) hA (hA.inter hB)]
    rw [ENNReal.tsum_mul_right, ENNReal.tsum_geometric, ENNReal.sub_sub_cancel ENNReal.one_ne_top prob_le_one, cond_apply hA]
  · intro k l hkl
    rw [Function.onFun, Set.disjoint_left]
    rintro ω ⟨h1, h2⟩ ⟨h3, h4⟩
    rcases lt_or_gt_of_ne hkl with h | h
    · exact h3 k h h2.1
    · exact h1 l h h4.1
  · intro k
    have e : {ω : Nat → Y | (∀ i < k, ω i ∉ A) ∧ ω k ∈ A ∩ B} =
        (⋂ i : Nat, ⋂ _ : i < k, {ω : Nat → Y | ω i ∈ Aᶜ}) ∩ {ω : Nat → Y | ω k ∈ A ∩ B} := by
      ext ω; simp
    rw [e]
    refine MeasurableSet.inter (MeasurableSet.iInter fun i => MeasurableSet.iInter fun _ => ?_) ?_
    · exact (measurable_pi_apply i) hA.compl
    · exact (measurable_pi_apply k) (hA.inter hB)

end

/-! ### The simulator's positions -/

namespace Spec

/-- The square of all positions. -/
def square : Set (ℝ × ℝ) := Set.Icc (-1) 1 ×ˢ Set.Icc (-1) 1

/-- `Uniform(-1, 1).sample((n, 2))`: independent points, uniform on the square. -/
noncomputable def uniformPoints (n : Nat) : Measure (Fin n → ℝ × ℝ) := Measure.pi fun _ => (volume : Measure (ℝ × ℝ))[|square]

/-- The first three of `n` points are pairwise more than `sqrt(1/2)` apart. -/
def separated (n : Nat) (hn : 3 ≤ n) : Set (Fin n → ℝ × ℝ) :=
  {v | 1 / 2 < ((v ⟨0, by omega⟩).1 - (v ⟨1, by omega⟩).1) ^ 2 + ((v ⟨0, by omega⟩).2 - (v ⟨1, by omega⟩).2) ^ 2 ∧
    1 / 2 < ((v ⟨1, by omega⟩).1 - (v ⟨2, by omega⟩).1) ^ 2 + ((v ⟨1, by omega⟩).2 - (v ⟨2, by omega⟩).2) ^ 2 ∧
    1 / 2 < ((v ⟨0, by omega⟩).1 - (v ⟨2, by omega⟩).1) ^ 2 + ((v ⟨0, by omega⟩).2 - (v ⟨2, by omega⟩).2) ^ 2}

end Spec

theorem square_measurable : MeasurableSet Spec.square := measurableSet_Icc.prod measurableSet_Icc

theorem volume_square : (volume : Measure (ℝ × ℝ)) Spec.square = 4 := by
  unfold Spec.square
  rw [Measure.volume_eq_prod, Measure.prod_prod, Real.volume_Icc, ← ENNReal.ofReal_mul (by norm_num)]
  norm_num

instance : IsProbabilityMeasure ((volume : Measure (ℝ × ℝ))[|Spec.square]) :=
  cond_isProbabilityMeasure_of_finite (by rw [volume_square]; norm_num) (by rw [volume_square]; norm_num)

instance (n : Nat) : IsProbabilityMeasure (Spec.uniformPoints n) := by unfold Spec.uniformPoints; infer_instance

theorem separated_measurable (n : Nat) (hn : 3 ≤ n) : MeasurableSet (Spec.separated n hn) := by
  have h : ∀ i j : Fin n, Measurable fun v : Fin n → ℝ × ℝ => ((v i).1 - (v j).1) ^ 2 + ((v i).2 - (v j).2) ^ 2 := by
    intro i j
    fun_prop
  exact (measurableSet_lt measurable_const (h _ _)).inter ((measurableSet_lt measurable_const (h _ _)).inter (measurableSet_lt measurable_const (h _ _)))

theorem uniform_box_pos (a b c d : ℝ) (h1 : -1 ≤ a) (h2 : a < b) (h3 : b ≤ 1) (h4 : -1 ≤ c) (h5 : c < d) (h6 : d ≤ 1) :
    (volume : Measure (ℝ × ℝ))[|Spec.square] (Set.Icc a b ×ˢ Set.Icc c d) ≠ 0 := by
  rw [cond_apply square_measurable, volume_square]
  have e : Spec.square ∩ (Set.Icc a b ×ˢ Set.Icc c d) = Set.Icc a b ×ˢ Set.Icc c d := by
    rw [Set.inter_eq_right]
    exact Set.prod_mono (Set.Icc_subset_Icc h1 h3) (Set.Icc_subset_Icc h4 h6)
  rw [e, Measure.volume_eq_prod, Measure.prod_prod, Real.volume_Icc, Real.volume_Icc]
  refine mul_ne_zero (by norm_num) (mul_ne_zero ?_ ?_)
  · simpa using h2
  · simpa using h5

theorem separated_pos (n : Nat) (hn : 3 ≤ n) : Spec.uniformPoints n (Spec.separated n hn) ≠ 0 := by
  let t : Fin n → Set (ℝ × ℝ) := fun i =>
    if i.val = 0 then Set.Icc (-1) (-1 / 2) ×ˢ Set.Icc (-1) (-1 / 2)
    else if i.val = 1 then Set.Icc (1 / 2) 1 ×ˢ Set.Icc (-1) (-1 / 2)
    else if i.val = 2 then Set.Icc (-1) (-1 / 2) ×ˢ Set.Icc (1 / 2) 1
    else Set.Icc (-1) 1 ×ˢ Set.Icc (-1) 1
  have hsub : Set.pi Set.univ t ⊆ Spec.separated n hn := by
    intro v hv
    have h0 := hv ⟨0, by omega⟩ trivial
    have h1 := hv ⟨1, by omega⟩ trivial
    have h2 := hv ⟨2, by omega⟩ trivial
    simp only [t, if_true, one_ne_zero, if_false, OfNat.ofNat_ne_zero, OfNat.ofNat_ne_one, Set.mem_prod, Set.mem_Icc] at h0 h1 h2
    refine ⟨?_, ?_, ?_⟩ <;> nlinarith [h0, h1, h2]
  intro h
  have := measure_mono_null hsub h
  unfold Spec.uniformPoints at this
  rw [Measure.pi_pi, Finset.prod_eq_zero_iff] at this
  obtain ⟨i, -, hi⟩ := this
  revert hi
  simp only [t]
  split
  · exact uniform_box_pos _ _ _ _ (by norm_num) (by norm_num) (by norm_num) (by norm_num) (by norm_num) (by norm_num)
  · split
    · exact uniform_box_pos _ _ _ _ (by norm_num) (by norm_num) (by norm_num) (by norm_num) (by norm_num) (by norm_num)
    · split
      · exact uniform_box_pos _ _ _ _ (by norm_num) (by norm_num) (by norm_num) (by norm_num) (by norm_num) (by norm_num)
      · exact uniform_box_pos _ _ _ _ (by norm_num) (by norm_num) (by norm_num) (by norm_num) (by norm_num) (by norm_num)

theorem farApart_ofFn (n : Nat) (hn : 3 ≤ n) (v : Fin n → ℝ × ℝ) :
    (v ∈ Spec.separated n hn → farApart (List.ofFn v) = .ok true) ∧ (v ∉ Spec.separated n hn → farApart (List.ofFn v) = .ok false) := by
  have hr : ∀ (i : Nat) (h : i < n), rowAt (List.ofFn v) i = .ok (v ⟨i, h⟩) := by
    intro i h
    unfold rowAt
    rw [List.getElem?_ofFn, dif_pos h]
  have h0 := hr 0 (by omega)
  have h1 := hr 1 (by omega)
  have h2 := hr 2 (by omega)
  unfold Spec.separated farApart
  simp only [h0, h1, h2, bind, Except.bind, pure, Except.pure, Set.mem_setOf_eq]
  generalize v ⟨0, _⟩ = a
  generalize v ⟨1, _⟩ = b
  generalize v ⟨2, _⟩ = c
  have e1 : (1 / 2 < (a.1 - b.1) ^ 2 + (a.2 - b.2) ^ 2) ↔ sqDist a b > 0.5 := by unfold sqDist; norm_num
  have e2 : (1 / 2 < (b.1 - c.1) ^ 2 + (b.2 - c.2) ^ 2) ↔ sqDist c b > 0.5 := by
    unfold sqDist
    rw [show (c.1 - b.1) ^ 2 + (c.2 - b.2) ^ 2 = (b.1 - c.1) ^ 2 + (b.2 - c.2) ^ 2 by ring]
    norm_num
  have e3 : (1 / 2 < (a.1 - c.1) ^ 2 + (a.2 - c.2) ^ 2) ↔ sqDist a c > 0.5 := by unfold sqDist; norm_num
  rw [e1, e2, e3]
  constructor
  · rintro ⟨k1, k2, k3⟩
    rw [if_pos k1, if_pos k2, decide_eq_true k3]
  · intro h
    by_cases k1 : sqDist a b > 0.5
    · by_cases k2 : sqDist c b > 0.5
      · rw [if_pos k1, if_pos k2, decide_eq_false fun k3 => h ⟨k1, k2, k3⟩]
      · rw [if_pos k1, if_neg k2]
    · rw [if_neg k1]

/-- The loop's result, for sequences of draws. -/
theorem rejection_iff (n : Nat) (hn : 3 ≤ n) (ω : Nat → Fin n → ℝ × ℝ) (x : List (ℝ × ℝ)) :
    Rejection (fun i => List.ofFn (ω i)) (some x) ↔
      ∃ k, (∀ i < k, ω i ∉ Spec.separated n hn) ∧ ω k ∈ Spec.separated n hn ∧ x = List.ofFn (ω k) := by
  constructor
  · intro h
    generalize hxs : (fun i => List.ofFn (ω i)) = xs at h
    generalize hr : some x = r at h
    induction h generalizing ω with
    | accept h =>
      subst hxs
      cases hr
      refine ⟨0, by simp, ?_, rfl⟩
      by_contra hc
      rw [(farApart_ofFn n hn (ω 0)).2 hc] at h
      cases h
    | reject h _ ih =>
      subst hxs
      obtain ⟨k, h1, h2, h3⟩ := ih (fun i => ω (i + 1)) rfl hr
      refine ⟨k + 1, fun i hi => ?_, h2, h3⟩
      rcases i with _ | i
      · intro hc
        rw [(farApart_ofFn n hn (ω 0)).1 hc] at h
        cases h
      · exact h1 i (by omega)
    | raise => cases hr
  · rintro ⟨k, h1, h2, rfl⟩
    induction k generalizing ω with
    | zero => exact Rejection.accept ((farApart_ofFn n hn _).1 h2)
    | succ k ih =>
      exact Rejection.reject ((farApart_ofFn n hn _).2 (h1 0 (by omega))) (ih (fun i => ω (i + 1)) (fun i hi => h1 (i + 1) (by omega)) h2)

/-- C49: with three objects or more, none of the first `k` draws is the accepted one with probability `(1 - p) ^ k`, where `p > 0` is the
probability that three uniform points are separated; so the loop draws `1 / p` times in the mean. -/
theorem C49_rounds (n : Nat) (hn : 3 ≤ n) :
    let p := Spec.uniformPoints n (Spec.separated n hn)
    p ≠ 0 ∧
      (∀ k, (Measure.infinitePi fun _ : Nat => Spec.uniformPoints n)
        {ω | ∀ i < k, ¬ Rejection (fun i => List.ofFn (ω i)) (some (List.ofFn (ω i)))} = (1 - p) ^ k) ∧
      ∑' k : Nat, (Measure.infinitePi fun _ : Nat => Spec.uniformPoints n)
        {ω | ∀ i < k, ¬ Rejection (fun i => List.ofFn (ω i)) (some (List.ofFn (ω i)))} = p⁻¹ := by
  intro p
  have h : ∀ k, (Measure.infinitePi fun _ : Nat => Spec.uniformPoints n)
      {ω | ∀ i < k, ¬ Rejection (fun i => List.ofFn (ω i)) (some (List.ofFn (ω i)))} = (1 - p) ^ k := by
    intro k
    rw [← failures (Spec.uniformPoints n) _ (separated_measurable n hn) k]
    congr 1
    ext ω
    simp only [Set.mem_setOf_eq, rejection_iff n hn]
    classical
    constructor
    · intro h i hi hc
      have hex : ∃ i, ω i ∈ Spec.separated n hn := ⟨i, hc⟩
      exact h (Nat.find hex) (lt_of_le_of_lt (Nat.find_le hc) hi) ⟨Nat.find hex, fun _ hj => Nat.find_min hex hj, Nat.find_spec hex, rfl⟩
    · rintro h i hi ⟨m, -, h2, h3⟩
      rw [List.ofFn_inj] at h3
      exact h i hi (h3 ▸ h2)
  refine ⟨separated_pos n hn, h, ?_⟩
  simp only [h]
  rw [ENNReal.tsum_geometric, ENNReal.sub_sub_cancel ENNReal.one_ne_top prob_le_one]

/-- C49: the accepted positions are distributed as uniform points given that the first three are separated, whatever the number of rounds. -/
theorem C49_law (n : Nat) (hn : 3 ≤ n) (B : Set (Fin n → ℝ × ℝ)) (hB : MeasurableSet B) :
    (Measure.infinitePi fun _ : Nat => Spec.uniformPoints n)
        {ω | ∃ v ∈ B, Rejection (fun i => List.ofFn (ω i)) (some (List.ofFn v))} =
      (Spec.uniformPoints n)[|Spec.separated n hn] B := by
  rw [← first_success _ _ _ (separated_measurable n hn) hB (separated_pos n hn)]
  congr 1
  ext ω
  simp only [Set.mem_setOf_eq, rejection_iff n hn]
  constructor
  · rintro ⟨v, hv, k, h1, h2, h3⟩
    rw [List.ofFn_inj] at h3
    subst h3
    exact ⟨k, h1, h2, hv⟩
  · rintro ⟨k, h1, h2, h3⟩
    exact ⟨ω k, h3, k, h1, h2, rfl⟩

/-- C49: the loop ends normally with probability one. -/
theorem C49_terminates (n : Nat) (hn : 3 ≤ n) :
    ∀ᵐ ω ∂Measure.infinitePi fun _ : Nat => Spec.uniformPoints n, ∃ x, Rejection (fun i => List.ofFn (ω i)) (some x) := by
  have hp : (1 - Spec.uniformPoints n (Spec.separated n hn)) < 1 :=
    ENNReal.sub_lt_self ENNReal.one_ne_top one_ne_zero (separated_pos n hn)
  have h0 : (Measure.infinitePi fun _ : Nat => Spec.uniformPoints n) {ω | ¬ ∃ k, ω k ∈ Spec.separated n hn} = 0 := by
    refine le_antisymm (ge_of_tendsto' (ENNReal.tendsto_pow_atTop_nhds_zero_of_lt_one hp) fun k => ?_) zero_le
    rw [← failures (Spec.uniformPoints n) _ (separated_measurable n hn) k]
    exact measure_mono fun ω hω i _ hc => hω ⟨i, hc⟩
  have hae : ∀ᵐ ω ∂Measure.infinitePi fun _ : Nat => Spec.uniformPoints n, ∃ k, ω k ∈ Spec.separated n hn := h0
  filter_upwards [hae] with ω hω
  classical
  exact ⟨_, (rejection_iff n hn ω _).2 ⟨Nat.find hω, fun i hi => Nat.find_min hω hi, Nat.find_spec hω, rfl⟩⟩

end Verif
