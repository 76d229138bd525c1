import Mathlib.Algebra.Order.BigOperators.Group.Finset
import Mathlib.Algebra.Order.BigOperators.Ring.Finset
import Mathlib.Tactic.Linarith
import Mathlib.Tactic.FieldSimp
import Mathlib.Tactic.Ring
import Mathlib.Algebra.Order.Floor.Ring
import Mathlib.Order.Interval.Finset.Nat
import Mathlib.Data.Int.Interval
import Verif.Model.Resampler
/-
Ancestor indices of systematic resampling.
-/
namespace Verif
set_option linter.unusedSectionVars false
variable {K : Type} [Field K] [LinearOrder K] [IsStrictOrderedRing K] {n : Nat}

/-- Sum of the first `m` weights. -/
def prefixSum (w : Fin n → K) (m : Nat) : K := ∑ j ∈ Finset.univ.filter (fun j : Fin n => j.val < m), w j

theorem prefixSum_zero (w : Fin n → K) : prefixSum w 0 = 0 := by simp [prefixSum]

theorem prefixSum_succ (w : Fin n → K) (i : Fin n) : prefixSum w (i.val + 1) = prefixSum w i.val + w i := by
  have : Finset.univ.filter (fun j : Fin n => j.val < i.val + 1) =
      insert i (Finset.univ.filter (fun j : Fin n => j.val < i.val)) := by
    ext j
    simp only [Finset.mem_filter, Finset.mem_univ, true_and, Finset.mem_insert, Fin.ext_iff]
    omega
  rw [prefixSum, this, Finset.sum_insert (by simp), prefixSum, add_comm]

theorem prefixSum_n (w : Fin n → K) : prefixSum w n = ∑ j, w j := by
  simp [prefixSum]

theorem prefixSum_mono {w : Fin n → K} (hw : ∀ i, 0 ≤ w i) {m m' : Nat} (h : m ≤ m') :
    prefixSum w m ≤ prefixSum w m' := by
  apply Finset.sum_le_sum_of_subset_of_nonneg
  · intro j hj
    simp only [Finset.mem_filter, Finset.mem_univ, true_and] at hj ⊢
    omega
  · intros; exact hw _

theorem cumsum_eq (w : Fin n → K) (i : Fin n) : cumsum w i = prefixSum w (i.val + 1) := by
  unfold cumsum prefixSum
  congr 1
  ext j
  simp only [Finset.mem_filter, Finset.mem_univ, true_and, Fin.le_def]
  omega

theorem maxOf_cumsum [NeZero n] {w : Fin n → K} (hw : ∀ i, 0 ≤ w i) : maxOf (cumsum w) = ∑ j, w j := by
  have hn : 0 < n := Nat.pos_of_ne_zero (NeZero.ne n)
  apply le_antisymm
  · apply Finset.sup'_le
    intro i _
    rw [cumsum_eq, ← prefixSum_n]
    exact prefixSum_mono hw (by omega)
  · have := Finset.le_sup' (cumsum w) (Finset.mem_univ (⟨n - 1, by omega⟩ : Fin n))
    rw [cumsum_eq] at this
    simp only at this
    rw [Nat.sub_add_cancel hn, prefixSum_n] at this
    exact this

theorem searchsorted_le (c : Fin n → K) (x : K) : searchsorted c x ≤ n := by
  have := List.findIdx_le_length (p := fun i => decide (x ≤ c i)) (xs := List.finRange n)
  simpa [searchsorted] using this

theorem searchsorted_eq_iff (c : Fin n → K) (x : K) (i : Fin n) :
    searchsorted c x = i.val ↔ x ≤ c i ∧ ∀ j : Fin n, j < i → c j < x := by
  unfold searchsorted
  rw [List.findIdx_eq (by simp)]
  simp only [List.getElem_finRange, decide_eq_true_eq, decide_eq_false_iff_not, not_le]
  constructor
  · rintro ⟨h1, h2⟩
    refine ⟨h1, fun j hj => ?_⟩
    exact h2 j.val (Fin.lt_def.1 hj)
  · rintro ⟨h1, h2⟩
    exact ⟨h1, fun j hj => h2 ⟨j, by omega⟩ (Fin.lt_def.2 hj)⟩

theorem searchsorted_lt (c : Fin n → K) (x : K) (i : Fin n) (h : x ≤ c i) : searchsorted c x < n := by
  unfold searchsorted
  have := List.findIdx_lt_length (p := fun i => decide (x ≤ c i)) (xs := List.finRange n)
  rw [List.length_finRange] at this
  exact this.2 ⟨i, by simp, by simpa using h⟩

theorem searchsorted_mono (c : Fin n → K) {x y : K} (h : x ≤ y) : searchsorted c x ≤ searchsorted c y := by
  by_cases hy : searchsorted c y < n
  · have hi := (searchsorted_eq_iff c y ⟨_, hy⟩).1 rfl
    by_contra hlt
    rw [not_le] at hlt
    have hx : searchsorted c x ≤ n := searchsorted_le c x
    unfold searchsorted at hlt
    have := List.not_of_lt_findIdx hlt
    simp only [List.getElem_finRange, decide_eq_false_iff_not] at this
    exact this (le_trans h hi.1)
  · have := searchsorted_le c x
    omega

section
variable [NeZero n] {w : Fin n → K}

/-- Which steps select particle `i`. -/
theorem ancestors_eq_iff (hw : ∀ i, 0 ≤ w i) (hs : 0 < ∑ i, w i) (u : K) (k i : Fin n) :
    ancestors w u k = i.val ↔
      (i.val = 0 ∨ n * (prefixSum w i.val / ∑ j, w j) < k.val + u) ∧
        k.val + u ≤ n * (prefixSum w (i.val + 1) / ∑ j, w j) := by
  have hn : (0 : K) < n := by exact_mod_cast Nat.pos_of_ne_zero (NeZero.ne n)
  rw [ancestors, searchsorted_eq_iff, maxOf_cumsum hw, ustep]
  simp only [cumsum_eq, div_le_iff₀ hn, lt_div_iff₀ hn, mul_comm _ (n : K)]
  rw [and_comm]
  refine and_congr ⟨fun h => ?_, fun h j hj => ?_⟩ Iff.rfl
  · by_cases hi : i.val = 0
    · exact Or.inl hi
    · refine Or.inr ?_
      have := h ⟨i.val - 1, by omega⟩ (Fin.lt_def.2 (by simp only; omega))
      simp only [show i.val - 1 + 1 = i.val by omega] at this
      exact this
  · have hj' := Fin.lt_def.1 hj
    refine lt_of_le_of_lt ?_ (h.resolve_left (by omega))
    apply mul_le_mul_of_nonneg_left _ hn.le
    apply div_le_div_of_nonneg_right _ hs.le
    exact prefixSum_mono hw (by omega)

theorem ancestors_lt (hw : ∀ i, 0 ≤ w i) (hs : 0 < ∑ i, w i) {u : K} (hu : u ≤ 1) (k : Fin n) :
    ancestors w u k < n := by
  have hn0 : 0 < n := Nat.pos_of_ne_zero (NeZero.ne n)
  have hn : (0 : K) < n := by exact_mod_cast hn0
  apply searchsorted_lt _ _ ⟨n - 1, by omega⟩
  rw [maxOf_cumsum hw, cumsum_eq]
  simp only
  rw [Nat.sub_add_cancel hn0, prefixSum_n, div_self hs.ne', ustep, div_le_one hn]
  have : (k.val : K) + 1 ≤ n := by exact_mod_cast k.isLt
  linarith

theorem ancestors_mono (w : Fin n → K) (u : K) {k k' : Fin n} (h : k ≤ k') : ancestors w u k ≤ ancestors w u k' := by
  have hn : (0 : K) < n := by exact_mod_cast Nat.pos_of_ne_zero (NeZero.ne n)
  apply searchsorted_mono
  unfold ustep
  apply div_le_div_of_nonneg_right _ hn.le
  have : (k.val : K) ≤ k'.val := by exact_mod_cast Fin.le_def.1 h
  linarith

end
end Verif
