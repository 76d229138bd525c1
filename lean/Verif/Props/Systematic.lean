import Mathlib.MeasureTheory.Integral.IntervalIntegral.Basic
import Mathlib.MeasureTheory.Integral.IntervalIntegral.FundThmCalculus
import Verif.Proofs.Systematic
/-
C20-C23: ancestor indices of systematic resampling. `w` are the softmax weights; they need not sum to one exactly, since
the code divides by the largest cumulative sum.
-/
namespace Verif
variable {K : Type} [Field K] [LinearOrder K] [IsStrictOrderedRing K] {n : Nat} [NeZero n]

/-- The normalised weight. -/
def Spec.share (w : Fin n → K) (i : Fin n) : K := w i / ∑ j, w j

/-- The number of slots that get particle `i`. -/
def Spec.offspring (w : Fin n → K) (u : K) (i : Fin n) : Nat :=
  (Finset.univ.filter fun k : Fin n => ancestors w u k = i.val).card

open Spec

/-- C20. There is one ancestor per slot, all are valid indices, and they are non-decreasing. -/
theorem C20_ancestors (w : Fin n → K) (hw : ∀ i, 0 ≤ w i) (hs : 0 < ∑ i, w i) (u : K) (hu : u < 1) :
    (∀ k : Fin n, ancestors w u k < n) ∧ ∀ k k' : Fin n, k ≤ k' → ancestors w u k ≤ ancestors w u k' :=
  ⟨fun k => ancestors_lt hw hs hu.le k, fun _ _ h => ancestors_mono w u h⟩

/-- C20. Every slot descends from exactly one particle. -/
theorem C20_total (w : Fin n → K) (hw : ∀ i, 0 ≤ w i) (hs : 0 < ∑ i, w i) (u : K) (hu : u < 1) :
    ∑ i, offspring w u i = n := by
  have h := Finset.card_eq_sum_card_fiberwise (s := (Finset.univ : Finset (Fin n))) (t := (Finset.univ : Finset (Fin n)))
    (f := fun k => (⟨ancestors w u k, ancestors_lt hw hs hu.le k⟩ : Fin n)) (fun _ _ => Finset.mem_coe.2 (Finset.mem_univ _))
  rw [Finset.card_univ, Fintype.card_fin] at h
  refine Eq.trans (Finset.sum_congr rfl fun i _ => ?_) h.symm
  unfold offspring
  congr 1
  ext k
  simp [Fin.ext_iff]

/-- C20, C21: four particles over the rationals. -/
example : let w : Fin 4 → ℚ := ![1, 2, 3, 2]
    (∀ i, 0 ≤ w i) ∧ 0 < ∑ i, w i ∧ (List.finRange 4).map (ancestors w (1 / 3)) = [0, 1, 2, 3] ∧
      (List.finRange 4).map (ancestors w (2 / 3)) = [1, 2, 2, 3] := by
  intro w
  refine ⟨by decide, by decide +kernel, by decide +kernel, by decide +kernel⟩

theorem share_eq (w : Fin n → K) (i : Fin n) :
    (n : K) * (prefixSum w (i.val + 1) / ∑ j, w j) = n * (prefixSum w i.val / ∑ j, w j) + n * share w i := by
  rw [prefixSum_succ, share]; ring

theorem window_bounds {w : Fin n → K} (hw : ∀ i, 0 ≤ w i) (hs : 0 < ∑ i, w i) (i : Fin n) :
    (0 : K) ≤ n * (prefixSum w i.val / ∑ j, w j) ∧ (n : K) * (prefixSum w (i.val + 1) / ∑ j, w j) ≤ n ∧
      (n : K) * (prefixSum w i.val / ∑ j, w j) ≤ n * (prefixSum w (i.val + 1) / ∑ j, w j) := by
  have hn : (0 : K) ≤ n := Nat.cast_nonneg n
  refine ⟨?_, ?_, ?_⟩
  · apply mul_nonneg hn
    apply div_nonneg _ hs.le
    rw [← prefixSum_zero w]
    exact prefixSum_mono hw (by omega)
  · apply mul_le_of_le_one_right hn
    rw [div_le_one hs, ← prefixSum_n]
    exact prefixSum_mono hw (by omega)
  · apply mul_le_mul_of_nonneg_left _ hn
    apply div_le_div_of_nonneg_right _ hs.le
    exact prefixSum_mono hw (by omega)

section
variable [FloorRing K]

theorem card_window {a b u : K} (ha : 0 ≤ a) (hb : b ≤ n) (hu0 : 0 < u) (hu : u < 1) (hab : a ≤ b) :
    ((Finset.univ.filter fun k : Fin n => a < k.val + u ∧ k.val + u ≤ b).card : ℤ) = ⌊b - u⌋ - ⌊a - u⌋ := by
  have hinj : Function.Injective (fun k : Fin n => (k.val : ℤ)) := by
    intro x y h
    exact Fin.ext (Int.ofNat_inj.1 h)
  rw [← Finset.card_image_of_injective _ hinj]
  have : Finset.image (fun k : Fin n => (k.val : ℤ))
      (Finset.univ.filter fun k : Fin n => a < k.val + u ∧ k.val + u ≤ b) = Finset.Ioc ⌊a - u⌋ ⌊b - u⌋ := by
    ext z
    simp only [Finset.mem_image, Finset.mem_filter, Finset.mem_univ, true_and, Finset.mem_Ioc, Int.floor_lt,
      Int.le_floor]
    constructor
    · rintro ⟨k, ⟨h1, h2⟩, rfl⟩
      constructor
      · push_cast; linarith
      · push_cast; linarith
    · rintro ⟨h1, h2⟩
      have hz0 : 0 ≤ z := by
        have : (-1 : K) < z := by linarith
        have : (-1 : ℤ) < z := by exact_mod_cast this
        omega
      have hzn : z < n := by
        have : (z : K) < n := by linarith
        exact_mod_cast this
      obtain ⟨m, rfl⟩ := Int.eq_ofNat_of_zero_le hz0
      refine ⟨⟨m, by omega⟩, ⟨?_, ?_⟩, rfl⟩
      · simp only [Int.cast_natCast] at h1 ⊢; linarith
      · simp only [Int.cast_natCast] at h2 ⊢; linarith
  rw [this, Int.card_Ioc, Int.toNat_of_nonneg]
  have : ⌊a - u⌋ ≤ ⌊b - u⌋ := Int.floor_le_floor (by linarith)
  omega

theorem offspring_eq {w : Fin n → K} (hw : ∀ i, 0 ≤ w i) (hs : 0 < ∑ i, w i) {u : K} (hu0 : 0 < u) (i : Fin n) :
    offspring w u i = (Finset.univ.filter fun k : Fin n =>
      n * (prefixSum w i.val / ∑ j, w j) < k.val + u ∧ k.val + u ≤ n * (prefixSum w (i.val + 1) / ∑ j, w j)).card := by
  unfold offspring
  congr 1
  ext k
  simp only [Finset.mem_filter, Finset.mem_univ, true_and, ancestors_eq_iff hw hs]
  refine and_congr ⟨fun h => ?_, Or.inr⟩ Iff.rfl
  rcases h with h | h
  · rw [h, prefixSum_zero, zero_div, mul_zero]
    have : (0 : K) ≤ k.val := Nat.cast_nonneg _
    linarith
  · exact h

/-- C21. For an offset strictly between 0 and 1, particle `i` gets the floor or the ceiling of `n * share` offspring. -/
theorem C21_offspring (w : Fin n → K) (hw : ∀ i, 0 ≤ w i) (hs : 0 < ∑ i, w i) (u : K) (hu0 : 0 < u) (hu : u < 1)
    (i : Fin n) : ⌊n * share w i⌋ ≤ (offspring w u i : ℤ) ∧ (offspring w u i : ℤ) ≤ ⌈n * share w i⌉ := by
  obtain ⟨h1, h2, h3⟩ := window_bounds hw hs i
  rw [offspring_eq hw hs hu0, card_window h1 h2 hu0 hu h3, share_eq]
  set a : K := n * (prefixSum w i.val / ∑ j, w j)
  set y : K := n * share w i
  have e : a + y - u = (a - u) + y := by ring
  rw [e]
  constructor
  · have := Int.le_floor_add (a - u) y; omega
  · have : ⌊(a - u) + y⌋ ≤ ⌊(a - u) + (⌈y⌉ : K)⌋ := Int.floor_le_floor (by have := Int.le_ceil y; linarith)
    rw [Int.floor_add_intCast] at this
    omega

/-- C21. At offset exactly 0 (which `torch.rand` can return) the bounds are one wider: steps hit the boundaries between
particles and select the lower one, and the last boundary is not hit. -/
theorem C21_offset_zero (w : Fin n → K) (hw : ∀ i, 0 ≤ w i) (hs : 0 < ∑ i, w i) (i : Fin n) :
    ⌊n * share w i⌋ - 1 ≤ (offspring w 0 i : ℤ) ∧ (offspring w 0 i : ℤ) ≤ ⌊n * share w i⌋ + 1 := by
  obtain ⟨h1, h2, h3⟩ := window_bounds hw hs i
  set a : K := n * (prefixSum w i.val / ∑ j, w j) with ha
  set b : K := n * (prefixSum w (i.val + 1) / ∑ j, w j) with hb
  have hs' : b = a + n * share w i := share_eq w i
  have hfa : 0 ≤ ⌊a⌋ := Int.floor_nonneg.2 h1
  have hfb : ⌊b⌋ ≤ n := by
    have : (⌊b⌋ : K) ≤ n := le_trans (Int.floor_le b) h2
    exact_mod_cast this
  have hfab : ⌊a⌋ ≤ ⌊b⌋ := Int.floor_le_floor h3
  have hf1 : ⌊a⌋ + ⌊n * share w i⌋ ≤ ⌊b⌋ := by rw [hs']; exact Int.le_floor_add _ _
  have hf2 : ⌊b⌋ ≤ ⌊a⌋ + ⌊n * share w i⌋ + 1 := by rw [hs']; exact Int.le_floor_add_floor a (n * share w i) |> fun h => by linarith
  have hinj : Function.Injective (fun k : Fin n => (k.val : ℤ)) := fun x y h => Fin.ext (Int.ofNat_inj.1 h)
  have hcard : (offspring w 0 i : ℤ) = ((Finset.univ.filter fun k : Fin n => ancestors w 0 k = i.val).image
      (fun k : Fin n => (k.val : ℤ))).card := by
    rw [Finset.card_image_of_injective _ hinj]; rfl
  have hmem : ∀ k : Fin n, ancestors w 0 k = i.val ↔ (i.val = 0 ∨ ⌊a⌋ < k.val) ∧ (k.val : ℤ) ≤ ⌊b⌋ := by
    intro k
    rw [ancestors_eq_iff hw hs]
    simp only [add_zero, ← ha, ← hb, Int.floor_lt, Int.le_floor, Int.cast_natCast]
  have hle : ∀ lo hi : ℤ, lo ≤ hi + 1 → (((Finset.Icc lo hi).card : ℕ) : ℤ) = hi + 1 - lo := by
    intro lo hi h; rw [Int.card_Icc, Int.toNat_of_nonneg (by omega)]
  constructor
  · -- at least those strictly inside
    have hsub : Finset.Icc (⌊a⌋ + 1) (⌊b⌋ - 1) ⊆ (Finset.univ.filter fun k : Fin n => ancestors w 0 k = i.val).image
        (fun k : Fin n => (k.val : ℤ)) := by
      intro z hz
      rw [Finset.mem_Icc] at hz
      obtain ⟨m, rfl⟩ := Int.eq_ofNat_of_zero_le (show 0 ≤ z by omega)
      rw [Finset.mem_image]
      refine ⟨⟨m, by omega⟩, ?_, rfl⟩
      rw [Finset.mem_filter, hmem]
      exact ⟨Finset.mem_univ _, Or.inr (by simp only; omega), by simp only; omega⟩
    have := Finset.card_le_card hsub
    rw [hcard]
    by_cases hab : ⌊a⌋ + 1 ≤ ⌊b⌋
    · have := hle (⌊a⌋ + 1) (⌊b⌋ - 1) (by omega)
      omega
    · omega
  · rw [hcard]
    by_cases hi : i.val = 0
    · have ha0 : ⌊a⌋ = 0 := by rw [ha, hi, prefixSum_zero, zero_div, mul_zero, Int.floor_zero]
      have hb' : b = n * share w i := by
        rw [hs', ha, hi, prefixSum_zero, zero_div, mul_zero, zero_add]
      have hsub : (Finset.univ.filter fun k : Fin n => ancestors w 0 k = i.val).image
        (fun k : Fin n => (k.val : ℤ)) ⊆ Finset.Icc 0 ⌊b⌋ := by
        intro z hz
        rw [Finset.mem_image] at hz
        obtain ⟨k, hk, rfl⟩ := hz
        rw [Finset.mem_filter, hmem] at hk
        rw [Finset.mem_Icc]
        exact ⟨by omega, hk.2.2⟩
      have := Finset.card_le_card hsub
      have := hle 0 ⌊b⌋ (by omega)
      rw [hb'] at *
      omega
    · have hsub : (Finset.univ.filter fun k : Fin n => ancestors w 0 k = i.val).image
        (fun k : Fin n => (k.val : ℤ)) ⊆ Finset.Icc (⌊a⌋ + 1) ⌊b⌋ := by
        intro z hz
        rw [Finset.mem_image] at hz
        obtain ⟨k, hk, rfl⟩ := hz
        rw [Finset.mem_filter, hmem] at hk
        rw [Finset.mem_Icc]
        have := hk.2.1.resolve_left hi
        exact ⟨by omega, hk.2.2⟩
      have := Finset.card_le_card hsub
      have := hle (⌊a⌋ + 1) ⌊b⌋ (by omega)
      omega

theorem share_equal (w : Fin n → K) (he : ∀ i j, w i = w j) (hs : 0 < ∑ i, w i) (i : Fin n) : n * share w i = 1 := by
  have : ∑ j, w j = n * w i := by
    rw [Finset.sum_congr rfl (fun j _ => he j i)]; simp
  rw [share, this]
  rw [this] at hs
  field_simp
  exact div_self hs.ne'

/-- C21. Equal weights and an offset other than 0: every particle is kept once. -/
theorem C21_equal_weights (w : Fin n → K) (he : ∀ i j, w i = w j) (hw : ∀ i, 0 ≤ w i) (hs : 0 < ∑ i, w i) (u : K)
    (hu0 : 0 < u) (hu : u < 1) (i : Fin n) : offspring w u i = 1 := by
  have h := C21_offspring w hw hs u hu0 hu i
  rw [share_equal w he hs] at h
  simp only [Int.floor_one, Int.ceil_one] at h
  omega

end

/-- C21. Equal weights and offset exactly 0: particle 0 is kept twice and the last one is lost. -/
theorem C21_equal_weights_offset_zero (w : Fin n → K) (he : ∀ i j, w i = w j) (hw : ∀ i, 0 ≤ w i) (hs : 0 < ∑ i, w i)
    (hn : 2 ≤ n) : offspring w 0 0 = 2 ∧ offspring w 0 ⟨n - 1, by omega⟩ = 0 := by
  have hpre : ∀ m : Nat, m ≤ n → (n : K) * (prefixSum w m / ∑ j, w j) = m := by
    intro m hm
    induction m with
    | zero => simp [prefixSum_zero]
    | succ m ih =>
      have := prefixSum_succ w ⟨m, by omega⟩
      simp only at this
      rw [this, add_div, mul_add, ih (by omega)]
      have h1 : (n : K) * (w ⟨m, by omega⟩ / ∑ j, w j) = 1 := by
        have h2 : ∑ j, w j = n * w ⟨m, by omega⟩ := by
          rw [Finset.sum_congr rfl (fun j _ => he j ⟨m, by omega⟩)]; simp
        rw [h2]
        rw [h2] at hs
        rw [← mul_div_assoc]
        exact div_self hs.ne'
      rw [h1]; push_cast; ring
  have hmem : ∀ k i : Fin n, ancestors w 0 k = i.val ↔ (i.val = 0 ∨ i.val < k.val) ∧ k.val ≤ i.val + 1 := by
    intro k i
    rw [ancestors_eq_iff hw hs, hpre _ (by omega), hpre _ (by omega), add_zero]
    norm_cast
  have hz : (0 : Fin n).val = 0 := by simp
  constructor
  · have : (Finset.univ.filter fun k : Fin n => ancestors w 0 k = (0 : Fin n).val) =
        {⟨0, by omega⟩, ⟨1, by omega⟩} := by
      ext k
      rw [Finset.mem_filter, hmem, hz]
      simp only [Finset.mem_univ, true_and, Finset.mem_insert, Finset.mem_singleton, Fin.ext_iff]
      simp only [true_or, true_and]; omega
    rw [offspring, this, Finset.card_pair]
    simp
  · rw [offspring, Finset.card_eq_zero, Finset.filter_eq_empty_iff]
    intro k _
    rw [hmem]
    simp only
    omega

/-- C22. A particle of weight zero is not selected, unless it is particle 0 and the offset is 0. -/
theorem C22_zero_weight (w : Fin n → K) (hw : ∀ i, 0 ≤ w i) (hs : 0 < ∑ i, w i) (u : K) (hu0 : 0 ≤ u) (i : Fin n)
    (hi : w i = 0) (hx : i ≠ 0 ∨ u ≠ 0) (k : Fin n) : ancestors w u k ≠ i.val := by
  intro h
  rw [ancestors_eq_iff hw hs, prefixSum_succ, hi, add_zero] at h
  obtain ⟨h1, h2⟩ := h
  rcases h1 with h1 | h1
  · have hu : 0 < u := lt_of_le_of_ne hu0 (Ne.symm (hx.resolve_left (by simp [Fin.ext_iff, h1])))
    rw [h1, prefixSum_zero, zero_div, mul_zero] at h2
    have : (0 : K) ≤ k.val := Nat.cast_nonneg _
    linarith
  · exact absurd h1 (not_lt.2 h2)

/-- C22. The exception is real: at offset 0 the first slot always gets particle 0, whatever its weight. -/
theorem C22_exception (w : Fin n → K) (hw : ∀ i, 0 ≤ w i) (hs : 0 < ∑ i, w i) : ancestors w 0 (0 : Fin n) = 0 := by
  have := (ancestors_eq_iff hw hs 0 (0 : Fin n) 0).2 ⟨Or.inl (by simp), ?_⟩
  · simpa using this
  · have := window_bounds hw hs (0 : Fin n)
    simp only [Fin.val_zero, Nat.cast_zero, zero_add] at this ⊢
    exact le_trans this.1 this.2.2

/-- C22: with weights 0, 1, 0, 1 particles 0 and 2 die, but at offset 0 particle 0 survives. -/
example : let w : Fin 4 → ℚ := ![0, 1, 0, 1]
    (∀ i, 0 ≤ w i) ∧ 0 < ∑ i, w i ∧ (List.finRange 4).map (ancestors w (1 / 2)) = [1, 1, 3, 3] ∧
      (List.finRange 4).map (ancestors w 0) = [0, 1, 1, 3] := by
  intro w
  refine ⟨by decide, by decide +kernel, by decide +kernel, by decide +kernel⟩

end Verif
