import Verif.Props.Unbiased
import Verif.Props.ResampleWeights
/-
C84. How far systematic resampling moves an average, whatever the offset.
-/
namespace Verif
open Spec
variable {n : Nat} [NeZero n]

/-- The slots that get one of the first `m` particles. -/
noncomputable def Spec.firstSlots (w : Fin n → ℝ) (u : ℝ) (m : Nat) : Nat := (Finset.univ.filter fun k : Fin n => ancestors w u k < m).card

/-- The change of a function along the particles. -/
noncomputable def Spec.variation (f : Fin n → ℝ) : ℝ := ∑ m : Fin n, if h : m.val + 1 < n then |f ⟨m.val + 1, h⟩ - f m| else 0

omit [NeZero n] in
theorem count_steps {x u : ℝ} (hx : 0 ≤ x) (hxn : x ≤ n) (hu0 : 0 ≤ u) (hu : u < 1) :
    |((Finset.univ.filter fun k : Fin n => (k.val : ℝ) + u ≤ x).card : ℝ) - x| ≤ 1 := by
  have hup : (Finset.univ.filter fun k : Fin n => (k.val : ℝ) + u ≤ x).card ≤ ⌊x⌋₊ + 1 := by
    have h : ((Finset.univ.filter fun k : Fin n => (k.val : ℝ) + u ≤ x).image fun k : Fin n => k.val) ⊆ Finset.range (⌊x⌋₊ + 1) := by
      intro m hm
      obtain ⟨k, hk, rfl⟩ := Finset.mem_image.1 hm
      have := (Finset.mem_filter.1 hk).2
      exact Finset.mem_range.2 (Nat.lt_succ_of_le (Nat.le_floor (by linarith)))
    have := Finset.card_le_card h
    rwa [Finset.card_image_of_injective _ Fin.val_injective, Finset.card_range] at this
  have hfn : ⌊x⌋₊ ≤ n := by
    have := Nat.floor_le hx
    exact_mod_cast this.trans hxn
  have hlo : ⌊x⌋₊ ≤ (Finset.univ.filter fun k : Fin n => (k.val : ℝ) + u ≤ x).card := by
    have h : Finset.range ⌊x⌋₊ ⊆ (Finset.univ.filter fun k : Fin n => (k.val : ℝ) + u ≤ x).image fun k : Fin n => k.val := by
      intro m hm
      have hm := Finset.mem_range.1 hm
      refine Finset.mem_image.2 ⟨⟨m, by omega⟩, Finset.mem_filter.2 ⟨Finset.mem_univ _, ?_⟩, rfl⟩
      have h1 : ((m + 1 : ℕ) : ℝ) ≤ x := (Nat.cast_le.2 hm).trans (Nat.floor_le hx)
      push_cast at h1
      show (m : ℝ) + u ≤ x
      linarith
    have := Finset.card_le_card h
    rwa [Finset.card_image_of_injective _ Fin.val_injective, Finset.card_range] at this
  have h1 : ((Finset.univ.filter fun k : Fin n => (k.val : ℝ) + u ≤ x).card : ℝ) ≤ (⌊x⌋₊ : ℝ) + 1 := by exact_mod_cast hup
  have h2 : (⌊x⌋₊ : ℝ) ≤ (Finset.univ.filter fun k : Fin n => (k.val : ℝ) + u ≤ x).card := by exact_mod_cast hlo
  have h3 := Nat.floor_le hx
  have h4 := Nat.lt_floor_add_one x
  rw [abs_le]
  constructor <;> linarith

/-- C84. Of the slots, the first `m` particles get their share up to one slot. -/
theorem C84_first (w : Fin n → ℝ) (hw : ∀ i, 0 ≤ w i) (hs : 0 < ∑ i, w i) (u : ℝ) (hu0 : 0 ≤ u) (hu : u < 1) (m : Nat) (hm : m ≤ n) :
    |(firstSlots w u m : ℝ) - n * ∑ i : Fin n, if i.val < m then share w i else 0| ≤ 1 := by
  have hshare : (∑ i : Fin n, if i.val < m then share w i else 0) = prefixSum w m / ∑ j, w j := by
    rw [← Finset.sum_filter, prefixSum, Finset.sum_div]
    rfl
  rw [hshare]
  rcases Nat.eq_zero_or_pos m with rfl | hpos
  · simp [firstSlots, prefixSum_zero]
  have hn : (0 : ℝ) ≤ n := Nat.cast_nonneg n
  have hmono : ∀ a b : Nat, a ≤ b → (n : ℝ) * (prefixSum w a / ∑ j, w j) ≤ n * (prefixSum w b / ∑ j, w j) := fun a b h =>
    mul_le_mul_of_nonneg_left (div_le_div_of_nonneg_right (prefixSum_mono hw h) hs.le) hn
  have e : firstSlots w u m = (Finset.univ.filter fun k : Fin n => (k.val : ℝ) + u ≤ n * (prefixSum w m / ∑ j, w j)).card := by
    unfold firstSlots
    congr 1
    ext k
    simp only [Finset.mem_filter, Finset.mem_univ, true_and]
    have h := (ancestors_eq_iff hw hs u k ⟨ancestors w u k, ancestors_lt hw hs hu.le k⟩).1 rfl
    constructor
    · intro hlt
      exact h.2.trans (hmono _ _ hlt)
    · intro hle
      by_contra hge
      rw [not_lt] at hge
      rcases h.1 with h0 | h0
      · simp only at h0; omega
      · exact absurd (hle.trans (hmono _ _ hge)) (not_le.2 h0)
  rw [e]
  refine count_steps ?_ ?_ hu0 hu
  · have := hmono 0 m (Nat.zero_le _)
    rwa [prefixSum_zero, zero_div, mul_zero] at this
  · have := hmono m n hm
    rwa [prefixSum_n, div_self hs.ne', mul_one] at this

/-- A function along its changes. -/
theorem telescope (f : Fin n → ℝ) (i : Fin n) :
    f i = f 0 + ∑ m : Fin n, if h : m.val + 1 < n then (if m.val < i.val then f ⟨m.val + 1, h⟩ - f m else 0) else 0 := by
  obtain ⟨i, hi⟩ := i
  induction i with
  | zero => simp
  | succ i ih =>
    have := ih (by omega)
    have e : (∑ m : Fin n, if h : m.val + 1 < n then (if m.val < i + 1 then f ⟨m.val + 1, h⟩ - f m else 0) else 0) =
        (∑ m : Fin n, if h : m.val + 1 < n then (if m.val < i then f ⟨m.val + 1, h⟩ - f m else 0) else 0) + (f ⟨i + 1, hi⟩ - f ⟨i, by omega⟩) := by
      rw [← Finset.sum_erase_add _ _ (Finset.mem_univ (⟨i, by omega⟩ : Fin n)),
        ← Finset.sum_erase_add _ (fun m : Fin n => if h : m.val + 1 < n then (if m.val < i then f ⟨m.val + 1, h⟩ - f m else 0) else 0)
          (Finset.mem_univ (⟨i, by omega⟩ : Fin n))]
      simp only [dif_pos hi, if_pos (Nat.lt_succ_self i), if_neg (Nat.lt_irrefl i), add_zero]
      congr 1
      refine Finset.sum_congr rfl fun m hm => ?_
      have hne : m.val ≠ i := fun h => (Finset.mem_erase.1 hm).1 (Fin.ext h)
      by_cases h : m.val + 1 < n
      · simp only [dif_pos h]
        by_cases h2 : m.val < i
        · rw [if_pos h2, if_pos (by omega)]
        · rw [if_neg h2, if_neg (by omega)]
      · simp only [dif_neg h]
    simp only at this ⊢
    rw [e]
    linarith

/-- C84. Whatever the offset, the average over the slots differs from the weighted average by at most the function's variation along the
particles, divided by the number of particles. -/
theorem C84_average (w : Fin n → ℝ) (hw : ∀ i, 0 ≤ w i) (hs : 0 < ∑ i, w i) (u : ℝ) (hu0 : 0 ≤ u) (hu : u < 1) (f : Fin n → ℝ) :
    |(1 / n : ℝ) * ∑ k : Fin n, f ⟨ancestors w u k, ancestors_lt hw hs hu.le k⟩ - ∑ i, share w i * f i| ≤ variation f / n := by
  have hn : (0 : ℝ) < n := by exact_mod_cast Nat.pos_of_ne_zero (NeZero.ne n)
  have hshare : ∑ i, share w i = 1 := by
    unfold share
    rw [← Finset.sum_div, div_self hs.ne']
  let Δ : Fin n → ℝ := fun m => if h : m.val + 1 < n then f ⟨m.val + 1, h⟩ - f m else 0
  have tel : ∀ i : Fin n, f i = f 0 + ∑ m : Fin n, if m.val < i.val then Δ m else 0 := by
    intro i
    rw [telescope f i]
    congr 1
    refine Finset.sum_congr rfl fun m _ => ?_
    by_cases h : m.val + 1 < n
    · simp only [Δ, dif_pos h]
    · simp only [Δ, dif_neg h, ite_self]
  have e1 : ∑ k : Fin n, f ⟨ancestors w u k, ancestors_lt hw hs hu.le k⟩ = n * f 0 + ∑ m : Fin n, (n - (firstSlots w u (m.val + 1) : ℝ)) * Δ m := by
    simp only [tel ⟨ancestors w u _, _⟩]
    rw [Finset.sum_add_distrib, Finset.sum_const, Finset.card_univ, Fintype.card_fin, nsmul_eq_mul, Finset.sum_comm]
    congr 1
    refine Finset.sum_congr rfl fun m _ => ?_
    rw [← Finset.sum_filter, Finset.sum_const, nsmul_eq_mul]
    congr 1
    have h := Finset.card_filter_add_card_filter_not (s := (Finset.univ : Finset (Fin n))) (fun k : Fin n => ancestors w u k < m.val + 1)
    rw [Finset.card_univ, Fintype.card_fin] at h
    have h2 : (Finset.univ.filter fun k : Fin n => m.val < ancestors w u k) = Finset.univ.filter fun k : Fin n => ¬ ancestors w u k < m.val + 1 := by
      ext k
      simp only [Finset.mem_filter, Finset.mem_univ, true_and]
      omega
    rw [h2]
    unfold firstSlots
    rw [eq_sub_iff_add_eq, add_comm]
    exact_mod_cast h
  have e2 : ∑ i, share w i * f i = f 0 + ∑ m : Fin n, (1 - ∑ i : Fin n, if i.val < m.val + 1 then share w i else 0) * Δ m := by
    have : ∀ i, share w i * f i = share w i * f 0 + ∑ m : Fin n, (if m.val < i.val then share w i else 0) * Δ m := by
      intro i
      conv_lhs => rw [tel i, mul_add, Finset.mul_sum]
      congr 1
      refine Finset.sum_congr rfl fun m _ => ?_
      split_ifs <;> simp
    simp only [this]
    rw [Finset.sum_add_distrib, ← Finset.sum_mul, hshare, one_mul, Finset.sum_comm]
    congr 1
    refine Finset.sum_congr rfl fun m _ => ?_
    rw [← Finset.sum_mul]
    congr 1
    rw [eq_sub_iff_add_eq, ← Finset.sum_add_distrib, ← hshare]
    refine Finset.sum_congr rfl fun i _ => ?_
    by_cases h : m.val < i.val
    · rw [if_pos h, if_neg (by omega), add_zero]
    · rw [if_neg h, if_pos (by omega), zero_add]
  have e3 : (1 / n : ℝ) * ∑ k : Fin n, f ⟨ancestors w u k, ancestors_lt hw hs hu.le k⟩ - ∑ i, share w i * f i =
      (∑ m : Fin n, (n * (∑ i : Fin n, if i.val < m.val + 1 then share w i else 0) - (firstSlots w u (m.val + 1) : ℝ)) * Δ m) / n := by
    rw [e1, e2, Finset.sum_div, mul_add, ← mul_assoc, one_div, inv_mul_cancel₀ hn.ne', one_mul, Finset.mul_sum, add_sub_add_left_eq_sub,
      ← Finset.sum_sub_distrib]
    refine Finset.sum_congr rfl fun m _ => ?_
    field_simp
    ring
  rw [e3, abs_div, abs_of_pos hn]
  refine div_le_div_of_nonneg_right ((Finset.abs_sum_le_sum_abs _ _).trans (Finset.sum_le_sum fun m _ => ?_)) hn.le
  rw [abs_mul, abs_sub_comm]
  by_cases h : m.val + 1 < n
  · simp only [Δ, dif_pos h]
    exact mul_le_of_le_one_left (abs_nonneg _) (C84_first w hw hs u hu0 hu _ h.le)
  · simp only [Δ, dif_neg h, abs_zero, mul_zero, le_refl]

/-- C84. If the function does not decrease along the particles, the averages differ by at most its range over the number of particles. -/
theorem C84_sorted (w : Fin n → ℝ) (hw : ∀ i, 0 ≤ w i) (hs : 0 < ∑ i, w i) (u : ℝ) (hu0 : 0 ≤ u) (hu : u < 1) (f : Fin n → ℝ) (hf : Monotone f) :
    |(1 / n : ℝ) * ∑ k : Fin n, f ⟨ancestors w u k, ancestors_lt hw hs hu.le k⟩ - ∑ i, share w i * f i| ≤
      (f ⟨n - 1, Nat.sub_lt (Nat.pos_of_ne_zero (NeZero.ne n)) one_pos⟩ - f 0) / n := by
  refine (C84_average w hw hs u hu0 hu f).trans (le_of_eq ?_)
  congr 1
  rw [telescope f ⟨n - 1, _⟩, add_sub_cancel_left]
  unfold variation
  refine Finset.sum_congr rfl fun m _ => ?_
  by_cases h : m.val + 1 < n
  · simp only [dif_pos h]
    rw [if_pos (by omega), abs_of_nonneg (sub_nonneg.2 (hf (Fin.le_def.2 (Nat.le_succ _))))]
  · simp only [dif_neg h]

variable {b : Nat} {X D : Type} {lp : D → (Fin n → Fin b → X) → Fin n → Fin b → ℝ}

/-- C84. The weighted average of a function of one particle's variables, after `Systematic` with any offsets, differs from the one before by at
most the evidence estimate times the function's variation along the particles, over their number. -/
theorem C84_particles (t t' : Trace (TLang n b X D lp)) (lv lw' : Fin n → Fin b → ℝ) (u : Fin b → Set.Ico (0 : ℝ) 1) (j : Fin b)
    (h : systematicAt false t lv u = .ok (t', .tensor lw')) (g : (String → Option X) → ℝ) :
    |(1 / n : ℝ) * ∑ s, Real.exp (lw' s j) * g (particle t' s j) - (1 / n : ℝ) * ∑ i, Real.exp (lv i j) * g (particle t i j)| ≤
      ((1 / n : ℝ) * ∑ i, Real.exp (lv i j)) * (variation (fun i => g (particle t i j)) / n) := by
  obtain ⟨a, h1, h2, h3⟩ := systematicAt_ok false t t' lv _ _ h
  have h2 := sameAddrs_of_forall₂ h2
  cases h3
  have hn : (n : ℝ) ≠ 0 := (n_pos (n := n)).ne'
  have hS : (0 : ℝ) < ∑ i, Real.exp (lv i j) := sum_exp_pos fun i => lv i j
  set w : Fin n → ℝ := softmax fun i => lv i j with hw
  have key := C84_average w (softmax_hyps _).1 (softmax_hyps _).2 (u j).1 (u j).2.1 (u j).2.2 fun i => g (particle t i j)
  have e1 : ∀ s, g (particle t' s j) = g (particle t ⟨ancestors w (u j).1 s, ancestors_lt (softmax_hyps _).1 (softmax_hyps _).2 (u j).2.2.le s⟩ j) := by
    intro s
    rw [particle_moved h2]
    congr 2
    exact Fin.ext (h1 s j)
  have e2 : ∀ s, Real.exp (resampledLw false (fun i => lv i j) s) = (1 / n : ℝ) * ∑ i, Real.exp (lv i j) := by
    intro s
    rw [resampledLw_eq, logZHat, Real.exp_log (zHat_pos _), zHat]
    ring
  have e3 : ∀ i, share w i = Real.exp (lv i j) / ∑ l, Real.exp (lv l j) := by
    intro i
    unfold share
    rw [hw, softmax_sum, div_one, softmax]
  simp only [e3] at key
  simp only [e1, e2]
  have e4 : (1 / n : ℝ) * ∑ i, Real.exp (lv i j) * g (particle t i j) =
      ((1 / n : ℝ) * ∑ i, Real.exp (lv i j)) * ∑ i, Real.exp (lv i j) / (∑ l, Real.exp (lv l j)) * g (particle t i j) := by
    rw [mul_assoc, Finset.mul_sum Finset.univ _ (∑ i, Real.exp (lv i j))]
    congr 1
    refine Finset.sum_congr rfl fun i _ => ?_
    field_simp
  rw [e4, ← Finset.mul_sum, mul_left_comm, ← mul_sub, abs_mul, abs_of_pos (mul_pos (one_div_pos.2 (n_pos (n := n))) hS)]
  exact mul_le_mul_of_nonneg_left key (mul_pos (one_div_pos.2 (n_pos (n := n))) hS).le

/-- Weights 1 and 3 in turn. -/
noncomputable def turns (n : Nat) (i : Fin n) : ℝ := if i.val % 2 = 0 then 1 else 3

omit [NeZero n] in
theorem prefixSum_turns (i : Nat) (hi : i ≤ n) : prefixSum (turns n) i = 2 * i - if i % 2 = 0 then 0 else 1 := by
  induction i with
  | zero => simp [prefixSum_zero]
  | succ i ih =>
    have := prefixSum_succ (turns n) ⟨i, hi⟩
    simp only at this
    rw [this, ih (by omega)]
    unfold turns
    rcases Nat.mod_two_eq_zero_or_one i with h | h
    · have h' : (i + 1) % 2 = 1 := by omega
      simp only [h, h']
      push_cast
      norm_num
      ring
    · have h' : (i + 1) % 2 = 0 := by omega
      simp only [h, h']
      push_cast
      norm_num
      ring

/-- C84. The error need not vanish with the number of particles: with weights 1 and 3 in turn, the share of the slots that particles of weight 1
get is 1/2 if the offset is at most 1/2 and 0 otherwise, for every number of particles; their share of the weight is 1/4. -/
theorem C84_noise (m : Nat) (hm : 0 < m) : haveI : NeZero (2 * m) := ⟨by omega⟩
    (∀ u : ℝ, 0 < u → u < 1 → (1 / (2 * m : ℕ) : ℝ) * ((Finset.univ.filter fun k : Fin (2 * m) => ancestors (turns (2 * m)) u k % 2 = 0).card : ℝ) =
      if u ≤ 1 / 2 then 1 / 2 else 0) ∧
    (∑ i : Fin (2 * m), if i.val % 2 = 0 then share (turns (2 * m)) i else 0) = 1 / 4 := by
  have : NeZero (2 * m) := ⟨by omega⟩
  have hm0 : (0 : ℝ) < m := by exact_mod_cast hm
  have hpos : ∀ i, 0 ≤ turns (2 * m) i := fun i => by unfold turns; split_ifs <;> norm_num
  have htot : ∑ i, turns (2 * m) i = 4 * m := by
    have := prefixSum_turns (n := 2 * m) (2 * m) le_rfl
    rw [prefixSum_n] at this
    rw [this, Nat.mul_mod_right, if_pos rfl]
    push_cast
    ring
  have hs : 0 < ∑ i, turns (2 * m) i := by rw [htot]; positivity
  have hpre : ∀ i, i ≤ 2 * m → ((2 * m : ℕ) : ℝ) * (prefixSum (turns (2 * m)) i / ∑ j, turns (2 * m) j) = i - if i % 2 = 0 then 0 else 1 / 2 := by
    intro i hi
    rw [prefixSum_turns i hi, htot]
    push_cast
    split_ifs <;> field_simp <;> ring
  have hcard : (Finset.univ.filter fun k : Fin (2 * m) => k.val % 2 = 0).card = m := by
    have h : (Finset.univ.filter fun k : Fin (2 * m) => k.val % 2 = 0) = (Finset.univ : Finset (Fin m)).image fun l : Fin m => (⟨2 * l.val, by omega⟩ : Fin (2 * m)) := by
      ext k
      simp only [Finset.mem_filter, Finset.mem_univ, true_and, Finset.mem_image]
      constructor
      · intro h
        exact ⟨⟨k.val / 2, by omega⟩, Fin.ext (by simp only; omega)⟩
      · rintro ⟨l, rfl⟩
        simp
    rw [h, Finset.card_image_of_injective, Finset.card_univ, Fintype.card_fin]
    intro a c hac
    have := congrArg Fin.val hac
    simp only at this
    exact Fin.ext (by omega)
  constructor
  · intro u hu0 hu
    have hanc : ∀ k : Fin (2 * m), ancestors (turns (2 * m)) u k % 2 = 0 ↔ k.val % 2 = 0 ∧ u ≤ 1 / 2 := by
      intro k
      rcases Nat.mod_two_eq_zero_or_one k.val with h | h
      · by_cases hh : u ≤ 1 / 2
        · have : ancestors (turns (2 * m)) u k = k.val := by
            rw [ancestors_eq_iff hpos hs, hpre _ k.2.le, hpre _ k.2, if_pos h, if_neg (by omega)]
            push_cast
            exact ⟨Or.inr (by linarith), by linarith⟩
          rw [this]
          exact ⟨fun e => ⟨e, hh⟩, fun e => e.1⟩
        · have hk : k.val + 1 < 2 * m := by have := k.2; omega
          have : ancestors (turns (2 * m)) u k = (⟨k.val + 1, hk⟩ : Fin (2 * m)).val := by
            rw [ancestors_eq_iff hpos hs, hpre _ hk.le, hpre _ hk, if_neg (by omega), if_pos (by omega)]
            push_cast
            rw [not_le] at hh
            exact ⟨Or.inr (by linarith), by linarith⟩
          rw [this]
          exact ⟨fun e => absurd e (by simp only; omega), fun e => absurd e.2 hh⟩
      · have : ancestors (turns (2 * m)) u k = k.val := by
          rw [ancestors_eq_iff hpos hs, hpre _ k.2.le, hpre _ k.2, if_neg (by omega), if_pos (by omega)]
          push_cast
          exact ⟨Or.inr (by linarith), by linarith⟩
        rw [this]
        exact ⟨fun e => by omega, fun e => by omega⟩
    simp only [hanc]
    by_cases hh : u ≤ 1 / 2
    · simp only [hh, and_true, hcard, if_true]
      push_cast
      field_simp
    · simp only [hh, and_false, if_false, Finset.filter_false, Finset.card_empty, Nat.cast_zero, mul_zero]
  · have : ∀ i : Fin (2 * m), (if i.val % 2 = 0 then share (turns (2 * m)) i else 0) = if i.val % 2 = 0 then 1 / (4 * m : ℝ) else 0 := by
      intro i
      by_cases h : i.val % 2 = 0
      · rw [if_pos h, if_pos h, share, htot, turns, if_pos h]
      · rw [if_neg h, if_neg h]
    simp only [this]
    rw [← Finset.sum_filter, Finset.sum_const, hcard, nsmul_eq_mul]
    field_simp

theorem four_nonneg : ∀ i, 0 ≤ (![1, 2, 3, 2] : Fin 4 → ℝ) i := by intro i; fin_cases i <;> norm_num

theorem four_pos : 0 < ∑ i, (![1, 2, 3, 2] : Fin 4 → ℝ) i := by simp [Fin.sum_univ_four]; norm_num

/-- Four particles sorted by their value, with weights 1, 2, 3, 2: at most 3/4 off, whatever the offset. -/
example (u : ℝ) (hu0 : 0 ≤ u) (hu : u < 1) :
    |(1 / (4 : ℕ) : ℝ) * ∑ k : Fin 4, (![0, 1, 2, 3] : Fin 4 → ℝ) ⟨ancestors ![1, 2, 3, 2] u k, ancestors_lt four_nonneg four_pos hu.le k⟩ - 7 / 4| ≤ 3 / 4 := by
  have h := C84_sorted (![1, 2, 3, 2] : Fin 4 → ℝ) four_nonneg four_pos u hu0 hu ![0, 1, 2, 3] (by
    intro i j hij
    fin_cases i <;> fin_cases j <;> first | (simp at hij; done) | norm_num)
  have e : ∑ i, share (![1, 2, 3, 2] : Fin 4 → ℝ) i * (![0, 1, 2, 3] : Fin 4 → ℝ) i = 7 / 4 := by
    simp [share, Fin.sum_univ_four]
    norm_num
  rw [e] at h
  refine h.trans (le_of_eq ?_)
  norm_num

end Verif
