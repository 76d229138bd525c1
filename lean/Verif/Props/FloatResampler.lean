import Verif.Proofs.Ieee
/-
C88: systematic resampling in floating-point arithmetic.
-/
namespace Verif
namespace Fp
open Finset

section
variable {A B : Arith} {n : Nat}

/-- C88. In floating-point arithmetic, with log weights that are finite or negative infinity and not all negative infinity: every slot gets the index of a
particle, in order, and none with log weight negative infinity; except that the first slot can get particle 0 if its step is 0. -/
theorem C88_in_range (hA : A.Ok n) (hB : B.Ok n) (hAB : B.rd = A.rd) (hn : 0 < n) (t : SumTree) (ht : t.leaves.Perm (List.range n)) (lw : Nat → Num)
    (hlw : ∀ i, i < n → lw i ≠ .nan ∧ lw i ≠ .pinf) (hfin : ∃ i x, i < n ∧ lw i = .fin x) (u : ℝ) (h0 : 0 ≤ u) (h1 : u ≤ 1) :
    ∃ a : Nat → Nat, ancestors A B t lw n u = .ok ((List.range n).map a) ∧ (∀ k, k < n → a k < n) ∧ (∀ k k', k ≤ k' → k' < n → a k ≤ a k') ∧
      ∀ k, k < n → lw (a k) ≠ .ninf ∨ (k = 0 ∧ a k = 0 ∧ ustep A n u 0 = 0) := by
  obtain ⟨w, hw, w0, wr, wninf, w1, wpos⟩ := softmax_ok hB t ht lw hlw hfin
  obtain ⟨c, hc, cmono, clast, c0, cz, cs⟩ := ncsum_ok hA hn w w0 w1 (fun i => hAB ▸ wr i) wpos (softmax B t lw n) hw
  obtain ⟨u0, u1, umono, upos⟩ := ustep_ok hA hn u h0 h1
  have key : ∀ k, k < n → ancestor A B t lw n u k < n ∧ (∀ i, i < ancestor A B t lw n u k → c i < ustep A n u k) ∧
      ∀ i, ancestor A B t lw n u k ≤ i → i < n → ustep A n u k ≤ c i :=
    ancestor_ok hA hn t lw c hc cmono clast u h0 h1
  refine ⟨ancestor A B t lw n u, ?_, fun k hk => (key k hk).1, fun k k' hkk hk' => ?_, fun k hk => ?_⟩
  · unfold ancestors
    refine if_pos fun i hi => ?_
    obtain ⟨k, hk, rfl⟩ := List.mem_map.1 hi
    exact (key k (List.mem_range.1 hk)).1
  · by_contra hcon
    have hlt := not_le.1 hcon
    have a1 := (key k (by omega)).2.1 _ hlt
    have a2 := (key k' hk').2.2 _ le_rfl (key k' hk').1
    linarith [umono k k' hkk]
  · by_cases hl : lw (ancestor A B t lw n u k) = .ninf
    · right
      have hk1 := (key k hk).1
      have hz := wninf _ hk1 hl
      have hge := (key k hk).2.2 _ le_rfl hk1
      cases ha : ancestor A B t lw n u k with
      | zero =>
        rw [ha] at hge hz
        rw [cz hz] at hge
        have hu := le_antisymm hge (u0 k)
        have hk0 : k = 0 := by
          by_contra hne
          exact absurd hu (upos k (by omega) hk).ne'
        subst hk0
        exact ⟨rfl, rfl, hu⟩
      | succ i =>
        exfalso
        rw [ha] at hge hz hk1
        rw [cs i hk1 hz] at hge
        exact absurd hge (not_le.2 ((key k hk).2.1 i (by omega)))
    · exact .inl hl

/-- C88. With a log weight that is NaN or positive infinity, or with all of them negative infinity, resampling raises RuntimeError, whatever the offset. -/
theorem C88_raises (hn : 0 < n) (t : SumTree) (ht : t.leaves.Perm (List.range n)) (lw : Nat → Num)
    (h : (∃ i, i < n ∧ (lw i = .nan ∨ lw i = .pinf)) ∨ ∀ i, i < n → lw i = .ninf) (u : ℝ) : ancestors A B t lw n u = .error .runtime := by
  have hw := softmax_nan (A := B) hn t ht lw h
  have hc : ∀ i, cumAcc A (softmax B t lw n) i = .nan := by
    intro i
    cases i with
    | zero => exact hw 0
    | succ i =>
      show Num.add A _ (softmax B t lw n (i + 1)) = _
      rw [hw, Num.add_nan]
  have hnc : ∀ i, ncsum A (softmax B t lw n) n i = .nan := by
    intro i
    unfold ncsum
    rw [maxOf_nan (csum A (softmax B t lw n)) n 0 hn (by unfold csum; rw [hc]; rfl), Num.div_nan]
  have ha : ∀ k, ancestor A B t lw n u k = n := by
    intro k
    refine lowerBound_nan _ _ n 0 (Nat.zero_le n) fun i _ _ => ?_
    rw [hnc]
    rfl
  unfold ancestors
  refine if_neg fun hall => ?_
  have := hall (ancestor A B t lw n u 0) (List.mem_map.2 ⟨0, List.mem_range.2 hn, rfl⟩)
  rw [ha] at this
  exact lt_irrefl _ this

end

/-- The number of naturals in a half-open interval of reals. -/
theorem card_le_of_interval (x y : ℝ) (hxy : x ≤ y) (s : Finset Nat) (h : ∀ k ∈ s, x < k ∧ (k : ℝ) ≤ y) : (s.card : ℝ) ≤ y - x + 1 := by
  have hinj : Set.InjOn (fun k : Nat => (k : ℤ)) s := fun a _ b _ hab => Int.ofNat.inj hab
  have hsub : s.image (fun k : Nat => (k : ℤ)) ⊆ Finset.Ioc ⌊x⌋ ⌊y⌋ := by
    intro z hz
    obtain ⟨k, hk, rfl⟩ := Finset.mem_image.1 hz
    obtain ⟨h1, h2⟩ := h k hk
    rw [Finset.mem_Ioc]
    exact ⟨Int.floor_lt.2 (by exact_mod_cast h1), Int.le_floor.2 (by exact_mod_cast h2)⟩
  have hc := Finset.card_le_card hsub
  rw [Finset.card_image_of_injOn hinj, Int.card_Ioc] at hc
  have hf : ⌊x⌋ ≤ ⌊y⌋ := Int.floor_le_floor hxy
  have : (s.card : ℤ) ≤ ⌊y⌋ - ⌊x⌋ := by omega
  have h' : (s.card : ℝ) ≤ ⌊y⌋ - ⌊x⌋ := by exact_mod_cast this
  linarith [Int.floor_le y, Int.lt_floor_add_one x]

theorem card_le_of_le (y : ℝ) (hy : -1 ≤ y) (s : Finset Nat) (h : ∀ k ∈ s, (k : ℝ) ≤ y) : (s.card : ℝ) ≤ y + 1 := by
  have hinj : Set.InjOn (fun k : Nat => (k : ℤ)) s := fun a _ b _ hab => Int.ofNat.inj hab
  have hsub : s.image (fun k : Nat => (k : ℤ)) ⊆ Finset.Ioc (-1) ⌊y⌋ := by
    intro z hz
    obtain ⟨k, hk, rfl⟩ := Finset.mem_image.1 hz
    rw [Finset.mem_Ioc]
    exact ⟨by omega, Int.le_floor.2 (by exact_mod_cast h k hk)⟩
  have hc := Finset.card_le_card hsub
  rw [Finset.card_image_of_injOn hinj, Int.card_Ioc] at hc
  have hf : -1 ≤ ⌊y⌋ := Int.le_floor.2 (by exact_mod_cast hy)
  have : (s.card : ℤ) ≤ ⌊y⌋ + 1 := by omega
  have h' : (s.card : ℝ) ≤ ⌊y⌋ + 1 := by exact_mod_cast this
  linarith [Int.floor_le y]

theorem le_card_of_interval (x y : ℝ) (hx : -1 ≤ x) (s : Finset Nat) (h : ∀ k : Nat, x < k → (k : ℝ) < y → k ∈ s) : y - x - 1 ≤ s.card := by
  have hsub : Finset.Ioo ⌊x⌋ ⌈y⌉ ⊆ s.image (fun k : Nat => (k : ℤ)) := by
    intro z hz
    rw [Finset.mem_Ioo] at hz
    have h1 : x < z := Int.floor_lt.1 hz.1
    have h2 : (z : ℝ) < y := Int.lt_ceil.1 hz.2
    have h0 : 0 ≤ z := by
      have : (-1 : ℝ) < z := by linarith
      have : (-1 : ℤ) < z := by exact_mod_cast this
      omega
    obtain ⟨k, rfl⟩ := Int.eq_ofNat_of_zero_le h0
    exact Finset.mem_image.2 ⟨k, h k (by exact_mod_cast h1) (by exact_mod_cast h2), rfl⟩
  have hc := (Finset.card_le_card hsub).trans Finset.card_image_le
  rw [Int.card_Ioo] at hc
  have : ⌈y⌉ - ⌊x⌋ - 1 ≤ (s.card : ℤ) := by omega
  have h' : (⌈y⌉ - ⌊x⌋ - 1 : ℝ) ≤ s.card := by exact_mod_cast this
  linarith [Int.floor_le x, Int.le_ceil y]

/-- The errors of an arithmetic: relative errors at most `ε` and `ε'` for numbers from 1 on, absolute ones below. -/
structure Arith.Err (A : Arith) (ε ε' : ℝ) : Prop where
  rd : ∀ x, |A.rd x - x| ≤ ε * max |x| 1
  acc : ∀ x, |A.acc x - x| ≤ ε' * max |x| 1

theorem Arith.Err.rd_nonneg {A : Arith} {ε ε' : ℝ} (h : A.Err ε ε') (x : ℝ) (hx : 0 ≤ x) : |A.rd x - x| ≤ ε * max x 1 := by
  have := h.rd x
  rwa [abs_of_nonneg hx] at this

theorem Arith.Err.acc_nonneg {A : Arith} {ε ε' : ℝ} (h : A.Err ε ε') (x : ℝ) (hx : 0 ≤ x) : |A.acc x - x| ≤ ε' * max x 1 := by
  have := h.acc x
  rwa [abs_of_nonneg hx] at this

section
variable {A B : Arith} {n : Nat}

/-- The cumulated weights are close to those of the exact weights. -/
theorem ncsum_close (hA : A.Ok n) (hn : 0 < n) {ε ε' δ : ℝ} (hE : A.Err ε ε') (hε : 0 ≤ ε) (hε' : 0 ≤ ε') (w W : Nat → ℝ) (h0 : ∀ i, 0 ≤ w i) (h1 : ∀ i, w i ≤ 1)
    (hr : ∀ i, A.rd (w i) = w i) (hp : ∃ i, i < n ∧ 0 < w i) (hW0 : ∀ i, 0 ≤ W i) (hW : ∑ i ∈ range n, W i = 1) (hδ : ∑ i ∈ range n, |w i - W i| ≤ δ)
    (hsmall : δ + 2 * ε' * n + 2 * ε ≤ 1 / 2) (v : Nat → Num) (hv : ∀ i, i < n → v i = .fin (w i)) (i : Nat) (hi : i < n) :
    |A.rd (A.rd (accReal A w i) / A.rd (accReal A w (n - 1))) - ∑ j ∈ range (i + 1), W j| ≤ 4 * (δ + 2 * ε' * n + 2 * ε) + ε := by
  obtain ⟨heq, hmono, ha0, hpos⟩ := ncsum_eq hA hn w h0 h1 hr hp v hv
  have hnn : (0 : ℝ) ≤ n := Nat.cast_nonneg n
  have hδ0 : 0 ≤ δ := (Finset.sum_nonneg fun _ _ => abs_nonneg _).trans hδ
  -- partial sums of the weights
  have hC1 : ∀ i, i < n → ∑ j ∈ range (i + 1), W j ≤ 1 := fun i hi => by
    rw [← hW]
    exact Finset.sum_le_sum_of_subset_of_nonneg (Finset.range_mono (by omega)) fun _ _ _ => hW0 _
  have hC0 : ∀ i, 0 ≤ ∑ j ∈ range (i + 1), W j := fun i => Finset.sum_nonneg fun _ _ => hW0 _
  have hS : ∀ i, i < n → |∑ j ∈ range (i + 1), w j - ∑ j ∈ range (i + 1), W j| ≤ δ := fun i hi => by
    rw [← Finset.sum_sub_distrib]
    refine (Finset.abs_sum_le_sum_abs _ _).trans (le_trans ?_ hδ)
    exact Finset.sum_le_sum_of_subset_of_nonneg (Finset.range_mono (by omega)) fun _ _ _ => abs_nonneg _
  -- the accumulator
  have hacc : ∀ i, i < n → |accReal A w i - ∑ j ∈ range (i + 1), w j| ≤ 2 * ε' * i := by
    intro i
    induction i with
    | zero => intro _; simp [accReal]
    | succ i ih =>
      intro hi
      have h := ih (by omega)
      have hin : (i : ℝ) ≤ n := by exact_mod_cast (show i ≤ n by omega)
      have hb : 2 * ε' * i ≤ 2 * ε' * n := mul_le_mul_of_nonneg_left hin (by linarith)
      have hs := abs_le.1 (hS (i + 1) hi)
      have hle2 : accReal A w i + w (i + 1) ≤ 2 := by
        have := (abs_le.1 h).2
        rw [Finset.sum_range_succ] at hs
        linarith [hC1 (i + 1) hi, hs.2]
      have he := hE.acc_nonneg (accReal A w i + w (i + 1)) (add_nonneg (ha0 i) (h0 _))
      have hm : ε' * max (accReal A w i + w (i + 1)) 1 ≤ ε' * 2 := mul_le_mul_of_nonneg_left (max_le hle2 (by norm_num)) hε'
      show |A.acc (accReal A w i + w (i + 1)) - _| ≤ _
      rw [Finset.sum_range_succ]
      have : A.acc (accReal A w i + w (i + 1)) - (∑ j ∈ range (i + 1), w j + w (i + 1)) =
          (A.acc (accReal A w i + w (i + 1)) - (accReal A w i + w (i + 1))) + (accReal A w i - ∑ j ∈ range (i + 1), w j) := by ring
      rw [this]
      refine (abs_add_le _ _).trans ?_
      push_cast
      linarith
  -- `csum`
  have hcs : ∀ i, i < n → |A.rd (accReal A w i) - ∑ j ∈ range (i + 1), W j| ≤ δ + 2 * ε' * n + 2 * ε := by
    intro i hi
    have h := hacc i hi
    have hin : (i : ℝ) ≤ n := by exact_mod_cast hi.le
    have hb : 2 * ε' * i ≤ 2 * ε' * n := mul_le_mul_of_nonneg_left hin (by linarith)
    have hs := hS i hi
    have hle2 : accReal A w i ≤ 2 := by
      linarith [(abs_le.1 h).2, (abs_le.1 hs).2, hC1 i hi]
    have he := hE.rd_nonneg (accReal A w i) (ha0 i)
    have hm : ε * max (accReal A w i) 1 ≤ ε * 2 := mul_le_mul_of_nonneg_left (max_le hle2 (by norm_num)) hε
    have : A.rd (accReal A w i) - ∑ j ∈ range (i + 1), W j = (A.rd (accReal A w i) - accReal A w i) +
        ((accReal A w i - ∑ j ∈ range (i + 1), w j) + (∑ j ∈ range (i + 1), w j - ∑ j ∈ range (i + 1), W j)) := by ring
    rw [this]
    refine (abs_add_le _ _).trans ?_
    have := abs_add_le (accReal A w i - ∑ j ∈ range (i + 1), w j) (∑ j ∈ range (i + 1), w j - ∑ j ∈ range (i + 1), W j)
    linarith
  set E := δ + 2 * ε' * n + 2 * ε with hEdef
  have hE0 : 0 ≤ E := by positivity
  set M := A.rd (accReal A w (n - 1)) with hM
  have hM1 : |M - 1| ≤ E := by
    have := hcs (n - 1) (by omega)
    rwa [show n - 1 + 1 = n by omega, hW] at this
  have hMhalf : 1 / 2 ≤ M := by linarith [(abs_le.1 hM1).1]
  have hratio : |A.rd (accReal A w i) / M - ∑ j ∈ range (i + 1), W j| ≤ 4 * E := by
    have h : A.rd (accReal A w i) / M - ∑ j ∈ range (i + 1), W j =
        ((A.rd (accReal A w i) - ∑ j ∈ range (i + 1), W j) - (∑ j ∈ range (i + 1), W j) * (M - 1)) / M := by
      field_simp
      ring
    rw [h, abs_div, abs_of_pos hpos, div_le_iff₀ hpos]
    have h2 : |(∑ j ∈ range (i + 1), W j) * (M - 1)| ≤ E := by
      rw [abs_mul, abs_of_nonneg (hC0 i)]
      calc _ ≤ 1 * |M - 1| := mul_le_mul_of_nonneg_right (hC1 i hi) (abs_nonneg _)
        _ ≤ E := by linarith
    have h3 := abs_sub (A.rd (accReal A w i) - ∑ j ∈ range (i + 1), W j) ((∑ j ∈ range (i + 1), W j) * (M - 1))
    nlinarith [hcs i hi]
  have hr0 : 0 ≤ A.rd (accReal A w i) / M := div_nonneg (hA.nonneg (ha0 i)) hpos.le
  have hr1 : A.rd (accReal A w i) / M ≤ 1 := (div_le_one hpos).2 (hA.rd_mono (hmono (show i ≤ n - 1 by omega)))
  have he := hE.rd_nonneg _ hr0
  rw [max_eq_right hr1, mul_one] at he
  have : A.rd (A.rd (accReal A w i) / M) - ∑ j ∈ range (i + 1), W j = (A.rd (A.rd (accReal A w i) / M) - A.rd (accReal A w i) / M) +
      (A.rd (accReal A w i) / M - ∑ j ∈ range (i + 1), W j) := by ring
  rw [this]
  refine (abs_add_le _ _).trans ?_
  linarith

theorem ustep_close (hA : A.Ok n) (hn : 0 < n) {ε ε' : ℝ} (hE : A.Err ε ε') (hε : 0 ≤ ε) (u : ℝ) (h0 : 0 ≤ u) (h1 : u ≤ 1) (k : Nat) (hk : k < n) :
    |ustep A n u k - (k + u) / n| ≤ 2 * ε := by
  have hn' : (0 : ℝ) < n := by exact_mod_cast hn
  have hk1 : (k : ℝ) + 1 ≤ n := by exact_mod_cast hk
  have hku : (0 : ℝ) ≤ k + u := by positivity
  have hle : A.rd (k + u) ≤ n := by
    rw [← hA.rd_nat n le_rfl]
    exact hA.rd_mono (by linarith)
  have e1 := hE.rd_nonneg (k + u) hku
  have m1 : ε * max ((k : ℝ) + u) 1 ≤ ε * n := mul_le_mul_of_nonneg_left (max_le (by linarith) (by exact_mod_cast hn)) hε
  have e2 := hE.rd_nonneg (A.rd (k + u) / n) (div_nonneg (hA.nonneg hku) hn'.le)
  rw [max_eq_right ((div_le_one hn').2 hle), mul_one] at e2
  have e3 : |A.rd (k + u) / n - (k + u) / n| ≤ ε := by
    rw [← sub_div, abs_div, abs_of_pos hn', div_le_iff₀ hn']
    linarith
  have : ustep A n u k - (k + u) / n = (A.rd (A.rd (k + u) / n) - A.rd (k + u) / n) + (A.rd (k + u) / n - (k + u) / n) := by
    unfold ustep; ring
  rw [this]
  refine (abs_add_le _ _).trans ?_
  linarith

/-- C88. In floating-point arithmetic every particle's number of offspring is within `1 + n (8 δ + 22 ε + 16 n ε')` of `n` times its exact weight, where `ε`
and `ε'` are the errors of the formats and `δ` is the total error of the weights that softmax returns. -/
theorem C88_offspring (hA : A.Ok n) (hB : B.Ok n) (hAB : B.rd = A.rd) (hn : 0 < n) {ε ε' δ : ℝ} (hE : A.Err ε ε') (hε : 0 ≤ ε) (hε' : 0 ≤ ε') (t : SumTree) (ht : t.leaves.Perm (List.range n)) (lw : Nat → Num)
    (hlw : ∀ i, i < n → lw i ≠ .nan ∧ lw i ≠ .pinf) (hfin : ∃ i x, i < n ∧ lw i = .fin x) (W : Nat → ℝ) (hW0 : ∀ i, 0 ≤ W i) (hW : ∑ i ∈ range n, W i = 1)
    (hδ : ∀ w : Nat → ℝ, (∀ i, i < n → softmax B t lw n i = .fin (w i)) → ∑ i ∈ range n, |w i - W i| ≤ δ)
    (hsmall : δ + 2 * ε' * n + 2 * ε ≤ 1 / 2) (u : ℝ) (h0 : 0 ≤ u) (h1 : u ≤ 1) (i : Nat) (hi : i < n) :
    |(((range n).filter fun k => ancestor A B t lw n u k = i).card : ℝ) - n * W i| ≤ 1 + n * (8 * δ + 22 * ε + 16 * n * ε') := by
  obtain ⟨w, hw, w0, wr, wninf, w1, wpos⟩ := softmax_ok hB t ht lw hlw hfin
  obtain ⟨heq, hmono, ha0, hpos⟩ := ncsum_eq hA hn w w0 w1 (fun i => hAB ▸ wr i) wpos _ hw
  set c : Nat → ℝ := fun i => A.rd (A.rd (accReal A w i) / A.rd (accReal A w (n - 1))) with hcdef
  have cmono : ∀ i j, i ≤ j → j < n → c i ≤ c j := fun i j hij _ => hA.rd_mono (div_le_div_of_nonneg_right (hA.rd_mono (hmono hij)) hpos.le)
  have clast : c (n - 1) = 1 := by
    show A.rd (_ / _) = 1
    rw [div_self hpos.ne']
    simpa using hA.rd_nat 1 hn
  have hn' : (0 : ℝ) < n := by exact_mod_cast hn
  have hclose := ncsum_close hA hn hE hε hε' w W w0 w1 (fun i => hAB ▸ wr i) wpos hW0 hW (hδ w hw) hsmall _ hw
  have hustep := ustep_close hA hn hE hε u h0 h1
  have hanc := ancestor_ok hA hn t lw c heq cmono clast u h0 h1
  set η := 4 * (δ + 2 * ε' * n + 2 * ε) + ε with hη
  have hδ0 : 0 ≤ δ := (Finset.sum_nonneg fun _ _ => abs_nonneg _).trans (hδ w hw)
  have hη0 : 0 ≤ η := by positivity
  have hC0 : ∀ i, 0 ≤ ∑ j ∈ range i, W j := fun i => Finset.sum_nonneg fun _ _ => hW0 _
  have hC1 : ∑ j ∈ range (i + 1), W j ≤ 1 := by
    rw [← hW]
    exact Finset.sum_le_sum_of_subset_of_nonneg (Finset.range_mono (by omega)) fun _ _ _ => hW0 _
  have hsucc : ∑ j ∈ range (i + 1), W j = ∑ j ∈ range i, W j + W i := Finset.sum_range_succ _ _
  have hgoal : 1 + n * (8 * δ + 22 * ε + 16 * n * ε') = 1 + n * (2 * η + 4 * ε) := by rw [hη]; ring
  rw [hgoal, abs_le]
  constructor
  · -- every step in the inner interval goes to particle i
    have h := le_card_of_interval (n * (∑ j ∈ range i, W j + η + 2 * ε) - u) (n * (∑ j ∈ range (i + 1), W j - η - 2 * ε) - u)
      (by
        have : 0 ≤ n * (∑ j ∈ range i, W j + η + 2 * ε) := mul_nonneg hn'.le (by linarith [hC0 i])
        linarith) ((range n).filter fun k => ancestor A B t lw n u k = i) (fun k hk1 hk2 => ?_)
    · rw [hsucc] at h
      have : (n : ℝ) * (∑ j ∈ range i, W j + W i - η - 2 * ε) - u - (n * (∑ j ∈ range i, W j + η + 2 * ε) - u) = n * W i - n * (2 * η + 4 * ε) := by ring
      linarith
    · have hkn : k < n := by
        have : (n : ℝ) * (∑ j ∈ range (i + 1), W j - η - 2 * ε) ≤ n * 1 := mul_le_mul_of_nonneg_left (by linarith) hn'.le
        have : (k : ℝ) < n := by linarith
        exact_mod_cast this
      obtain ⟨a1, a2, a3⟩ := hanc k hkn
      have hu := abs_le.1 (hustep k hkn)
      have h1' : (k + u) / n < ∑ j ∈ range (i + 1), W j - η - 2 * ε := by
        rw [div_lt_iff₀ hn']
        linarith
      have h2' : ∑ j ∈ range i, W j + η + 2 * ε < (k + u) / n := by
        rw [lt_div_iff₀ hn']
        linarith
      refine Finset.mem_filter.2 ⟨Finset.mem_range.2 hkn, le_antisymm ?_ ?_⟩
      · by_contra hc
        have := a2 i (by omega)
        linarith [(abs_le.1 (hclose i hi)).1]
      · cases i with
        | zero => exact Nat.zero_le _
        | succ i =>
          by_contra hc
          have := a3 i (by omega) (by omega)
          linarith [(abs_le.1 (hclose i (by omega))).2]
  · -- every step of particle i lies in the outer interval
    have hup : ∀ k ∈ (range n).filter fun k => ancestor A B t lw n u k = i, (k : ℝ) ≤ n * (∑ j ∈ range (i + 1), W j + η + 2 * ε) - u := by
      intro k hk
      obtain ⟨hkn, hka⟩ := Finset.mem_filter.1 hk
      have hkn := Finset.mem_range.1 hkn
      obtain ⟨-, -, a3⟩ := hanc k hkn
      rw [hka] at a3
      have hu := abs_le.1 (hustep k hkn)
      have a4 := a3 i le_rfl hi
      have a5 := (abs_le.1 (hclose i hi)).2
      have : (k + u) / n ≤ ∑ j ∈ range (i + 1), W j + η + 2 * ε := by linarith
      rw [div_le_iff₀ hn'] at this
      linarith
    cases i with
    | zero =>
      have h := card_le_of_le (n * (∑ j ∈ range (0 + 1), W j + η + 2 * ε) - u)
        (by
          have : 0 ≤ n * (∑ j ∈ range (0 + 1), W j + η + 2 * ε) := mul_nonneg hn'.le (by linarith [hC0 (0 + 1)])
          linarith) _ hup
      have h2 : 0 ≤ n * (η + 2 * ε) := by positivity
      rw [Finset.sum_range_one] at h
      linarith
    | succ i =>
      have h := card_le_of_interval (n * (∑ j ∈ range (i + 1), W j - η - 2 * ε) - u) (n * (∑ j ∈ range (i + 1 + 1), W j + η + 2 * ε) - u)
        (by
          have : (n : ℝ) * (∑ j ∈ range (i + 1), W j - η - 2 * ε) ≤ n * (∑ j ∈ range (i + 1 + 1), W j + η + 2 * ε) :=
            mul_le_mul_of_nonneg_left (by linarith [hW0 (i + 1)]) hn'.le
          linarith) _ (fun k hk => ⟨?_, hup k hk⟩)
      · rw [hsucc] at h
        have : (n : ℝ) * (∑ j ∈ range (i + 1), W j + W (i + 1) + η + 2 * ε) - u - (n * (∑ j ∈ range (i + 1), W j - η - 2 * ε) - u) =
          n * W (i + 1) + n * (2 * η + 4 * ε) := by ring
        linarith
      · obtain ⟨hkn, hka⟩ := Finset.mem_filter.1 hk
        have hkn := Finset.mem_range.1 hkn
        obtain ⟨-, a2, -⟩ := hanc k hkn
        rw [hka] at a2
        have hu := abs_le.1 (hustep k hkn)
        have a4 := a2 i (by omega)
        have a5 := (abs_le.1 (hclose i (by omega))).1
        have : ∑ j ∈ range (i + 1), W j - η - 2 * ε < (k + u) / n := by linarith
        rw [lt_div_iff₀ hn'] at this
        linarith

/-- The sum of the exponentials is close to the exact one. -/
theorem sum_close (hA : A.Ok n) {ε ε' : ℝ} (hE : A.Err ε ε') (hε' : 0 ≤ ε') (hε2 : 2 * n * ε' ≤ 1) (e : Nat → ℝ) (h0 : ∀ i, 0 ≤ e i) (h1 : ∀ i, e i ≤ 1) (hr : ∀ i, A.rd (e i) = e i)
    (M : ℝ) (hM : 1 ≤ M) : ∀ (t : SumTree) (s : ℝ), t.leaves.length ≤ n → (t.leaves.map e).sum ≤ M → t.sum A (fun i => .fin (e i)) = .fin s →
      |s - (t.leaves.map e).sum| ≤ 2 * ε' * ((t.leaves.length : ℝ) - 1) * M
  | .leaf j, s, _, _, hs => by
    have : e j = s := Num.fin.inj hs
    rw [← this]
    simp [SumTree.leaves]
  | .node l r, s, hn', hsm, hs => by
    have hlen : (SumTree.node l r).leaves.length = l.leaves.length + r.leaves.length := by simp [SumTree.leaves]
    rw [show (SumTree.node l r).leaves = l.leaves ++ r.leaves from rfl, List.map_append, List.sum_append] at hsm
    rw [hlen] at hn'
    have hnon : ∀ L : List Nat, 0 ≤ (L.map e).sum := fun L => List.sum_nonneg fun x hx => by
      obtain ⟨i, -, rfl⟩ := List.mem_map.1 hx
      exact h0 i
    have hl0 := hnon l.leaves
    have hr0 := hnon r.leaves
    obtain ⟨a, ea, -, pa, la, -⟩ := sum_ok hA e h0 h1 hr l (by omega)
    obtain ⟨b, eb, -, pb, lb, -⟩ := sum_ok hA e h0 h1 hr r (by omega)
    have ia := sum_close hA hE hε' hε2 e h0 h1 hr M hM l a (by omega) (by linarith) ea
    have ib := sum_close hA hE hε' hε2 e h0 h1 hr M hM r b (by omega) (by linarith) eb
    have hlr : ((l.leaves.length : ℝ) + r.leaves.length) ≤ n := by exact_mod_cast hn'
    have hab : a + b ≤ n := by linarith
    have hs' : s = A.acc (a + b) := by
      have h : Num.add A (l.sum A fun i => .fin (e i)) (r.sum A fun i => .fin (e i)) = .fin s := hs
      rw [ea, eb] at h
      have hle : A.acc (a + b) ≤ A.accTop := by
        refine le_trans ?_ hA.accTop
        rw [← hA.acc_nat n le_rfl]
        exact hA.acc_mono hab
      have hz : A.acc 0 = 0 := by simpa using hA.acc_nat 0 (Nat.zero_le n)
      have h0 : 0 ≤ A.acc (a + b) := hz ▸ hA.acc_mono (by linarith)
      have h' : fit A.accTop (A.acc (a + b)) = .fin s := h
      rw [fit_fin h0 hle] at h'
      exact (Num.fin.inj h').symm
    have he := hE.acc_nonneg (a + b) (by linarith)
    have h2 := abs_add_le (a - (l.leaves.map e).sum) (b - (r.leaves.map e).sum)
    have hEM : 0 ≤ ε' * M := mul_nonneg hε' (by linarith)
    have habM : a + b ≤ 2 * M := by
      have h3 := (abs_le.1 ia).2
      have h4 := (abs_le.1 ib).2
      have h5 : (2 * ε' * n) * M ≤ 1 * M := mul_le_mul_of_nonneg_right (by linarith) (by linarith)
      nlinarith [mul_le_mul_of_nonneg_right hlr hEM]
    have hm : ε' * max (a + b) 1 ≤ ε' * (2 * M) := mul_le_mul_of_nonneg_left (max_le habM (by linarith)) hε'
    rw [hlen, hs', show (SumTree.node l r).leaves = l.leaves ++ r.leaves from rfl, List.map_append, List.sum_append]
    have : A.acc (a + b) - ((l.leaves.map e).sum + (r.leaves.map e).sum) = (A.acc (a + b) - (a + b)) + ((a - (l.leaves.map e).sum) + (b - (r.leaves.map e).sum)) := by ring
    rw [this]
    refine (abs_add_le _ _).trans ?_
    push_cast
    nlinarith

end

/-- Exponentials of close numbers. -/
theorem exp_close {a b ε : ℝ} (ha : a ≤ 0) (hb : b ≤ 0) (hε : 0 ≤ ε) (hε2 : ε ≤ 1 / 2) (h : |a - b| ≤ ε * max |b| 1) : |Real.exp a - Real.exp b| ≤ ε := by
  have key : |Real.exp a - Real.exp b| ≤ |a - b| * Real.exp (max a b) := by
    have aux : ∀ x y : ℝ, x ≤ y → Real.exp y - Real.exp x ≤ (y - x) * Real.exp y := by
      intro x y hxy
      have h1 := Real.add_one_le_exp (x - y)
      have h2 : Real.exp x = Real.exp (x - y) * Real.exp y := by rw [← Real.exp_add]; ring_nf
      rw [h2]
      nlinarith [Real.exp_pos y]
    rcases le_total a b with hab | hab
    · rw [max_eq_right hab, abs_of_nonpos (by linarith [Real.exp_le_exp.2 hab]), abs_of_nonpos (by linarith)]
      linarith [aux a b hab]
    · rw [max_eq_left hab, abs_of_nonneg (by linarith [Real.exp_le_exp.2 hab]), abs_of_nonneg (by linarith)]
      exact aux b a hab
  refine key.trans ?_
  rw [abs_of_nonpos hb] at h
  rcases le_total (-b) 1 with h1 | h1
  · rw [max_eq_right h1, mul_one] at h
    have : Real.exp (max a b) ≤ 1 := Real.exp_le_one_iff.2 (max_le ha hb)
    calc _ ≤ ε * 1 := mul_le_mul h this (Real.exp_pos _).le hε
      _ = ε := mul_one ε
  · rw [max_eq_left h1] at h
    have hm : max a b ≤ b / 2 := by
      refine max_le ?_ (by linarith)
      have := (abs_le.1 h).2
      nlinarith
    have hq := Real.quadratic_le_exp_of_nonneg (x := -b / 2) (by linarith)
    have h2 : -b ≤ Real.exp (-b / 2) := by nlinarith [sq_nonneg (-b / 2 - 1)]
    have h3 : -b * Real.exp (b / 2) ≤ 1 := by
      have : Real.exp (b / 2) * Real.exp (-b / 2) = 1 := by rw [← Real.exp_add, ← Real.exp_zero]; congr 1; ring
      nlinarith [Real.exp_pos (b / 2)]
    calc |a - b| * Real.exp (max a b) ≤ (ε * -b) * Real.exp (b / 2) :=
          mul_le_mul h (Real.exp_le_exp.2 hm) (Real.exp_pos _).le (mul_nonneg hε (by linarith))
      _ = ε * (-b * Real.exp (b / 2)) := by ring
      _ ≤ ε * 1 := mul_le_mul_of_nonneg_left h3 hε
      _ = ε := mul_one ε

/-- The weight of a log weight. -/
noncomputable def Num.weight : Num → ℝ
  | .fin x => Real.exp x
  | _ => 0

/-- The exact normalised weights. -/
noncomputable def exactWeight (lw : Nat → Num) (n i : Nat) : ℝ := (lw i).weight / ∑ j ∈ range n, (lw j).weight

theorem weight_nonneg (v : Num) : 0 ≤ v.weight := by
  cases v with
  | fin x => exact (Real.exp_pos x).le
  | _ => exact le_rfl

theorem exactWeight_nonneg (lw : Nat → Num) (n i : Nat) : 0 ≤ exactWeight lw n i := div_nonneg (weight_nonneg _) (Finset.sum_nonneg fun _ _ => weight_nonneg _)

theorem sum_weight_pos (lw : Nat → Num) (n : Nat) (hfin : ∃ i x, i < n ∧ lw i = .fin x) : 0 < ∑ j ∈ range n, (lw j).weight := by
  obtain ⟨i, x, hi, hx⟩ := hfin
  refine Finset.sum_pos' (fun _ _ => weight_nonneg _) ⟨i, Finset.mem_range.2 hi, ?_⟩
  rw [hx]
  exact Real.exp_pos x

theorem sum_exactWeight (lw : Nat → Num) (n : Nat) (hfin : ∃ i x, i < n ∧ lw i = .fin x) : ∑ i ∈ range n, exactWeight lw n i = 1 := by
  unfold exactWeight
  rw [← Finset.sum_div]
  exact div_self (sum_weight_pos lw n hfin).ne'

section
variable {A : Arith} {n : Nat}

/-- The total error of the weights that softmax returns. -/
theorem softmax_close (hA : A.Ok n) (hn : 0 < n) {ε ε' κ : ℝ} (hE : A.Err ε ε') (hε : 0 ≤ ε) (hε2 : ε ≤ 1 / 2) (hε' : 0 ≤ ε') (hε2' : 4 * n * ε' ≤ 1) (hκ : ∀ x, x ≤ 0 → |A.exp x - Real.exp x| ≤ κ)
    (hκt : Real.exp (-(A.top / 2)) ≤ κ) (t : SumTree) (ht : t.leaves.Perm (List.range n)) (lw : Nat → Num) (hlw : ∀ i, i < n → lw i ≠ .nan ∧ lw i ≠ .pinf)
    (hfin : ∃ i x, i < n ∧ lw i = .fin x) (w : Nat → ℝ) (hw : ∀ i, i < n → softmax A t lw n i = .fin (w i)) :
    ∑ i ∈ range n, |w i - exactWeight lw n i| ≤ n * (2 * κ + 4 * ε) + 8 * n * ε' := by
  obtain ⟨m, s, j, hj, hjm, hle, -, -, es, he0, he1, her, hej, hs1, hsn, hr1, hrn, hsm, -⟩ := softmax_eq hA t ht lw hlw hfin
  have hnn : (1 : ℝ) ≤ n := by exact_mod_cast hn
  have htop : (1 : ℝ) ≤ A.top := hnn.trans hA.top
  set r := A.rd s with hr
  have hpos : 0 < r := by linarith
  have hκ0 : 0 ≤ κ := (Real.exp_pos _).le.trans hκt
  -- exact exponentials relative to the maximum
  let E : Nat → ℝ := fun i => (lw i).weight * Real.exp (-m)
  have hE0 : ∀ i, 0 ≤ E i := fun i => mul_nonneg (weight_nonneg _) (Real.exp_pos _).le
  have hclose : ∀ i, i < n → |expReal A m (lw i) - E i| ≤ κ + ε := by
    intro i hi
    show |expReal A m (lw i) - (lw i).weight * Real.exp (-m)| ≤ κ + ε
    cases hv : lw i with
    | nan => exact absurd hv (hlw i hi).1
    | pinf => exact absurd hv (hlw i hi).2
    | ninf => simp only [expReal, Num.weight, zero_mul, sub_zero, abs_zero]; linarith
    | fin x =>
      have hx := hle i x hi hv
      have hEx : (Num.fin x).weight * Real.exp (-m) = Real.exp (x - m) := by
        show Real.exp x * _ = _
        rw [← Real.exp_add]
        rfl
      rw [hEx]
      simp only [expReal]
      have hd0 : A.rd (x - m) ≤ 0 := hA.zero ▸ hA.rd_mono (by linarith)
      have herr := hE.rd (x - m)
      split_ifs with h
      · have h1 := hκ _ hd0
        have h2 := exp_close hd0 (by linarith : x - m ≤ 0) hε hε2 herr
        have := abs_add_le (A.exp (A.rd (x - m)) - Real.exp (A.rd (x - m))) (Real.exp (A.rd (x - m)) - Real.exp (x - m))
        rw [sub_add_sub_cancel] at this
        linarith
      · have hlt : A.rd (x - m) < -A.top := by
          by_contra hc
          exact h ⟨hx, not_lt.1 hc⟩
        have hy : A.top / 2 ≤ m - x := by
          rw [abs_of_nonpos (by linarith : x - m ≤ 0)] at herr
          have := (abs_le.1 herr).1
          rcases le_total (-(x - m)) 1 with h1 | h1
          · rw [max_eq_right h1] at this
            linarith
          · rw [max_eq_left h1] at this
            nlinarith
        have : Real.exp (x - m) ≤ κ := (Real.exp_le_exp.2 (by linarith)).trans hκt
        rw [zero_sub, abs_neg, abs_of_pos (Real.exp_pos _)]
        linarith
  -- the sums
  set S := ∑ i ∈ range n, E i with hS
  have hS1 : 1 ≤ S := by
    have h1 : E j = 1 := by
      show (lw j).weight * _ = 1
      rw [hjm]
      show Real.exp m * _ = 1
      rw [← Real.exp_add, add_neg_cancel, Real.exp_zero]
    rw [← h1]
    exact Finset.single_le_sum (fun i _ => hE0 i) (Finset.mem_range.2 hj)
  set T := ∑ i ∈ range n, expReal A m (lw i) with hT
  have hT1 : 1 ≤ T := by
    rw [← hej]
    exact Finset.single_le_sum (f := fun i => expReal A m (lw i)) (fun i _ => he0 i) (Finset.mem_range.2 hj)
  have hsum : |s - T| ≤ 2 * ε' * n * T := by
    have hlen : t.leaves.length = n := by rw [ht.length_eq, List.length_range]
    have h2 : (t.leaves.map fun i => expReal A m (lw i)).sum = T := by
      rw [(ht.map _).sum_eq]
      rfl
    have h := sum_close hA hE hε' (by linarith [mul_nonneg (Nat.cast_nonneg n : (0 : ℝ) ≤ n) hε']) (fun i => expReal A m (lw i)) he0 he1 her T hT1 t s hlen.le h2.le es
    rw [h2, hlen] at h
    refine h.trans ?_
    have : 0 ≤ ε' * T := mul_nonneg hε' (by linarith)
    nlinarith
  have hTs : T ≤ 2 * s := by
    have := (abs_le.1 hsum).1
    have h5 : (4 * n * ε') * T ≤ 1 * T := mul_le_mul_of_nonneg_right hε2' (by linarith)
    nlinarith
  have hsr : s ≤ 2 * r := by
    have := (abs_le.1 (hE.rd_nonneg s (by linarith))).1
    rw [max_eq_left hs1] at this
    nlinarith
  have hsumE : |T - S| ≤ n * (κ + ε) := by
    rw [hS, hT, ← Finset.sum_sub_distrib]
    refine (Finset.abs_sum_le_sum_abs _ _).trans ?_
    refine (Finset.sum_le_sum fun i hi => hclose i (Finset.mem_range.1 hi)).trans ?_
    rw [Finset.sum_const, Finset.card_range, nsmul_eq_mul]
  have hrs : |r - s| ≤ ε * n := by
    refine (hE.rd_nonneg s (by linarith)).trans ?_
    exact mul_le_mul_of_nonneg_left (max_le hsn hnn) hε
  have hD : |S - r| ≤ 8 * ε' * n * r + n * (κ + ε) + ε * n := by
    have : S - r = -((r - s) + ((s - T) + (T - S))) := by ring
    rw [this, abs_neg]
    refine (abs_add_le _ _).trans ?_
    have h1 := abs_add_le (s - T) (T - S)
    have h2 : 2 * ε' * n * T ≤ 2 * ε' * n * (4 * r) := mul_le_mul_of_nonneg_left (by linarith) (by positivity)
    linarith
  have hDr : |S - r| / r ≤ 8 * n * ε' + n * (κ + ε) + ε * n := by
    rw [div_le_iff₀ hpos]
    refine hD.trans ?_
    have h1 : (n * (κ + ε) + ε * n) * 1 ≤ (n * (κ + ε) + ε * n) * r := mul_le_mul_of_nonneg_left hr1 (by positivity)
    linarith
  -- the weights
  have hWE : ∀ i, exactWeight lw n i = E i / S := by
    intro i
    unfold exactWeight
    show _ = (lw i).weight * Real.exp (-m) / S
    rw [hS]
    show _ = _ / ∑ i ∈ range n, (lw i).weight * Real.exp (-m)
    rw [← Finset.sum_mul, mul_div_mul_right _ _ (Real.exp_pos _).ne']
  have hterm : ∀ i ∈ range n, |w i - exactWeight lw n i| ≤ (ε + (κ + ε)) + E i / S * (8 * n * ε' + n * (κ + ε) + ε * n) := by
    intro i hi
    have hi := Finset.mem_range.1 hi
    have hwi : w i = A.rd (expReal A m (lw i) / r) := by
      have := hw i hi
      rw [hsm i hi] at this
      exact (Num.fin.inj this).symm
    have hle1 : expReal A m (lw i) / r ≤ 1 := (div_le_one hpos).2 ((he1 i).trans hr1)
    have h1 := hE.rd_nonneg (expReal A m (lw i) / r) (div_nonneg (he0 i) hpos.le)
    rw [max_eq_right hle1, mul_one, ← hwi] at h1
    have hSpos : 0 < S := by linarith
    have h2 : expReal A m (lw i) / r - E i / S = (expReal A m (lw i) - E i) / r + E i / S * ((S - r) / r) := by
      field_simp
      ring
    have h3 : |(expReal A m (lw i) - E i) / r| ≤ κ + ε := by
      rw [abs_div, abs_of_pos hpos]
      exact (div_le_self (abs_nonneg _) hr1).trans (hclose i hi)
    have h4 : |E i / S * ((S - r) / r)| ≤ E i / S * (8 * n * ε' + n * (κ + ε) + ε * n) := by
      have hES : 0 ≤ E i / S := div_nonneg (hE0 i) hSpos.le
      rw [abs_mul, abs_of_nonneg hES]
      refine mul_le_mul_of_nonneg_left ?_ hES
      rw [abs_div, abs_of_pos hpos]
      exact hDr
    rw [hWE]
    have h5 : w i - E i / S = (w i - expReal A m (lw i) / r) + (expReal A m (lw i) / r - E i / S) := by ring
    rw [h5]
    refine (abs_add_le _ _).trans ?_
    rw [h2]
    linarith [abs_add_le ((expReal A m (lw i) - E i) / r) (E i / S * ((S - r) / r))]
  refine (Finset.sum_le_sum hterm).trans ?_
  rw [Finset.sum_add_distrib, Finset.sum_const, Finset.card_range, nsmul_eq_mul, ← Finset.sum_mul, ← Finset.sum_div, ← hS, div_self (by linarith : S ≠ 0), one_mul]
  apply le_of_eq
  ring

end

/-- Rounding to a format has a small relative error from 1 on, and a small absolute one below. -/
theorem round_error_max (F : Format) (hp : 0 < F.p) (he : F.emin ≤ -F.p) (x : ℝ) : |F.round x - x| ≤ 1 / 2 ^ F.p * max |x| 1 := by
  have h2 : (0 : ℝ) < 1 / 2 ^ F.p := by positivity
  rcases le_total |x| 1 with h | h
  · rw [max_eq_right h, mul_one]
    refine (round_error F hp (k := 0) (by simpa using h) (by simpa using he)).trans ?_
    rw [pow_zero]
    linarith
  · rw [max_eq_left h]
    -- within the binade of x
    have hx0 : x ≠ 0 := by
      intro h0
      rw [h0, abs_zero] at h
      linarith
    have hq : (0 : ℝ) < (2 : ℝ) ^ F.ulpExp x := zpow_pos (by norm_num) _
    have hn := nearbyint_le (x / (2 : ℝ) ^ F.ulpExp x)
    have e : F.round x - x = (nearbyint (x / (2 : ℝ) ^ F.ulpExp x) - x / (2 : ℝ) ^ F.ulpExp x) * (2 : ℝ) ^ F.ulpExp x := by
      unfold Format.round
      field_simp
    rw [e, abs_mul, abs_of_pos hq]
    have hlog : 0 ≤ Int.log 2 |x| := by
      rw [← Int.log_one_right (R := ℝ) 2]
      exact Int.log_mono_right one_pos h
    have hul : F.ulpExp x = Int.log 2 |x| + (1 - F.p) := by
      unfold Format.ulpExp
      omega
    have hle : (2 : ℝ) ^ Int.log 2 |x| ≤ |x| := by exact_mod_cast Int.zpow_log_le_self (b := 2) (by norm_num) (abs_pos.2 hx0)
    have hz : (2 : ℝ) ^ (1 - (F.p : ℤ)) = 2 * (1 / 2 ^ F.p) := by
      rw [zpow_sub₀ (by norm_num), zpow_one, zpow_natCast]
      ring
    rw [hul, zpow_add₀ (by norm_num), hz]
    have hz0 : (0 : ℝ) < (2 : ℝ) ^ Int.log 2 |x| := zpow_pos (by norm_num) _
    calc _ ≤ 1 / 2 * ((2 : ℝ) ^ Int.log 2 |x| * (2 * (1 / 2 ^ F.p))) := by
          rw [hul, zpow_add₀ (by norm_num), hz] at hn
          exact mul_le_mul_of_nonneg_right hn (by positivity)
      _ = 1 / 2 ^ F.p * (2 : ℝ) ^ Int.log 2 |x| := by ring
      _ ≤ _ := mul_le_mul_of_nonneg_left hle h2.le

theorem float32_err {d : Bool} : (float32 d).Err (1 / 2 ^ 24) (1 / 2 ^ 24) where
  rd := round_error_max b32 (by decide) (by decide)
  acc := by
    cases d
    · exact round_error_max b32 (by decide) (by decide)
    · refine fun x => (round_error_max b64 (by decide) (by decide) x).trans (mul_le_mul_of_nonneg_right ?_ (le_max_of_le_right zero_le_one))
      simp only [b64]
      norm_num

/-- C88. Resampling float32 log weights of up to 350 particles: every particle's number of offspring is within 2 of `n` times its exact weight. -/
theorem C88_float32 {d d' : Bool} {n : Nat} (hn : 0 < n) (hn' : n ≤ 350) (t : SumTree) (ht : t.leaves.Perm (List.range n)) (lw : Nat → Num)
    (hlw : ∀ i, i < n → lw i ≠ .nan ∧ lw i ≠ .pinf) (hfin : ∃ i x, i < n ∧ lw i = .fin x) (u : ℝ) (h0 : 0 ≤ u) (h1 : u ≤ 1) (i : Nat) (hi : i < n) :
    |(((range n).filter fun k => ancestor (float32 d) (float32 d') t lw n u k = i).card : ℝ) - n * exactWeight lw n i| ≤ 2 := by
  have hnr : (n : ℝ) ≤ 350 := by exact_mod_cast hn'
  have hnr0 : (0 : ℝ) ≤ n := Nat.cast_nonneg n
  have hκ : ∀ x, x ≤ 0 → |(float32 d').exp x - Real.exp x| ≤ 1 / 2 ^ 24 := by
    intro x hx
    have := (float32_err (d := d')).rd (Real.exp x)
    rwa [abs_of_pos (Real.exp_pos x), max_eq_right (Real.exp_le_one_iff.2 hx), mul_one] at this
  have hκt : Real.exp (-((float32 d').top / 2)) ≤ 1 / 2 ^ 24 := by
    rw [Real.exp_neg, ← one_div]
    refine one_div_le_one_div_of_le (by positivity) ?_
    have := Real.add_one_le_exp ((float32 d').top / 2)
    have h2 : (2 : ℝ) ^ 24 ≤ (float32 d').top / 2 + 1 := by
      show (2 : ℝ) ^ 24 ≤ (2 ^ 24 - 1) * 2 ^ 104 / 2 + 1
      norm_num
    linarith
  have hδ := softmax_close (float32_ok hn (hn'.trans (by norm_num))) hn float32_err (by positivity) (by norm_num) (by positivity)
    (by nlinarith) hκ hκt t ht lw hlw hfin
  have h := C88_offspring (A := float32 d) (B := float32 d') (float32_ok hn (hn'.trans (by norm_num))) (float32_ok hn (hn'.trans (by norm_num))) rfl hn float32_err (by positivity) (by positivity) t ht lw hlw hfin
    (δ := n * (2 * (1 / 2 ^ 24) + 4 * (1 / 2 ^ 24)) + 8 * n * (1 / 2 ^ 24)) (exactWeight lw n) (exactWeight_nonneg lw n) (sum_exactWeight lw n hfin) hδ (by nlinarith) u h0 h1 i hi
  refine h.trans ?_
  nlinarith

/-- Three float32 log weights, one of them negative infinity: indices in range, and at most two more or fewer than expected of each particle. -/
example (d d' : Bool) (u : ℝ) (h0 : 0 ≤ u) (h1 : u ≤ 1) :
    let lw : Nat → Num := fun i => if i = 1 then .ninf else .fin i
    let t := SumTree.node (.leaf 2) (.node (.leaf 0) (.leaf 1))
    (∃ a : Nat → Nat, ancestors (float32 d) (float32 d') t lw 3 u = .ok ((List.range 3).map a) ∧ ∀ k, k < 3 → a k < 3) ∧
      |(((range 3).filter fun k => ancestor (float32 d) (float32 d') t lw 3 u k = 2).card : ℝ) - (3 : Nat) * exactWeight lw 3 2| ≤ 2 := by
  intro lw t
  have hlw : ∀ i, i < 3 → lw i ≠ .nan ∧ lw i ≠ .pinf := by
    intro i _
    show (if i = 1 then Num.ninf else .fin i) ≠ .nan ∧ (if i = 1 then Num.ninf else .fin i) ≠ .pinf
    split_ifs <;> exact ⟨fun h => (by cases h), fun h => (by cases h)⟩
  have hfin : ∃ i x, i < 3 ∧ lw i = .fin x := ⟨0, 0, by norm_num, by simp [lw]⟩
  have ht : t.leaves.Perm (List.range 3) := by decide
  obtain ⟨a, ha, hr, -⟩ := C88_in_range (A := float32 d) (B := float32 d') (float32_ok (n := 3) (by norm_num) (by norm_num)) (float32_ok (by norm_num) (by norm_num)) rfl (by norm_num) t ht lw hlw hfin u h0 h1
  exact ⟨⟨a, ha, hr⟩, C88_float32 (by norm_num) (by norm_num) t ht lw hlw hfin u h0 h1 2 (by norm_num)⟩

/-- Two particles of weight zero cannot be resampled. -/
example (u : ℝ) : ancestors (float32 true) (float32 false) (.node (.leaf 0) (.leaf 1)) (fun _ => .ninf) 2 u = .error .runtime :=
  C88_raises (by norm_num) _ (by decide) _ (.inr fun _ _ => rfl) u

end Fp
end Verif
