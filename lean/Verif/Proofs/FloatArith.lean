import Mathlib.Algebra.BigOperators.Field
import Verif.Model.FloatResampler
/-
Softmax, cumulative sums and binary search in floating-point arithmetic.
-/
namespace Verif
namespace Fp

/-- What is assumed of an arithmetic for `n` particles: rounding is monotone, leaves rounded numbers and the numbers up to `n` as they are, and does not
take `1 / n` to zero; `n` is not too large; accumulators have at least the numbers of the tensors; `exp` is 1 at 0 and between 0 and 1 for negative numbers. -/
structure Arith.Ok (A : Arith) (n : Nat) : Prop where
  rd_mono : Monotone A.rd
  rd_idem : ∀ x, A.rd (A.rd x) = A.rd x
  rd_nat : ∀ k : Nat, k ≤ n → A.rd k = k
  acc_mono : Monotone A.acc
  acc_idem : ∀ x, A.acc (A.acc x) = A.acc x
  acc_nat : ∀ k : Nat, k ≤ n → A.acc k = k
  acc_rd : ∀ x, A.acc (A.rd x) = A.rd x
  exp_zero : A.exp 0 = 1
  exp_nonneg : ∀ x, 0 ≤ A.exp x
  exp_le : ∀ x, x ≤ 0 → A.exp x ≤ 1
  exp_rd : ∀ x, A.rd (A.exp x) = A.exp x
  small : 0 < A.rd (1 / n)
  top : n ≤ A.top
  accTop : n ≤ A.accTop

section
variable {A B : Arith} {n : Nat}

theorem Arith.Ok.zero (h : A.Ok n) : A.rd 0 = 0 := by simpa using h.rd_nat 0 (Nat.zero_le _)

theorem Arith.Ok.nonneg (h : A.Ok n) {x : ℝ} (hx : 0 ≤ x) : 0 ≤ A.rd x := h.zero ▸ h.rd_mono hx

theorem fit_fin {top x : ℝ} (h0 : 0 ≤ x) (h : x ≤ top) : fit top x = .fin x := by
  unfold fit
  rw [if_neg (not_lt.2 h), if_neg (by linarith)]

/-! ### Binary search -/

theorem lowerBound_nan (bs : Nat → Num) (v : Num) (stop : Nat) : ∀ start, start ≤ stop → (∀ i, start ≤ i → i < stop → (bs i).ge v = false) →
    lowerBound bs v start stop = stop := by
  intro start hle h
  induction hd : stop - start using Nat.strongRecOn generalizing start with
  | _ d ih =>
    unfold lowerBound
    by_cases hlt : start < stop
    · rw [dif_pos hlt]
      simp only
      rw [h _ (by omega) (by omega)]
      exact ih _ (by omega) (start + (stop - start) / 2 + 1) (by omega) (fun i h1 h2 => h i (by omega) h2) rfl
    · rw [dif_neg hlt]
      omega

/-- On numbers in order, the first that is at least `v`. -/
theorem lowerBound_spec (bs : Nat → Num) (v : Num) (n : Nat) (hup : ∀ i j, i ≤ j → j < n → (bs i).ge v = true → (bs j).ge v = true) :
    ∀ start stop, start ≤ stop → stop ≤ n → (∀ i, i < start → (bs i).ge v = false) → (∀ i, stop ≤ i → i < n → (bs i).ge v = true) →
      lowerBound bs v start stop ≤ stop ∧ (∀ i, i < lowerBound bs v start stop → (bs i).ge v = false) ∧
        ∀ i, lowerBound bs v start stop ≤ i → i < n → (bs i).ge v = true := by
  intro start stop
  induction hd : stop - start using Nat.strongRecOn generalizing start stop with
  | _ d ih =>
    intro hle hn h1 h2
    unfold lowerBound
    by_cases hlt : start < stop
    · rw [dif_pos hlt]
      simp only
      set mid := start + (stop - start) / 2 with hmid
      cases hg : (bs mid).ge v with
      | true =>
        rw [if_pos rfl]
        have := ih _ (by omega) start mid rfl (by omega) (by omega) h1 fun i hi hin => hup mid i hi hin hg
        exact ⟨by omega, this.2⟩
      | false =>
        rw [if_neg (by simp)]
        refine ih _ (by omega) (mid + 1) stop rfl (by omega) hn (fun i hi => ?_) h2
        by_contra hc
        have := hup i mid (by omega) (by omega) (by simpa using hc)
        rw [hg] at this
        cases this
    · rw [dif_neg hlt]
      exact ⟨hle, h1, fun i hi hin => h2 i (by omega) hin⟩

/-! ### Maxima -/

theorem maxOf_succ (v : Nat → Num) (n : Nat) : maxOf v (n + 1) = (maxOf v n).max (v n) := by
  unfold maxOf
  rw [List.range_succ, List.foldl_append]
  rfl

/-- The maximum of numbers without NaN and positive infinity. -/
theorem maxOf_ok (v : Nat → Num) (n : Nat) (h : ∀ i, i < n → v i ≠ .nan ∧ v i ≠ .pinf) :
    (maxOf v n = .ninf ∧ ∀ i, i < n → v i = .ninf) ∨
      ∃ m, maxOf v n = .fin m ∧ (∃ i, i < n ∧ v i = .fin m) ∧ ∀ i x, i < n → v i = .fin x → x ≤ m := by
  induction n with
  | zero => exact .inl ⟨rfl, fun i hi => absurd hi (Nat.not_lt_zero i)⟩
  | succ n ih =>
    have hn := h n (Nat.lt_succ_self n)
    rw [maxOf_succ]
    rcases ih fun i hi => h i (by omega) with ⟨e, h1⟩ | ⟨m, e, ⟨j, hj, hj'⟩, h2⟩
    · rw [e]
      cases hv : v n with
      | nan => exact absurd hv hn.1
      | pinf => exact absurd hv hn.2
      | ninf =>
        refine .inl ⟨rfl, fun i hi => ?_⟩
        rcases Nat.lt_succ_iff_lt_or_eq.1 hi with hi | rfl
        · exact h1 i hi
        · exact hv
      | fin x =>
        refine .inr ⟨x, rfl, ⟨n, Nat.lt_succ_self n, hv⟩, fun i y hi hy => ?_⟩
        rcases Nat.lt_succ_iff_lt_or_eq.1 hi with hi | rfl
        · rw [h1 i hi] at hy; cases hy
        · rw [hv] at hy; cases hy; exact le_rfl
    · rw [e]
      cases hv : v n with
      | nan => exact absurd hv hn.1
      | pinf => exact absurd hv hn.2
      | ninf =>
        refine .inr ⟨m, rfl, ⟨j, by omega, hj'⟩, fun i y hi hy => ?_⟩
        rcases Nat.lt_succ_iff_lt_or_eq.1 hi with hi | rfl
        · exact h2 i y hi hy
        · rw [hv] at hy; cases hy
      | fin x =>
        refine .inr ⟨max m x, rfl, ?_, fun i y hi hy => ?_⟩
        · rcases le_total m x with hmx | hmx
          · exact ⟨n, Nat.lt_succ_self n, by rw [max_eq_right hmx]; exact hv⟩
          · exact ⟨j, by omega, by rw [max_eq_left hmx]; exact hj'⟩
        · rcases Nat.lt_succ_iff_lt_or_eq.1 hi with hi | rfl
          · exact (h2 i y hi hy).trans (le_max_left _ _)
          · rw [hv] at hy; cases hy; exact le_max_right _ _

theorem Num.max_nan (x : Num) : x.max .nan = .nan := by cases x <;> rfl

theorem maxOf_nan (v : Nat → Num) (n i : Nat) (hi : i < n) (h : v i = .nan) : maxOf v n = .nan := by
  induction n with
  | zero => exact absurd hi (Nat.not_lt_zero i)
  | succ n ih =>
    rw [maxOf_succ]
    rcases Nat.lt_succ_iff_lt_or_eq.1 hi with hi | rfl
    · rw [ih hi]; rfl
    · rw [h]; exact Num.max_nan _

/-- The maximum of finite numbers in order is the last. -/
theorem maxOf_mono (c : Nat → ℝ) (hc : Monotone c) (n : Nat) : maxOf (fun i => .fin (c i)) (n + 1) = .fin (c n) := by
  induction n with
  | zero => rfl
  | succ n ih =>
    rw [maxOf_succ, ih]
    show Num.fin (max _ _) = _
    rw [max_eq_right (hc (Nat.le_succ n))]

/-! ### Sums -/

theorem Num.add_nan (x : Num) : x.add A .nan = .nan := by cases x <;> rfl

theorem sum_nan (v : Nat → Num) {i : Nat} (h : v i = .nan) : ∀ t : SumTree, i ∈ t.leaves → t.sum A v = .nan
  | .leaf j, hi => by
    rw [SumTree.leaves, List.mem_singleton] at hi
    subst hi
    exact h
  | .node l r, hi => by
    rcases List.mem_append.1 hi with hi | hi
    · show Num.add A (l.sum A v) _ = _
      rw [sum_nan v h l hi]
      rfl
    · show Num.add A _ (r.sum A v) = _
      rw [sum_nan v h r hi]
      exact Num.add_nan _

/-- The sum of numbers between 0 and 1, in any order. -/
theorem sum_ok (hA : A.Ok n) (e : Nat → ℝ) (h0 : ∀ i, 0 ≤ e i) (h1 : ∀ i, e i ≤ 1) (hr : ∀ i, A.rd (e i) = e i) :
    ∀ t : SumTree, t.leaves.length ≤ n → ∃ s, t.sum A (fun i => .fin (e i)) = .fin s ∧ A.acc s = s ∧ 0 ≤ s ∧ s ≤ t.leaves.length ∧ ∀ i ∈ t.leaves, e i ≤ s
  | .leaf j, _ => ⟨e j, rfl, by rw [← hr, hA.acc_rd], h0 j, by simpa [SumTree.leaves] using h1 j, fun i hi => by
    rw [SumTree.leaves, List.mem_singleton] at hi
    rw [hi]⟩
  | .node l r, hn => by
    have hlen : (SumTree.node l r).leaves.length = l.leaves.length + r.leaves.length := by simp [SumTree.leaves]
    rw [hlen] at hn
    obtain ⟨a, ea, ra, pa, la, ma⟩ := sum_ok hA e h0 h1 hr l (by omega)
    obtain ⟨b, eb, rb, pb, lb, mb⟩ := sum_ok hA e h0 h1 hr r (by omega)
    have hab : a ≤ A.acc (a + b) := by
      conv_lhs => rw [← ra]
      exact hA.acc_mono (by linarith)
    have hbb : b ≤ A.acc (a + b) := by
      conv_lhs => rw [← rb]
      exact hA.acc_mono (by linarith)
    have hle : A.acc (a + b) ≤ ((l.leaves.length + r.leaves.length : Nat) : ℝ) := by
      rw [← hA.acc_nat _ hn]
      exact hA.acc_mono (by push_cast; linarith)
    refine ⟨A.acc (a + b), ?_, hA.acc_idem _, pa.trans hab, ?_, fun i hi => ?_⟩
    · show Num.add A (l.sum A _) (r.sum A _) = _
      rw [ea, eb]
      exact fit_fin (pa.trans hab) (hle.trans ((Nat.cast_le.2 hn).trans hA.accTop))
    · rw [hlen]
      exact hle
    · rcases List.mem_append.1 hi with hi | hi
      · exact (ma i hi).trans hab
      · exact (mb i hi).trans hbb

/-! ### The weights -/

/-- The exponential that softmax takes, for log weights whose maximum is `m`. -/
noncomputable def expReal (A : Arith) (m : ℝ) : Num → ℝ
  | .fin x => if x ≤ m ∧ -A.top ≤ A.rd (x - m) then A.exp (A.rd (x - m)) else 0
  | _ => 0

/-- The weights of usable log weights, in terms of their maximum and the sum of the exponentials. -/
theorem softmax_eq (hA : A.Ok n) (t : SumTree) (ht : t.leaves.Perm (List.range n)) (lw : Nat → Num) (hlw : ∀ i, i < n → lw i ≠ .nan ∧ lw i ≠ .pinf)
    (hfin : ∃ i x, i < n ∧ lw i = .fin x) :
    ∃ m s j, j < n ∧ lw j = .fin m ∧ (∀ i x, i < n → lw i = .fin x → x ≤ m) ∧ maxOf lw n = .fin m ∧
      t.sum A (fun i => ((lw i).sub A (maxOf lw n)).exp A) = .fin s ∧ t.sum A (fun i => .fin (expReal A m (lw i))) = .fin s ∧
      (∀ i, 0 ≤ expReal A m (lw i)) ∧ (∀ i, expReal A m (lw i) ≤ 1) ∧ (∀ i, A.rd (expReal A m (lw i)) = expReal A m (lw i)) ∧ expReal A m (lw j) = 1 ∧ 1 ≤ s ∧ s ≤ n ∧ 1 ≤ A.rd s ∧ A.rd s ≤ n ∧
      (∀ i, i < n → softmax A t lw n i = .fin (A.rd (expReal A m (lw i) / A.rd s))) ∧ ∀ i, A.rd (expReal A m (lw i) / A.rd s) ≤ 1 := by
  obtain ⟨i₀, x₀, hi₀, hx₀⟩ := hfin
  rcases maxOf_ok lw n hlw with ⟨-, h⟩ | ⟨m, em, ⟨j, hj, hjm⟩, hle⟩
  · rw [h i₀ hi₀] at hx₀; cases hx₀
  have hn1 : A.rd 1 = 1 := by simpa using hA.rd_nat 1 (by omega)
  have htop : 1 ≤ A.top := le_trans (by exact_mod_cast (show 1 ≤ n by omega)) hA.top
  -- the exponentials
  let e : Nat → ℝ := fun i => expReal A m (lw i)
  have he : ∀ i, i < n → ((lw i).sub A (maxOf lw n)).exp A = .fin (e i) := by
    intro i hi
    rw [em]
    show _ = Num.fin (expReal A m (lw i))
    have := hlw i hi
    cases hv : lw i with
    | nan => exact absurd hv this.1
    | pinf => exact absurd hv this.2
    | ninf => rfl
    | fin x =>
      have hx := hle i x hi hv
      have hr0 : A.rd (x - m) ≤ 0 := hA.zero ▸ hA.rd_mono (by linarith)
      show Num.exp A (fit A.top (A.rd (x - m))) = _
      unfold fit expReal
      rw [if_neg (by linarith)]
      by_cases hb : A.rd (x - m) < -A.top
      · rw [if_pos hb]
        simp only
        rw [if_neg (by intro h; linarith [h.2])]
        rfl
      · rw [if_neg hb]
        simp only
        rw [if_pos ⟨hx, not_lt.1 hb⟩]
        exact fit_fin (hA.exp_nonneg _) ((hA.exp_le _ hr0).trans htop)
  have he0 : ∀ i, 0 ≤ e i := by
    intro i
    show 0 ≤ expReal A m (lw i)
    cases lw i with
    | fin x =>
      simp only [expReal]
      split_ifs
      · exact hA.exp_nonneg _
      · exact le_rfl
    | _ => exact le_rfl
  have he1 : ∀ i, e i ≤ 1 := by
    intro i
    show expReal A m (lw i) ≤ 1
    cases lw i with
    | fin x =>
      simp only [expReal]
      split_ifs with h
      · exact hA.exp_le _ (hA.zero ▸ hA.rd_mono (by linarith [h.1]))
      · exact zero_le_one
    | _ => exact zero_le_one
  have her : ∀ i, A.rd (e i) = e i := by
    intro i
    show A.rd (expReal A m (lw i)) = expReal A m (lw i)
    cases lw i with
    | fin x =>
      simp only [expReal]
      split_ifs with h
      · exact hA.exp_rd _
      · exact hA.zero
    | _ => exact hA.zero
  have hej : e j = 1 := by
    show expReal A m (lw j) = 1
    rw [hjm]
    simp only [expReal]
    rw [sub_self, hA.zero, if_pos ⟨le_rfl, by linarith⟩, hA.exp_zero]
  -- their sum
  have hlen : t.leaves.length = n := by rw [ht.length_eq, List.length_range]
  have hsum : ∀ t' : SumTree, (∀ i ∈ t'.leaves, i < n) → t'.sum A (fun i => ((lw i).sub A (maxOf lw n)).exp A) = t'.sum A (fun i => .fin (e i)) := by
    intro t'
    induction t' with
    | leaf i => exact fun h => he i (h i (by simp [SumTree.leaves]))
    | node l r ihl ihr =>
      intro h
      show Num.add A _ _ = Num.add A _ _
      rw [ihl fun i hi => h i (List.mem_append_left _ hi), ihr fun i hi => h i (List.mem_append_right _ hi)]
  obtain ⟨s, es, -, -, sle, sge⟩ := sum_ok hA e he0 he1 her t hlen.le
  have hs1 : 1 ≤ s := hej ▸ sge j (ht.mem_iff.2 (List.mem_range.2 hj))
  rw [hlen] at sle
  have hr1 : 1 ≤ A.rd s := hn1 ▸ hA.rd_mono hs1
  have hrn : A.rd s ≤ n := by
    rw [← hA.rd_nat n le_rfl]
    exact hA.rd_mono sle
  have hpos : 0 < A.rd s := by linarith
  have hle1 : ∀ i, A.rd (e i / A.rd s) ≤ 1 := by
    intro i
    rw [← hn1]
    refine hA.rd_mono ?_
    rw [div_le_one hpos]
    exact (he1 i).trans hr1
  refine ⟨m, s, j, hj, hjm, hle, em, (hsum t fun i hi => List.mem_range.1 (ht.mem_iff.1 hi)).trans es, es, he0, he1, her, hej, hs1, sle, hr1, hrn, fun i hi => ?_, hle1⟩
  show Num.div A (((lw i).sub A (maxOf lw n)).exp A) ((t.sum A fun i => ((lw i).sub A (maxOf lw n)).exp A).round A) = _
  rw [he i hi, hsum t fun i hi => List.mem_range.1 (ht.mem_iff.1 hi), es]
  show Num.div A _ (fit A.top (A.rd s)) = _
  rw [fit_fin hpos.le (hrn.trans hA.top)]
  show (if A.rd s = 0 then _ else _) = _
  rw [if_neg hpos.ne']
  exact fit_fin (hA.nonneg (div_nonneg (he0 i) hpos.le)) ((hle1 i).trans htop)

/-- The weights of usable log weights: between 0 and 1, 0 for negative infinity, at least one positive. -/
theorem softmax_ok (hA : A.Ok n) (t : SumTree) (ht : t.leaves.Perm (List.range n)) (lw : Nat → Num) (hlw : ∀ i, i < n → lw i ≠ .nan ∧ lw i ≠ .pinf)
    (hfin : ∃ i x, i < n ∧ lw i = .fin x) :
    ∃ w : Nat → ℝ, (∀ i, i < n → softmax A t lw n i = .fin (w i)) ∧ (∀ i, 0 ≤ w i) ∧ (∀ i, A.rd (w i) = w i) ∧ (∀ i, i < n → lw i = .ninf → w i = 0) ∧
      (∀ i, w i ≤ 1) ∧ ∃ i, i < n ∧ 0 < w i := by
  obtain ⟨m, s, j, hj, -, -, -, -, -, he0, -, -, hej, -, -, hr1, hrn, hw, hle1⟩ := softmax_eq hA t ht lw hlw hfin
  have hpos : 0 < A.rd s := by linarith
  refine ⟨fun i => A.rd (expReal A m (lw i) / A.rd s), hw, fun i => hA.nonneg (div_nonneg (he0 i) hpos.le), fun i => hA.rd_idem _, fun i hi hv => ?_, hle1, j, hj, ?_⟩
  · show A.rd (expReal A m (lw i) / _) = 0
    rw [hv, show expReal A m .ninf = 0 from rfl, zero_div, hA.zero]
  · refine lt_of_lt_of_le hA.small (hA.rd_mono ?_)
    rw [hej]
    exact one_div_le_one_div_of_le hpos hrn

/-- The accumulator of `cumsum`, for finite weights. -/
noncomputable def accReal (A : Arith) (w : Nat → ℝ) : Nat → ℝ
  | 0 => w 0
  | i + 1 => A.acc (accReal A w i + w (i + 1))

theorem acc_accReal (hA : A.Ok n) {w : Nat → ℝ} (hr : ∀ i, A.rd (w i) = w i) (i : Nat) : A.acc (accReal A w i) = accReal A w i := by
  cases i with
  | zero => show A.acc (w 0) = w 0; rw [← hr, hA.acc_rd]
  | succ i => exact hA.acc_idem _

/-- The cumulated weights in terms of the accumulator. -/
theorem ncsum_eq (hA : A.Ok n) (hn : 0 < n) (w : Nat → ℝ) (h0 : ∀ i, 0 ≤ w i) (h1 : ∀ i, w i ≤ 1) (hr : ∀ i, A.rd (w i) = w i) (hp : ∃ i, i < n ∧ 0 < w i) (v : Nat → Num)
    (hv : ∀ i, i < n → v i = .fin (w i)) :
    (∀ i, i < n → ncsum A v n i = .fin (A.rd (A.rd (accReal A w i) / A.rd (accReal A w (n - 1))))) ∧ Monotone (accReal A w) ∧ (∀ i, 0 ≤ accReal A w i) ∧
      0 < A.rd (accReal A w (n - 1)) := by
  have hwacc : ∀ i, A.acc (w i) = w i := fun i => by rw [← hr, hA.acc_rd]
  have hasucc : ∀ i, accReal A w (i + 1) = A.acc (accReal A w i + w (i + 1)) := fun i => rfl
  have hmono : Monotone (accReal A w) := by
    refine monotone_nat_of_le_succ fun i => ?_
    rw [hasucc]
    conv_lhs => rw [← acc_accReal hA hr i]
    exact hA.acc_mono (by linarith [h0 (i + 1)])
  have ha0 : ∀ i, 0 ≤ accReal A w i := fun i => (h0 0).trans (hmono (Nat.zero_le i))
  have hle : ∀ i, i < n → accReal A w i ≤ ((i + 1 : Nat) : ℝ) := by
    intro i
    induction i with
    | zero => exact fun _ => (h1 0).trans (by simp)
    | succ i ih =>
      intro h
      rw [hasucc, ← hA.acc_nat _ h]
      refine hA.acc_mono ?_
      have := ih (by omega)
      push_cast at this ⊢
      linarith [h1 (i + 1)]
  have hlen : ∀ i, i < n → accReal A w i ≤ n := fun i hi => (hle i hi).trans (Nat.cast_le.2 hi)
  have ha : ∀ i, i < n → cumAcc A v i = .fin (accReal A w i) := by
    intro i
    induction i with
    | zero => exact fun h => hv 0 h
    | succ i ih =>
      intro h
      show Num.add A (cumAcc A v i) (v (i + 1)) = _
      rw [ih (by omega), hv _ h]
      exact fit_fin (ha0 (i + 1)) ((hlen _ h).trans hA.accTop)
  have hge : ∀ i, w i ≤ accReal A w i := by
    intro i
    cases i with
    | zero => exact le_rfl
    | succ i =>
      rw [hasucc]
      conv_lhs => rw [← hwacc (i + 1)]
      exact hA.acc_mono (by linarith [ha0 i])
  have hcs : ∀ i, i < n → csum A v i = .fin (A.rd (accReal A w i)) := by
    intro i hi
    unfold csum
    rw [ha i hi]
    refine fit_fin (hA.nonneg (ha0 i)) (le_trans ?_ hA.top)
    rw [← hA.rd_nat n le_rfl]
    exact hA.rd_mono (hlen i hi)
  have hcmono : Monotone fun i => A.rd (accReal A w i) := hA.rd_mono.comp hmono
  have hmax : maxOf (csum A v) n = .fin (A.rd (accReal A w (n - 1))) := by
    obtain ⟨n', rfl⟩ := Nat.exists_eq_succ_of_ne_zero hn.ne'
    have hc : ∀ k, k ≤ n' + 1 → maxOf (csum A v) k = maxOf (fun i => .fin (A.rd (accReal A w i))) k := by
      intro k
      induction k with
      | zero => exact fun _ => rfl
      | succ k ih =>
        intro hk
        rw [maxOf_succ, maxOf_succ, ih (by omega), hcs k (by omega)]
    rw [hc _ le_rfl, maxOf_mono _ hcmono]
    rfl
  obtain ⟨j, hj, hwj⟩ := hp
  have hpos : 0 < A.rd (accReal A w (n - 1)) := by
    refine lt_of_lt_of_le hwj ?_
    conv_lhs => rw [← hr j]
    exact hA.rd_mono ((hge j).trans (hmono (by omega)))
  refine ⟨fun i hi => ?_, hmono, ha0, hpos⟩
  unfold ncsum
  rw [hcs i hi, hmax]
  show (if _ = (0 : ℝ) then _ else _) = _
  rw [if_neg hpos.ne']
  refine fit_fin (hA.nonneg (div_nonneg (hA.nonneg (ha0 i)) hpos.le)) (le_trans ?_ hA.top)
  rw [← hA.rd_nat n le_rfl]
  refine hA.rd_mono (((div_le_one hpos).2 (hcmono (show i ≤ n - 1 by omega))).trans ?_)
  exact_mod_cast hn

/-- The cumulated weights: finite, in order, 1 at the end. -/
theorem ncsum_ok (hA : A.Ok n) (hn : 0 < n) (w : Nat → ℝ) (h0 : ∀ i, 0 ≤ w i) (h1 : ∀ i, w i ≤ 1) (hr : ∀ i, A.rd (w i) = w i) (hp : ∃ i, i < n ∧ 0 < w i) (v : Nat → Num) (hv : ∀ i, i < n → v i = .fin (w i)) :
    ∃ c : Nat → ℝ, (∀ i, i < n → ncsum A v n i = .fin (c i)) ∧ (∀ i j, i ≤ j → j < n → c i ≤ c j) ∧ c (n - 1) = 1 ∧ (∀ i, 0 ≤ c i) ∧
      (w 0 = 0 → c 0 = 0) ∧ ∀ i, i + 1 < n → w (i + 1) = 0 → c (i + 1) = c i := by
  obtain ⟨heq, hmono, ha0, hpos⟩ := ncsum_eq hA hn w h0 h1 hr hp v hv
  refine ⟨fun i => A.rd (A.rd (accReal A w i) / A.rd (accReal A w (n - 1))), heq, fun i j hij hj => ?_, ?_,
    fun i => hA.nonneg (div_nonneg (hA.nonneg (ha0 i)) hpos.le), fun h => ?_, fun i hi h => ?_⟩
  · exact hA.rd_mono (div_le_div_of_nonneg_right (hA.rd_mono (hmono hij)) hpos.le)
  · show A.rd (_ / _) = 1
    rw [div_self hpos.ne']
    simpa using hA.rd_nat 1 hn
  · show A.rd (A.rd (accReal A w 0) / _) = 0
    rw [show accReal A w 0 = 0 from h, hA.zero, zero_div, hA.zero]
  · show A.rd (A.rd (accReal A w (i + 1)) / _) = A.rd (A.rd (accReal A w i) / _)
    rw [show accReal A w (i + 1) = A.acc (accReal A w i + w (i + 1)) from rfl, h, add_zero, acc_accReal hA hr]

theorem ge_fin (x y : ℝ) : (Num.fin x).ge (.fin y) = true ↔ y ≤ x := by simp [Num.ge]

/-- The steps: between 0 and 1, in order. -/
theorem ustep_ok (hA : A.Ok n) (hn : 0 < n) (u : ℝ) (h0 : 0 ≤ u) (h1 : u ≤ 1) :
    (∀ k, 0 ≤ ustep A n u k) ∧ (∀ k, k < n → ustep A n u k ≤ 1) ∧ (∀ k k', k ≤ k' → ustep A n u k ≤ ustep A n u k') ∧
      ∀ k, 0 < k → k < n → 0 < ustep A n u k := by
  have hn' : (0 : ℝ) < n := by exact_mod_cast hn
  refine ⟨fun k => hA.nonneg (div_nonneg (hA.nonneg (by positivity)) hn'.le), fun k hk => ?_, fun k k' hk => ?_, fun k h0k hk => ?_⟩
  · have h : A.rd (k + u) ≤ n := by
      rw [← hA.rd_nat n le_rfl]
      refine hA.rd_mono ?_
      have : (k : ℝ) + 1 ≤ n := by exact_mod_cast hk
      linarith
    have := hA.rd_nat 1 hn
    rw [Nat.cast_one] at this
    unfold ustep
    rw [← this]
    exact hA.rd_mono ((div_le_one hn').2 h)
  · refine hA.rd_mono (div_le_div_of_nonneg_right (hA.rd_mono ?_) hn'.le)
    have : (k : ℝ) ≤ k' := by exact_mod_cast hk
    linarith
  · refine lt_of_lt_of_le hA.small (hA.rd_mono ?_)
    refine div_le_div_of_nonneg_right ?_ hn'.le
    have := hA.rd_nat 1 hn
    rw [Nat.cast_one] at this
    rw [← this]
    refine hA.rd_mono ?_
    have : (1 : ℝ) ≤ k := by exact_mod_cast h0k
    linarith

/-- What the search finds, in terms of the cumulated weights and the steps. -/
theorem ancestor_ok (hA : A.Ok n) (hn : 0 < n) (t : SumTree) (lw : Nat → Num) (c : Nat → ℝ) (hc : ∀ i, i < n → ncsum A (softmax B t lw n) n i = .fin (c i))
    (cmono : ∀ i j, i ≤ j → j < n → c i ≤ c j) (clast : c (n - 1) = 1) (u : ℝ) (h0 : 0 ≤ u) (h1 : u ≤ 1) (k : Nat) (hk : k < n) :
    ancestor A B t lw n u k < n ∧ (∀ i, i < ancestor A B t lw n u k → c i < ustep A n u k) ∧ ∀ i, ancestor A B t lw n u k ≤ i → i < n → ustep A n u k ≤ c i := by
  obtain ⟨u0, u1, -, -⟩ := ustep_ok hA hn u h0 h1
  have hup : ∀ i j, i ≤ j → j < n → ((ncsum A (softmax B t lw n) n) i).ge (.fin (ustep A n u k)) = true →
      ((ncsum A (softmax B t lw n) n) j).ge (.fin (ustep A n u k)) = true := by
    intro i j hij hj
    rw [hc i (by omega), hc j hj, ge_fin, ge_fin]
    exact fun h => h.trans (cmono i j hij hj)
  obtain ⟨b1, b2, b3⟩ := lowerBound_spec _ (.fin (ustep A n u k)) n hup 0 n (Nat.zero_le n) le_rfl (fun i hi => absurd hi (Nat.not_lt_zero i)) fun i hi hi' => absurd hi' (by omega)
  have hlt : ancestor A B t lw n u k < n := by
    by_contra hcon
    have := b2 (n - 1) (show n - 1 < ancestor A B t lw n u k by omega)
    rw [hc _ (by omega), ← Bool.not_eq_true, ge_fin, clast] at this
    exact this (u1 k hk)
  refine ⟨hlt, fun i hi => ?_, fun i hi hin => ?_⟩
  · have := b2 i hi
    rw [hc i (by omega), ← Bool.not_eq_true, ge_fin] at this
    exact not_le.1 this
  · have := b3 i hi hin
    rwa [hc i hin, ge_fin] at this

theorem Num.div_nan (x : Num) : x.div A .nan = .nan := by cases x <;> rfl

/-- The weights of unusable log weights are all NaN. -/
theorem softmax_nan (hn : 0 < n) (t : SumTree) (ht : t.leaves.Perm (List.range n)) (lw : Nat → Num)
    (h : (∃ i, i < n ∧ (lw i = .nan ∨ lw i = .pinf)) ∨ ∀ i, i < n → lw i = .ninf) : ∀ i, softmax A t lw n i = .nan := by
  -- some exponential is NaN
  obtain ⟨i, hi, he⟩ : ∃ i, i < n ∧ ((lw i).sub A (maxOf lw n)).exp A = .nan := by
    rcases h with ⟨i, hi, hv⟩ | hall
    · by_cases hnan : ∃ j, j < n ∧ lw j = .nan
      · obtain ⟨j, hj, hv⟩ := hnan
        refine ⟨j, hj, ?_⟩
        rw [hv]
        rfl
      · refine ⟨i, hi, ?_⟩
        have hv : lw i = .pinf := hv.resolve_left fun h => hnan ⟨i, hi, h⟩
        have hmax : ∀ k, i < k → k ≤ n → maxOf lw k = .pinf := by
          intro k
          induction k with
          | zero => exact fun h => absurd h (Nat.not_lt_zero i)
          | succ k ih =>
            intro hk hkn
            rw [maxOf_succ]
            rcases Nat.lt_succ_iff_lt_or_eq.1 hk with hk | rfl
            · rw [ih hk (by omega)]
              cases hl : lw k with
              | nan => exact absurd ⟨k, by omega, hl⟩ hnan
              | _ => rfl
            · rw [hv]
              have : ∀ k, k ≤ n → maxOf lw k ≠ .nan := by
                intro k
                induction k with
                | zero => exact fun _ h => by cases h
                | succ k ih =>
                  intro hk
                  rw [maxOf_succ]
                  have h1 := ih (by omega)
                  have h2 : lw k ≠ .nan := fun h => hnan ⟨k, by omega, h⟩
                  revert h1 h2
                  cases maxOf lw k <;> cases lw k <;> intro h1 h2 h3 <;> first | exact h1 rfl | exact h2 rfl | cases h3
              have h1 := this i (by omega)
              revert h1
              cases maxOf lw i <;> intro h1 <;> first | exact absurd rfl h1 | rfl
        rw [hv, hmax n hi le_rfl]
        rfl
    · refine ⟨0, hn, ?_⟩
      have hmax : ∀ k, k ≤ n → maxOf lw k = .ninf := by
        intro k
        induction k with
        | zero => exact fun _ => rfl
        | succ k ih =>
          intro hk
          rw [maxOf_succ, ih (by omega), hall k (by omega)]
          rfl
      rw [hall 0 hn, hmax n le_rfl]
      rfl
  -- so is their sum, and every weight
  have hs : ((t.sum A fun i => ((lw i).sub A (maxOf lw n)).exp A).round A) = .nan := by
    rw [sum_nan (A := A) (fun i => ((lw i).sub A (maxOf lw n)).exp A) he t (ht.mem_iff.2 (List.mem_range.2 hi))]
    rfl
  intro i
  show Num.div A _ ((t.sum A fun i => ((lw i).sub A (maxOf lw n)).exp A).round A) = _
  rw [hs, Num.div_nan]

end

end Fp
end Verif
