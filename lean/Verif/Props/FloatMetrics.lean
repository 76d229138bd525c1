import Mathlib.Analysis.Complex.ExponentialBounds
import Verif.Model.FloatMetrics
import Verif.Proofs.Ieee
/-
C89: the metrics and the log weight after resampling in floating-point arithmetic.
-/
namespace Verif
namespace Fp

theorem sum_pinf (A : Arith) (v : Nat → Num) {i : Nat} (h : v i = .pinf) (hz : ∀ x, 0 ≤ x → 0 ≤ A.acc x) :
    ∀ t : SumTree, (∀ j ∈ t.leaves, v j = .pinf ∨ ∃ x, 0 ≤ x ∧ v j = .fin x) →
      (t.sum A v = .pinf ∨ ∃ x, 0 ≤ x ∧ t.sum A v = .fin x) ∧ (i ∈ t.leaves → t.sum A v = .pinf)
  | .leaf j, hv => ⟨hv j (by simp [SumTree.leaves]), fun hi => by
    rw [SumTree.leaves, List.mem_singleton] at hi
    subst hi
    exact h⟩
  | .node l r, hv => by
    obtain ⟨l1, l2⟩ := sum_pinf A v h hz l fun j hj => hv j (List.mem_append_left _ hj)
    obtain ⟨r1, r2⟩ := sum_pinf A v h hz r fun j hj => hv j (List.mem_append_right _ hj)
    show (Num.add A (l.sum A v) (r.sum A v) = .pinf ∨ ∃ x, 0 ≤ x ∧ Num.add A (l.sum A v) (r.sum A v) = .fin x) ∧ (_ → Num.add A (l.sum A v) (r.sum A v) = .pinf)
    refine ⟨?_, fun hi => ?_⟩
    · rcases l1 with e | ⟨x, hx, e⟩ <;> rcases r1 with e' | ⟨y, hy, e'⟩ <;> rw [e, e']
      · exact .inl rfl
      · exact .inl rfl
      · exact .inl rfl
      · have h0 := hz (x + y) (by linarith)
        show fit _ _ = _ ∨ ∃ z, 0 ≤ z ∧ fit _ _ = _
        unfold fit
        split_ifs with a b
        · exact .inl rfl
        · linarith
        · exact .inr ⟨_, h0, rfl⟩
    · rcases List.mem_append.1 hi with hi | hi
      · rw [l2 hi]
        rcases r1 with e' | ⟨y, hy, e'⟩ <;> rw [e'] <;> rfl
      · rw [r2 hi]
        rcases l1 with e' | ⟨y, hy, e'⟩ <;> rw [e'] <;> rfl

theorem sum_zero (A : Arith) (v : Nat → Num) (hz : A.acc 0 = 0) (ht : 0 ≤ A.accTop) :
    ∀ t : SumTree, (∀ j ∈ t.leaves, v j = .fin 0) → t.sum A v = .fin 0
  | .leaf j, hv => hv j (by simp [SumTree.leaves])
  | .node l r, hv => by
    show Num.add A (l.sum A v) (r.sum A v) = _
    rw [sum_zero A v hz ht l fun j hj => hv j (List.mem_append_left _ hj), sum_zero A v hz ht r fun j hj => hv j (List.mem_append_right _ hj)]
    show fit _ (A.acc (0 + 0)) = _
    rw [add_zero, hz]
    exact fit_fin le_rfl ht

section
variable {A : Arith} {n : Nat}

/-- C89. `log_Z_hat` is infinite as soon as the exponential of one log weight is too large, whatever the others. -/
theorem C89_overflow (hA : A.Ok n) (t : SumTree) (ht : t.leaves.Perm (List.range n)) (lw : Nat → Num) (hnan : ∀ i, i < n → lw i ≠ .nan)
    (h : ∃ i, i < n ∧ (lw i = .pinf ∨ ∃ x, lw i = .fin x ∧ A.top < A.exp x)) : logZHat A t lw n = .pinf := by
  obtain ⟨i, hi, hv⟩ := h
  have htop : 0 ≤ A.top := (Nat.cast_nonneg n).trans hA.top
  have he : (lw i).exp A = .pinf := by
    rcases hv with hv | ⟨x, hv, hx⟩
    · rw [hv]; rfl
    · rw [hv]
      exact if_pos hx
  have hz : A.acc 0 = 0 := by simpa using hA.acc_nat 0 (Nat.zero_le n)
  have hs := (sum_pinf A (fun i => (lw i).exp A) he (fun x hx => hz ▸ hA.acc_mono hx) t fun j hj => ?_).2 (ht.mem_iff.2 (List.mem_range.2 hi))
  · unfold logZHat zHat
    rw [hs]
    show Num.log A (if (0 : ℝ) ≤ n then _ else _) = _
    rw [if_pos (Nat.cast_nonneg n)]
    rfl
  · have hj := List.mem_range.1 (ht.mem_iff.1 hj)
    show (lw j).exp A = _ ∨ ∃ x, 0 ≤ x ∧ (lw j).exp A = _
    cases hl : lw j with
    | nan => exact absurd hl (hnan j hj)
    | pinf => exact .inl rfl
    | ninf => exact .inr ⟨0, le_rfl, rfl⟩
    | fin x =>
      have h0 := hA.exp_nonneg x
      show fit _ _ = _ ∨ ∃ z, 0 ≤ z ∧ fit _ _ = _
      unfold fit
      split_ifs with a b
      · exact .inl rfl
      · linarith
      · exact .inr ⟨_, h0, rfl⟩

/-- C89. `log_Z_hat` is negative infinity as soon as all exponentials round to zero. -/
theorem C89_underflow (hA : A.Ok n) (hn : 0 < n) (t : SumTree) (ht : t.leaves.Perm (List.range n)) (lw : Nat → Num)
    (h : ∀ i, i < n → lw i = .ninf ∨ ∃ x, lw i = .fin x ∧ A.exp x = 0) : logZHat A t lw n = .ninf := by
  have htop : 0 ≤ A.top := (Nat.cast_nonneg n).trans hA.top
  have hz : A.acc 0 = 0 := by simpa using hA.acc_nat 0 (Nat.zero_le n)
  have hs := sum_zero A (fun i => (lw i).exp A) hz ((Nat.cast_nonneg n).trans hA.accTop) t fun j hj => ?_
  · unfold logZHat zHat
    rw [hs]
    show Num.log A (Num.div A (fit A.top (A.rd 0)) _) = _
    rw [hA.zero, fit_fin le_rfl htop]
    show Num.log A (if (n : ℝ) = 0 then _ else fit A.top (A.rd (0 / n))) = _
    rw [if_neg (by exact_mod_cast hn.ne'), zero_div, hA.zero, fit_fin le_rfl htop]
    show (if _ then _ else if _ then _ else _) = _
    rw [if_neg (lt_irrefl _), if_pos rfl]
  · have hj := List.mem_range.1 (ht.mem_iff.1 hj)
    show (lw j).exp A = _
    rcases h j hj with hl | ⟨x, hl, hx⟩
    · rw [hl]; rfl
    · rw [hl]
      show fit _ _ = _
      rw [hx]
      exact fit_fin le_rfl htop

end

/-- C89. With float32 log weights all at most -110, such as those of images usually are, `log_Z_hat` is negative infinity. -/
theorem C89_low_float32 {d : Bool} {n : Nat} (hn : 0 < n) (hn' : n ≤ 2 ^ 24) (t : SumTree) (ht : t.leaves.Perm (List.range n)) (x : Nat → ℝ) (hx : ∀ i, i < n → x i ≤ -110) :
    logZHat (float32 d) t (fun i => .fin (x i)) n = .ninf := by
  refine C89_underflow (float32_ok hn hn') hn t ht _ fun i hi => .inr ⟨x i, rfl, ?_⟩
  show b32.round (Real.exp (x i)) = 0
  have hpos := Real.exp_pos (x i)
  have h1 : Real.exp (x i) < (2 : ℝ) ^ (-150 : ℤ) := by
    refine lt_of_le_of_lt (Real.exp_le_exp.2 (hx i hi)) ?_
    rw [Real.exp_neg, zpow_neg]
    refine inv_strictAnti₀ (by positivity) ?_
    rw [show (110 : ℝ) = (110 : Nat) * 1 by norm_num, Real.exp_nat_mul]
    refine lt_of_lt_of_le ?_ (pow_le_pow_left₀ (by norm_num) Real.exp_one_gt_d9.le 110)
    norm_num
  have hul : b32.ulpExp (Real.exp (x i)) = -149 := by
    unfold Format.ulpExp
    refine max_eq_right ?_
    have h2 : (2 : ℝ) ^ Int.log 2 |Real.exp (x i)| ≤ |Real.exp (x i)| := by exact_mod_cast Int.zpow_log_le_self (b := 2) (by norm_num) (abs_pos.2 hpos.ne')
    rw [abs_of_pos hpos] at h2 ⊢
    have := (zpow_lt_zpow_iff_right₀ (by norm_num : (1 : ℝ) < 2)).1 (lt_of_le_of_lt h2 h1)
    show Int.log 2 (Real.exp (x i)) + 1 - 24 ≤ -149
    omega
  unfold Format.round
  rw [hul]
  have h3 : Real.exp (x i) / (2 : ℝ) ^ (-149 : ℤ) < 1 / 2 := by
    rw [div_lt_iff₀ (by positivity)]
    refine lt_of_lt_of_le h1 (le_of_eq ?_)
    rw [show (-150 : ℤ) = -1 + -149 by norm_num, zpow_add₀ (by norm_num)]
    norm_num
  have h4 : 0 < Real.exp (x i) / (2 : ℝ) ^ (-149 : ℤ) := by positivity
  have hfl : ⌊Real.exp (x i) / (2 : ℝ) ^ (-149 : ℤ)⌋ = 0 := Int.floor_eq_zero_iff.2 ⟨h4.le, by linarith⟩
  have : nearbyint (Real.exp (x i) / (2 : ℝ) ^ (-149 : ℤ)) = 0 := by
    unfold nearbyint
    rw [hfl, if_pos (by simpa using h3)]
  rw [this]
  simp

/-- C89. With one float32 log weight of at least 89, `log_Z_hat` is positive infinity. -/
theorem C89_high_float32 {d : Bool} {n : Nat} (hn : 0 < n) (hn' : n ≤ 2 ^ 24) (t : SumTree) (ht : t.leaves.Perm (List.range n)) (x : Nat → ℝ) (hx : ∃ i, i < n ∧ 89 ≤ x i) :
    logZHat (float32 d) t (fun i => .fin (x i)) n = .pinf := by
  obtain ⟨i, hi, hx⟩ := hx
  refine C89_overflow (float32_ok hn hn') t ht _ (fun _ _ h => by cases h) ⟨i, hi, .inr ⟨x i, rfl, ?_⟩⟩
  show (2 ^ 24 - 1) * 2 ^ 104 < b32.round (Real.exp (x i))
  have hrep : b32.Rep (2 ^ 128) := ⟨1, 128, by decide, by rw [abs_one]; exact one_le_pow₀ (by norm_num), by norm_num⟩
  have h1 : (2 : ℝ) ^ 128 ≤ Real.exp (x i) := by
    refine le_trans ?_ (Real.exp_le_exp.2 hx)
    rw [show (89 : ℝ) = (89 : Nat) * 1 by norm_num, Real.exp_nat_mul]
    refine le_trans ?_ (pow_le_pow_left₀ (by norm_num) Real.exp_one_gt_d9.le 89)
    norm_num
  have h2 := round_mono b32 (by decide) h1
  rw [round_of_rep b32 (by decide) hrep] at h2
  refine lt_of_lt_of_le ?_ h2
  norm_num

/-- `logsumexp` of usable numbers in float32, in terms of their maximum. -/
theorem logsumexp_float32 {d : Bool} {n : Nat} (hn : 0 < n) (hn' : n ≤ 2 ^ 24) (t : SumTree) (ht : t.leaves.Perm (List.range n)) (v : Nat → Num) (hv : ∀ i, i < n → v i ≠ .nan ∧ v i ≠ .pinf)
    (hfin : ∃ i x, i < n ∧ v i = .fin x) :
    ∃ m L, 0 ≤ L ∧ L ≤ 17 ∧ (∃ j, j < n ∧ v j = .fin m) ∧ (∀ i x, i < n → v i = .fin x → x ≤ m) ∧ logsumexp (float32 d) t v n = fit (float32 d).top ((float32 d).rd (L + m)) := by
  have hA := float32_ok (d := d) hn hn'
  obtain ⟨m, s, j, hj, hjm, hle, em, es, -, -, -, -, -, hs1, hsn, hr1, hrn, -, -⟩ := softmax_eq hA t ht v hv hfin
  have h17 : b32.round 17 = 17 := by simpa using round_of_rep b32 (by decide) (rep_nat b32 (by decide) (k := 17) (by decide))
  refine ⟨m, (float32 d).log ((float32 d).rd s), ?_, ?_, ⟨j, hj, hjm⟩, hle, ?_⟩
  · show 0 ≤ b32.round (Real.log ((float32 d).rd s))
    rw [← round_zero b32]
    exact round_mono b32 (by decide) (Real.log_nonneg hr1)
  · show b32.round (Real.log ((float32 d).rd s)) ≤ 17
    rw [← h17]
    refine round_mono b32 (by decide) ?_
    have hle : (float32 d).rd s ≤ 2 ^ 24 := hrn.trans (by exact_mod_cast hn')
    have h2 := Real.log_le_log (by linarith) hle
    rw [Real.log_pow] at h2
    refine h2.trans ?_
    have := Real.log_two_lt_d9
    push_cast
    linarith
  · unfold logsumexp
    simp only
    rw [em] at es ⊢
    show Num.plus (float32 d) (Num.log (float32 d) (Num.round (float32 d) (t.sum (float32 d) fun i => Num.exp (float32 d) (Num.sub (float32 d) (v i) (.fin m))))) (.fin m) = _
    rw [es]
    show Num.plus (float32 d) (Num.log (float32 d) (fit (float32 d).top ((float32 d).rd s))) (.fin m) = _
    rw [fit_fin (by linarith) (hrn.trans hA.top)]
    show Num.plus (float32 d) (if _ then _ else if _ then _ else _) (.fin m) = _
    rw [if_neg (by linarith), if_neg (by linarith)]
    rfl

theorem rep_int (F : Format) (he : F.emin ≤ 0) {k : ℤ} (h : |k| ≤ 2 ^ F.p) : F.Rep k := ⟨k, 0, he, h, by simp⟩

/-- C89. The effective sample size of usable float32 log weights is a positive finite number. -/
theorem C89_ess_float32 {d d' : Bool} {n : Nat} (hn : 0 < n) (hn' : n ≤ 2 ^ 24) (t t' : SumTree) (ht : t.leaves.Perm (List.range n)) (ht' : t'.leaves.Perm (List.range n)) (lw : Nat → Num)
    (hlw : ∀ i, i < n → lw i ≠ .nan ∧ lw i ≠ .pinf) (hfin : ∃ i x, i < n ∧ lw i = .fin x) : ∃ x, 0 < x ∧ ess (float32 d) (float32 d') t t' lw n = .fin x := by
  have hA := float32_ok (d := d') hn hn'
  have hmono : Monotone b32.round := round_mono b32 (by decide)
  have hz : b32.round 0 = 0 := round_zero b32
  have hint : ∀ k : ℤ, |k| ≤ 2 ^ 24 → b32.round k = k := fun k hk => round_of_rep b32 (by decide) (rep_int b32 (by decide) hk)
  have htop : (2 : ℝ) ^ 100 ≤ (float32 d).top := by
    show (2 : ℝ) ^ 100 ≤ (2 ^ 24 - 1) * 2 ^ 104
    norm_num
  obtain ⟨w, hw, w0, wr, -, w1, wpos⟩ := softmax_ok hA t ht lw hlw hfin
  obtain ⟨j, hj, hwj⟩ : ∃ j, j < n ∧ (1 : ℝ) / 2 ^ 24 ≤ w j := by
    obtain ⟨m, s, j, hj, -, -, -, -, -, he0, -, -, hej, -, -, hr1, hrn, hsm, -⟩ := softmax_eq hA t ht lw hlw hfin
    refine ⟨j, hj, ?_⟩
    have h := hw j hj
    rw [hsm j hj, hej] at h
    rw [← Num.fin.inj h]
    have hrep : b32.Rep (1 / 2 ^ 24) := ⟨1, -24, by decide, by rw [abs_one]; exact one_le_pow₀ (by norm_num), by norm_num [zpow_neg]⟩
    show _ ≤ b32.round _
    rw [← round_of_rep b32 (by decide) hrep]
    exact hmono (one_div_le_one_div_of_le (by linarith) (hrn.trans (by exact_mod_cast hn')))
  -- twice the logarithms
  have hlog0 : ∀ x : ℝ, 0 < x → x ≤ 1 → b32.round (2 * b32.round (Real.log x)) ≤ 0 := by
    intro x hx hx1
    rw [← hz]
    refine hmono ?_
    have : b32.round (Real.log x) ≤ 0 := hz ▸ hmono (Real.log_nonpos hx.le hx1)
    linarith
  have hv : ∀ i, i < n → ((softmax (float32 d') t lw n i).log (float32 d)).two (float32 d) =
      if w i = 0 then .ninf else fit (float32 d).top (b32.round (2 * b32.round (Real.log (w i)))) := by
    intro i hi
    rw [hw i hi]
    show Num.two (float32 d) (if w i < 0 then _ else if w i = 0 then _ else _) = _
    rw [if_neg (not_lt.2 (w0 i))]
    split_ifs <;> rfl
  have hvok : ∀ i, i < n → ((softmax (float32 d') t lw n i).log (float32 d)).two (float32 d) ≠ .nan ∧ ((softmax (float32 d') t lw n i).log (float32 d)).two (float32 d) ≠ .pinf := by
    intro i hi
    rw [hv i hi]
    split_ifs with h
    · exact ⟨fun h => (by cases h), fun h => (by cases h)⟩
    · have h0 := hlog0 (w i) (lt_of_le_of_ne (w0 i) (Ne.symm h)) (w1 i)
      unfold fit
      rw [if_neg (by linarith [show (0 : ℝ) < 2 ^ 100 by positivity])]
      split_ifs
      · exact ⟨fun h => (by cases h), fun h => (by cases h)⟩
      · exact ⟨fun h => (by cases h), fun h => (by cases h)⟩
  have hlogj : -34 ≤ b32.round (2 * b32.round (Real.log (w j))) := by
    have h17 := hint (-17) (by norm_num)
    have h34 := hint (-34) (by norm_num)
    push_cast at h17 h34
    have h1 : -17 ≤ Real.log (w j) := by
      have := Real.log_le_log (by positivity) hwj
      rw [Real.log_div (by norm_num) (by positivity), Real.log_one, Real.log_pow] at this
      have h2 := Real.log_two_lt_d9
      push_cast at this
      linarith
    have h2 : -17 ≤ b32.round (Real.log (w j)) := h17 ▸ hmono h1
    rw [← h34]
    exact hmono (by linarith)
  have hwj0 : 0 < w j := lt_of_lt_of_le (by positivity) hwj
  have hvj : ((softmax (float32 d') t lw n j).log (float32 d)).two (float32 d) = .fin (b32.round (2 * b32.round (Real.log (w j)))) := by
    rw [hv j hj, if_neg hwj0.ne']
    unfold fit
    have := hlog0 (w j) hwj0 (w1 j)
    rw [if_neg (by linarith [show (0 : ℝ) < 2 ^ 100 by positivity]), if_neg (by linarith [show (34 : ℝ) < 2 ^ 100 by norm_num])]
  obtain ⟨m, L, hL0, hL, ⟨i, hi, hm⟩, hle, hlse⟩ := logsumexp_float32 (d := d) hn hn' t' ht' _ hvok ⟨j, _, hj, hvj⟩
  have hm34 : -34 ≤ m := hlogj.trans (hle j _ hj hvj)
  have hm0 : m ≤ 0 := by
    rw [hv i hi] at hm
    split_ifs at hm with h
    have h0 := hlog0 (w i) (lt_of_le_of_ne (w0 i) (Ne.symm h)) (w1 i)
    unfold fit at hm
    split_ifs at hm
    rw [← Num.fin.inj hm]
    exact h0
  have hy1 : -34 ≤ (float32 d).rd (L + m) := by
    have h34 := hint (-34) (by norm_num)
    push_cast at h34
    show -34 ≤ b32.round (L + m)
    rw [← h34]
    exact hmono (by linarith)
  have hy2 : (float32 d).rd (L + m) ≤ 17 := by
    have h17 := hint 17 (by norm_num)
    push_cast at h17
    show b32.round (L + m) ≤ 17
    rw [← h17]
    exact hmono (by linarith)
  set y := (float32 d).rd (L + m) with hy
  have hfit : fit (float32 d).top y = .fin y := by
    unfold fit
    rw [if_neg (by linarith [show (17 : ℝ) < 2 ^ 100 by norm_num]), if_neg (by linarith [show (34 : ℝ) < 2 ^ 100 by norm_num])]
  have hexp0 : 0 < b32.round (Real.exp (-y)) := by
    have hrep : b32.Rep (1 / 2 ^ 30) := ⟨1, -30, by decide, by rw [abs_one]; exact one_le_pow₀ (by norm_num), by norm_num [zpow_neg]⟩
    have h1 : (1 : ℝ) / 2 ^ 30 ≤ Real.exp (-y) := by
      have h3 : Real.exp (-17) ≤ Real.exp (-y) := Real.exp_le_exp.2 (by linarith)
      refine le_trans ?_ h3
      rw [Real.exp_neg, ← one_div]
      refine one_div_le_one_div_of_le (Real.exp_pos _) ?_
      rw [show (17 : ℝ) = (17 : Nat) * 1 by norm_num, Real.exp_nat_mul]
      refine (pow_le_pow_left₀ (Real.exp_pos 1).le Real.exp_one_lt_d9.le 17).trans ?_
      norm_num
    have h2 := hmono h1
    rw [round_of_rep b32 (by decide) hrep] at h2
    exact lt_of_lt_of_le (by positivity) h2
  have hexp1 : b32.round (Real.exp (-y)) ≤ (float32 d).top := by
    have hrep : b32.Rep (2 ^ 60) := ⟨1, 60, by decide, by rw [abs_one]; exact one_le_pow₀ (by norm_num), by norm_num⟩
    have h1 : Real.exp (-y) ≤ 2 ^ 60 := by
      have h3 : Real.exp (-y) ≤ Real.exp 34 := Real.exp_le_exp.2 (by linarith)
      refine h3.trans ?_
      rw [show (34 : ℝ) = (34 : Nat) * 1 by norm_num, Real.exp_nat_mul]
      refine (pow_le_pow_left₀ (Real.exp_pos 1).le Real.exp_one_lt_d9.le 34).trans ?_
      norm_num
    have h2 := hmono h1
    rw [round_of_rep b32 (by decide) hrep] at h2
    refine h2.trans (le_trans ?_ htop)
    norm_num
  refine ⟨b32.round (Real.exp (-y)), hexp0, ?_⟩
  unfold ess
  rw [hlse, hfit]
  exact fit_fin hexp0.le hexp1

/-- C89. The effective sample size of unusable log weights is NaN. -/
theorem C89_ess_nan {A B : Arith} {n : Nat} (hn : 0 < n) (t t' : SumTree) (ht : t.leaves.Perm (List.range n)) (ht' : t'.leaves.Perm (List.range n)) (lw : Nat → Num)
    (h : (∃ i, i < n ∧ (lw i = .nan ∨ lw i = .pinf)) ∨ ∀ i, i < n → lw i = .ninf) : ess A B t t' lw n = .nan := by
  have hs := softmax_nan (A := B) hn t ht lw h
  have hv : (fun i => ((softmax B t lw n i).log A).two A) = fun _ => Num.nan := by
    funext i
    rw [hs]
    rfl
  unfold ess
  rw [hv]
  unfold logsumexp
  simp only
  rw [sum_nan (A := A) (i := 0) (fun _ => Num.exp A (Num.sub A .nan _)) rfl t' (ht'.mem_iff.2 (List.mem_range.2 hn))]
  rfl

/-- C89. The log weight after resampling usable float32 log weights of moderate size is a finite number, at least each log weight minus `log n`, and at most
17 larger than one of these, up to rounding. -/
theorem C89_new_weight_float32 {d : Bool} {n : Nat} (hn : 0 < n) (hn' : n ≤ 2 ^ 24) (t : SumTree) (ht : t.leaves.Perm (List.range n)) (lw : Nat → Num)
    (hlw : ∀ i, i < n → lw i ≠ .nan ∧ lw i ≠ .pinf) (hfin : ∃ i x, i < n ∧ lw i = .fin x) (hsize : ∀ i x, i < n → lw i = .fin x → |x| ≤ 2 ^ 100) (logn : ℝ) (h0 : 0 ≤ logn) (h17 : logn ≤ 17) :
    ∃ y, newLogWeight (float32 d) t lw n logn = .fin y ∧ (∀ i x, i < n → lw i = .fin x → (float32 d).rd (x - logn) ≤ y) ∧
      ∃ i x, i < n ∧ lw i = .fin x ∧ y ≤ (float32 d).rd (17 + (float32 d).rd (x - logn)) := by
  have hmono : Monotone b32.round := round_mono b32 (by decide)
  have hpow : b32.round (2 ^ 101) = 2 ^ 101 := round_of_rep b32 (by decide) ⟨1, 101, by decide, by rw [abs_one]; exact one_le_pow₀ (by norm_num), by norm_num⟩
  have hpow' : b32.round (-2 ^ 101) = -2 ^ 101 := round_of_rep b32 (by decide) ⟨-1, 101, by decide, by rw [abs_neg, abs_one]; exact one_le_pow₀ (by norm_num), by norm_num⟩
  have hpow2 : b32.round (2 ^ 102) = 2 ^ 102 := round_of_rep b32 (by decide) ⟨1, 102, by decide, by rw [abs_one]; exact one_le_pow₀ (by norm_num), by norm_num⟩
  have htop : (2 : ℝ) ^ 102 ≤ (float32 d).top := by
    show (2 : ℝ) ^ 102 ≤ (2 ^ 24 - 1) * 2 ^ 104
    norm_num
  have hx : ∀ i x, i < n → lw i = .fin x → (lw i).sub (float32 d) (.fin logn) = .fin ((float32 d).rd (x - logn)) ∧ |(float32 d).rd (x - logn)| ≤ 2 ^ 101 := by
    intro i x hi hl
    have hb := abs_le.1 (hsize i x hi hl)
    have h1 : (float32 d).rd (x - logn) ≤ 2 ^ 101 := by
      show b32.round _ ≤ _
      rw [← hpow]
      refine hmono ?_
      linarith [show (2 : ℝ) ^ 100 ≤ 2 ^ 101 by norm_num]
    have h2 : -2 ^ 101 ≤ (float32 d).rd (x - logn) := by
      show _ ≤ b32.round _
      rw [← hpow']
      refine hmono ?_
      linarith [show (2 : ℝ) ^ 100 + 17 ≤ 2 ^ 101 by norm_num]
    refine ⟨?_, abs_le.2 ⟨h2, h1⟩⟩
    rw [hl]
    show fit _ _ = _
    unfold fit
    rw [if_neg (by linarith [show (2 : ℝ) ^ 101 < 2 ^ 102 by norm_num]), if_neg (by linarith [show (2 : ℝ) ^ 101 < 2 ^ 102 by norm_num])]
  have hvok : ∀ i, i < n → (lw i).sub (float32 d) (.fin logn) ≠ .nan ∧ (lw i).sub (float32 d) (.fin logn) ≠ .pinf := by
    intro i hi
    cases hl : lw i with
    | nan => exact absurd hl (hlw i hi).1
    | pinf => exact absurd hl (hlw i hi).2
    | ninf => exact ⟨fun h => (by cases h), fun h => (by cases h)⟩
    | fin x =>
      have := (hx i x hi hl).1
      rw [hl] at this
      rw [this]
      exact ⟨fun h => (by cases h), fun h => (by cases h)⟩
  obtain ⟨i₀, x₀, hi₀, hx₀⟩ := hfin
  obtain ⟨m, L, hL0, hL, ⟨i, hi, hm⟩, hle, hlse⟩ := logsumexp_float32 hn hn' t ht _ hvok ⟨i₀, _, hi₀, (hx i₀ x₀ hi₀ hx₀).1⟩
  obtain ⟨x, hlx⟩ : ∃ x, lw i = .fin x := by
    cases hl : lw i with
    | nan => exact absurd hl (hlw i hi).1
    | pinf => exact absurd hl (hlw i hi).2
    | ninf => rw [hl] at hm; cases hm
    | fin x => exact ⟨x, rfl⟩
  have hmx : m = (float32 d).rd (x - logn) := by
    have := (hx i x hi hlx).1
    rw [hm] at this
    exact Num.fin.inj this
  have hmb := abs_le.1 (hmx ▸ (hx i x hi hlx).2)
  have hidem : b32.round m = m := by
    rw [hmx]
    exact round_of_rep b32 (by decide) (round_rep b32 _)
  have hge : m ≤ (float32 d).rd (L + m) := by
    show m ≤ b32.round _
    conv_lhs => rw [← hidem]
    exact hmono (by linarith)
  have hup : (float32 d).rd (L + m) ≤ 2 ^ 102 := by
    show b32.round _ ≤ _
    rw [← hpow2]
    refine hmono ?_
    linarith [show (17 : ℝ) + 2 ^ 101 ≤ 2 ^ 102 by norm_num]
  refine ⟨(float32 d).rd (L + m), ?_, fun i' x' hi' hl' => (hle i' _ hi' (hx i' x' hi' hl').1).trans hge, i, x, hi, hlx, ?_⟩
  · unfold newLogWeight
    rw [hlse]
    unfold fit
    rw [if_neg (by linarith), if_neg (by linarith [show (2 : ℝ) ^ 101 ≤ 2 ^ 102 by norm_num])]
  · rw [← hmx]
    exact hmono (by linarith)

/-- C89. The exact logarithm of the mean of the weights lies between the log weights. -/
theorem C89_exact {n : Nat} (x : Nat → ℝ) {a b : ℝ} (hn : 0 < n) (ha : ∀ i, i < n → a ≤ x i) (hb : ∀ i, i < n → x i ≤ b) :
    a ≤ Real.log ((∑ i ∈ Finset.range n, Real.exp (x i)) / n) ∧ Real.log ((∑ i ∈ Finset.range n, Real.exp (x i)) / n) ≤ b := by
  have hn' : (0 : ℝ) < n := by exact_mod_cast hn
  have h1 : n * Real.exp a ≤ ∑ i ∈ Finset.range n, Real.exp (x i) := by
    have := Finset.card_nsmul_le_sum (Finset.range n) (fun i => Real.exp (x i)) (Real.exp a) fun i hi => Real.exp_le_exp.2 (ha i (Finset.mem_range.1 hi))
    rwa [Finset.card_range, nsmul_eq_mul] at this
  have h2 : ∑ i ∈ Finset.range n, Real.exp (x i) ≤ n * Real.exp b := by
    have := Finset.sum_le_card_nsmul (Finset.range n) (fun i => Real.exp (x i)) (Real.exp b) fun i hi => Real.exp_le_exp.2 (hb i (Finset.mem_range.1 hi))
    rwa [Finset.card_range, nsmul_eq_mul] at this
  have h3 : Real.exp a ≤ (∑ i ∈ Finset.range n, Real.exp (x i)) / n := by
    rw [le_div_iff₀ hn']
    linarith
  have h4 : (∑ i ∈ Finset.range n, Real.exp (x i)) / n ≤ Real.exp b := by
    rw [div_le_iff₀ hn']
    linarith
  refine ⟨(Real.le_log_iff_exp_le (lt_of_lt_of_le (Real.exp_pos a) h3)).2 h3, (Real.log_le_iff_le_exp (lt_of_lt_of_le (Real.exp_pos a) h3)).2 h4⟩

/-- Two log weights of -200: `log_Z_hat` is negative infinity, although the logarithm of the mean of the weights is -200; the log weight after resampling and the
effective sample size are numbers. -/
example (d d' : Bool) :
    let t := SumTree.node (.leaf 0) (.leaf 1)
    logZHat (float32 d) t (fun _ => .fin (-200)) 2 = .ninf ∧ (∃ y, newLogWeight (float32 d) t (fun _ => .fin (-200)) 2 (1 / 2) = .fin y) ∧
      ∃ y, 0 < y ∧ ess (float32 d) (float32 d') t t (fun _ => .fin (-200)) 2 = .fin y := by
  intro t
  have ht : t.leaves.Perm (List.range 2) := by decide
  have hok : ∀ i, i < 2 → (fun _ : Nat => Num.fin (-200)) i ≠ .nan ∧ (fun _ : Nat => Num.fin (-200)) i ≠ .pinf := fun i _ => ⟨fun h => (by cases h), fun h => (by cases h)⟩
  refine ⟨C89_low_float32 (by norm_num) (by norm_num) t ht (fun _ => -200) fun i _ => by norm_num, ?_, ?_⟩
  · obtain ⟨y, hy, -⟩ := C89_new_weight_float32 (d := d) (n := 2) (by norm_num) (by norm_num) t ht (fun _ => .fin (-200)) hok ⟨0, -200, by norm_num, rfl⟩ (fun i x _ h => by
      rw [← Num.fin.inj h]
      norm_num) (1 / 2) (by norm_num) (by norm_num)
    exact ⟨y, hy⟩
  · exact C89_ess_float32 (by norm_num) (by norm_num) t t ht ht _ hok ⟨0, -200, by norm_num, rfl⟩

theorem maxOf_ninf (v : Nat → Num) : ∀ n, (∀ i, i < n → v i = .ninf) → maxOf v n = .ninf
  | 0, _ => rfl
  | n + 1, h => by
    have := maxOf_ninf v n fun i hi => h i (by omega)
    unfold maxOf at this ⊢
    rw [List.range_succ, List.foldl_append, this]
    show Num.max .ninf (v n) = _
    rw [h n (by omega)]
    rfl

theorem maxOf_pinf (v : Nat → Num) (i : Nat) (hv : v i = .pinf) : ∀ n, (∀ i, i < n → v i ≠ .nan) → (maxOf v n ≠ .nan) ∧ (i < n → maxOf v n = .pinf)
  | 0, _ => ⟨(fun h => by cases h), fun h => absurd h (Nat.not_lt_zero _)⟩
  | n + 1, h => by
    obtain ⟨h1, h2⟩ := maxOf_pinf v i hv n fun j hj => h j (by omega)
    have e : maxOf v (n + 1) = (maxOf v n).max (v n) := by
      unfold maxOf
      rw [List.range_succ, List.foldl_append]
      rfl
    have hn := h n (by omega)
    rw [e]
    refine ⟨?_, fun hi => ?_⟩
    · cases ha : maxOf v n <;> cases hb : v n <;> first | exact absurd ha h1 | exact absurd hb hn | (intro h; cases h)
    · rcases Nat.lt_succ_iff_lt_or_eq.1 hi with hi | rfl
      · rw [h2 hi]
        cases hb : v n <;> first | exact absurd hb hn | rfl
      · rw [hv]
        cases ha : maxOf v i <;> first | exact absurd ha h1 | rfl

/-- C89. The log weight after resampling particles that all have log weight negative infinity is negative infinity, and with one of positive infinity it is positive infinity; in both
cases not NaN. -/
theorem C89_new_weight_infinite {A : Arith} {n : Nat} (hA : A.Ok n) (t : SumTree) (ht : t.leaves.Perm (List.range n)) (lw : Nat → Num) (logn : ℝ) :
    ((∀ i, i < n → lw i = .ninf) → newLogWeight A t lw n logn = .ninf) ∧
    ((∀ i, i < n → lw i ≠ .nan) → (∃ i, i < n ∧ lw i = .pinf) → newLogWeight A t lw n logn = .pinf) := by
  have htop : 0 ≤ A.top := (Nat.cast_nonneg n).trans hA.top
  have hz : A.acc 0 = 0 := by simpa using hA.acc_nat 0 (Nat.zero_le n)
  have hexp : ∀ x : Num, x ≠ .nan → x.exp A = .pinf ∨ ∃ y, 0 ≤ y ∧ x.exp A = .fin y := by
    intro x hx
    cases x with
    | nan => exact absurd rfl hx
    | pinf => exact .inl rfl
    | ninf => exact .inr ⟨0, le_rfl, rfl⟩
    | fin x =>
      have h0 := hA.exp_nonneg x
      show fit _ _ = _ ∨ ∃ z, 0 ≤ z ∧ fit _ _ = _
      unfold fit
      split_ifs with a b
      · exact .inl rfl
      · linarith
      · exact .inr ⟨_, h0, rfl⟩
  have hsub : ∀ (x : Num) (y : ℝ), x ≠ .nan → x.sub A (.fin y) ≠ .nan := by
    intro x y hx
    cases x with
    | nan => exact absurd rfl hx
    | pinf => exact fun h => by cases h
    | ninf => exact fun h => by cases h
    | fin x =>
      show fit _ _ ≠ _
      unfold fit
      split_ifs <;> exact fun h => by cases h
  refine ⟨fun h => ?_, fun hnan h => ?_⟩
  · have hm := maxOf_ninf (fun i => (lw i).sub A (.fin logn)) n fun i hi => by
      show (lw i).sub A _ = _
      rw [h i hi]
      rfl
    unfold newLogWeight logsumexp
    rw [hm]
    simp only [Num.finOr0]
    rw [sum_zero A _ hz ((Nat.cast_nonneg n).trans hA.accTop) t fun j hj => ?_]
    · show ((fit A.top (A.rd 0)).log A).plus A _ = _
      rw [hA.zero, fit_fin le_rfl htop]
      show Num.plus A (if _ then _ else if _ then _ else _) _ = _
      rw [if_neg (lt_irrefl _), if_pos rfl]
      rfl
    · show (((lw j).sub A _).sub A _).exp A = _
      rw [h j (List.mem_range.1 (ht.mem_iff.1 hj))]
      rfl
  · obtain ⟨i, hi, hp⟩ := h
    have hpi : (lw i).sub A (.fin logn) = .pinf := by
      rw [hp]
      rfl
    have hm := (maxOf_pinf (fun i => (lw i).sub A (.fin logn)) i hpi n fun j hj => hsub _ _ (hnan j hj)).2 hi
    unfold newLogWeight logsumexp
    rw [hm]
    simp only [Num.finOr0]
    rw [(sum_pinf A (fun i => (((lw i).sub A (.fin logn)).sub A (.fin 0)).exp A) (i := i) (by
      show (((lw i).sub A _).sub A _).exp A = _
      rw [hpi]
      rfl) (fun x hx => hz ▸ hA.acc_mono hx) t fun j hj => hexp _ (hsub _ _ (hsub _ _ (hnan j (List.mem_range.1 (ht.mem_iff.1 hj)))))).2 (ht.mem_iff.2 (List.mem_range.2 hi))]
    rfl

end Fp
end Verif
