import Verif.Proofs.FloatPath
import Verif.Props.Path
/-
C104: the annealing path in IEEE 754 arithmetic.
-/
namespace Verif
namespace Fp

/-- The step, and how many elements `arange` has at least. -/
theorem step_close {m : Nat} (h1 : 1 ≤ m) (hm : m ≤ 2 ^ 50) :
    0 < b64.round (1 / b64.round m) ∧ |b64.round (1 / b64.round m) - 1 / m| ≤ 1 / 2 ^ 53 * (1 / m) ∧
      m ≤ ⌈b64.round (1 / b64.round (1 / b64.round m))⌉.toNat := by
  have hm0 : (0 : ℝ) < m := by exact_mod_cast h1
  have hm' : (m : ℝ) ≤ 2 ^ 50 := by exact_mod_cast hm
  have hm1 : 1 / 2 ^ 50 ≤ 1 / (m : ℝ) := one_div_le_one_div_of_le hm0 hm'
  rw [round_of_rep b64 (by decide) (rep_nat b64 (by decide) (hm.trans (by decide)))]
  have hs := round_rel b64 (1 / (m : ℝ)) (by
    rw [abs_of_pos (one_div_pos.2 hm0)]
    refine le_trans ?_ hm1
    rw [show (1 : ℝ) / 2 ^ 50 = 2 ^ (-50 : ℤ) by norm_num [zpow_neg]]
    exact zpow_le_zpow_right₀ (by norm_num) (by decide))
  rw [abs_of_pos (one_div_pos.2 hm0)] at hs
  have hs1 : |b64.round (1 / (m : ℝ)) - 1 / m| ≤ 1 / 2 ^ 53 * (1 / m) := hs
  obtain ⟨hs0, hr⟩ := recip_close (one_div_pos.2 hm0) (by norm_num) hs1
  refine ⟨hs0, hs1, ?_⟩
  have hr' := (abs_le.1 hr).1
  rw [one_div_one_div] at hr'
  have hlow : (m : ℝ) - 1 / 2 ≤ 1 / b64.round (1 / (m : ℝ)) := by linarith
  have hrep : b64.Rep ((m : ℝ) - 1 / 2) := by
    refine ⟨2 * m - 1, -1, by decide, ?_, ?_⟩
    · rw [abs_of_nonneg (by omega)]
      simp only [b64]
      omega
    · push_cast
      rw [zpow_neg_one]
      ring
  have h := round_mono b64 (by decide) hlow
  rw [round_of_rep b64 (by decide) hrep] at h
  have hc : ((m : ℤ) - 1 : ℤ) < ⌈b64.round (1 / b64.round (1 / (m : ℝ)))⌉ := Int.lt_ceil.2 (by push_cast; linarith)
  omega

/-- C104: in float32, with any blocks of `arange`, `anneal_between` returns the two ends and between them the interpolations g1, g2, …; both weights are in (0, 1), those of the
right end increase strictly and those of the left decrease, and they are the fractions up to rounding. -/
theorem C104_path (d : Bool) (block : Nat → Nat) (hb : ∀ i, block i ≤ i) (m : Nat) (hm : m + 2 ≤ 2 ^ 16) :
    ∃ (path : List PathNode) (w1 w2 : Nat → ℝ), annealBetween (float32 d) block (m + 2 : Nat) = .ok path ∧ path.length = m + 2 ∧ path[0]? = some .left ∧ path[m + 1]? = some .right ∧
      (∀ k, 0 < k → k < m + 1 → path[k]? = some (.tempered (AnnealModel.name k) (.fin (w1 k)) (.fin (w2 k))) ∧
        0 < w1 k ∧ w1 k < 1 ∧ 0 < w2 k ∧ w2 k < 1 ∧ |w1 k - (1 - k / (m + 1))| ≤ 1 / 2 ^ 17 ∧ |w2 k - k / (m + 1)| ≤ 1 / 2 ^ 17) ∧
      ∀ j k, 0 < j → j < k → k < m + 1 → w2 j < w2 k ∧ w1 k < w1 j := by
  obtain ⟨hs0, hs, hlen⟩ := step_close (m := m + 1) (by omega) (by omega)
  set s := b64.round (1 / b64.round ((m + 1 : Nat) : ℝ)) with es
  have hM0 : (0 : ℝ) < ((m + 1 : Nat) : ℝ) := by positivity
  have hM : (1 : ℝ) / 2 ^ 16 ≤ 1 / ((m + 1 : Nat) : ℝ) :=
    one_div_le_one_div_of_le hM0 (by exact_mod_cast (by omega : m + 1 ≤ 2 ^ 16))
  have hbet : ∀ k, 0 < k → k < m + 1 → 1 / 2 ^ 17 ≤ arangeElem s (block k) k ∧ arangeElem s (block k) k ≤ 1 - 1 / 2 ^ 17 := by
    intro k h0 h1
    have h := abs_le.1 (arangeElem_close (m := m + 1) (by omega) (by omega) hs (hb k) h1)
    have a1 : 1 / ((m + 1 : Nat) : ℝ) ≤ (k : ℝ) / ((m + 1 : Nat) : ℝ) := div_le_div_of_nonneg_right (by exact_mod_cast h0) hM0.le
    have a2 : (k : ℝ) / ((m + 1 : Nat) : ℝ) ≤ 1 - 1 / ((m + 1 : Nat) : ℝ) := by
      rw [le_sub_iff_add_le, ← add_div, div_le_one hM0]
      exact_mod_cast h1
    exact ⟨by linarith, by linarith⟩
  have hex : ∀ k, ∃ w, 0 < k → k < m + 1 → ((Num.fin (arangeElem s (block k) k)).logit (float32 d)).sigmoid (float32 d) = .fin w ∧
      |w - k / ((m + 1 : Nat) : ℝ)| ≤ 1 / 2 ^ 18 + 1 / 2 ^ 23 := by
    intro k
    by_cases h : 0 < k ∧ k < m + 1
    · have hk := hbet k h.1 h.2
      obtain ⟨w, e, hw⟩ := sigmoid_logit_close (d := d) hk.1 hk.2
      have h2 := abs_le.1 (arangeElem_close (m := m + 1) (by omega) (by omega) hs (hb k) h.2)
      have hw' := abs_le.1 hw
      exact ⟨w, fun _ _ => ⟨e, abs_le.2 ⟨by linarith, by linarith⟩⟩⟩
    · exact ⟨0, fun a b => absurd ⟨a, b⟩ h⟩
  choose w2 hw2 using hex
  have hfr : ∀ k, 0 < k → k < m + 1 → 1 / 2 ^ 16 ≤ (k : ℝ) / ((m + 1 : Nat) : ℝ) ∧ (k : ℝ) / ((m + 1 : Nat) : ℝ) ≤ 1 - 1 / 2 ^ 16 := by
    intro k h0 h1
    have a1 : 1 / ((m + 1 : Nat) : ℝ) ≤ (k : ℝ) / ((m + 1 : Nat) : ℝ) := div_le_div_of_nonneg_right (by exact_mod_cast h0) hM0.le
    have a2 : (k : ℝ) / ((m + 1 : Nat) : ℝ) ≤ 1 - 1 / ((m + 1 : Nat) : ℝ) := by
      rw [le_sub_iff_add_le, ← add_div, div_le_one hM0]
      exact_mod_cast h1
    exact ⟨by linarith, by linarith⟩
  have hw1 : ∀ k, 0 < k → k < m + 1 → (Num.fin 1).sub (float32 d) (.fin (w2 k)) = .fin ((float32 d).rd (1 - w2 k)) ∧
      |(float32 d).rd (1 - w2 k) - (1 - k / ((m + 1 : Nat) : ℝ))| ≤ 1 / 2 ^ 18 + 1 / 2 ^ 23 + 1 / 2 ^ 25 := by
    intro k h0 h1
    have h := abs_le.1 (hw2 k h0 h1).2
    have hf := hfr k h0 h1
    have hr := abs_le.1 (round32_unit (x := 1 - w2 k) (abs_le.2 ⟨by linarith, by linarith⟩))
    have e : (float32 d).rd (1 - w2 k) = b32.round (1 - w2 k) := rfl
    rw [e]
    exact ⟨fit32 (by linarith) (le_trans (b := 1) (by linarith) (by norm_num)), abs_le.2 ⟨by linarith, by linarith⟩⟩
  have hzip : ((List.range m).map (· + 1)).zip (((List.range ⌈b64.round (1 / s)⌉.toNat).map fun i => arangeElem s (block i) i).drop 1) =
      (List.range m).map fun k => (k + 1, arangeElem s (block (k + 1)) (k + 1)) := by
    apply List.ext_getElem
    · simp only [List.length_zip, List.length_map, List.length_range, List.length_drop]
      omega
    · intro i h1 h2
      simp only [List.length_map, List.length_range] at h2
      simp only [List.getElem_zip, List.getElem_map, List.getElem_range, List.getElem_drop]
      rw [Nat.add_comm 1 i]
  have hmap : ((List.range m).map fun k => (k + 1, arangeElem s (block (k + 1)) (k + 1))).mapM
      (fun kb => tempered (float32 d) ("g" ++ toString kb.1) kb.2) =
      .ok (((List.range m).map fun k => (k + 1, arangeElem s (block (k + 1)) (k + 1))).map fun kb =>
        .tempered ("g" ++ toString kb.1) (.fin ((float32 d).rd (1 - w2 kb.1))) (.fin (w2 kb.1))) := by
    apply mapM_ok
    intro x hx
    simp only [List.mem_map, List.mem_range] at hx
    obtain ⟨k, hk, rfl⟩ := hx
    have h := hbet (k + 1) (by omega) (by omega)
    simp only
    unfold tempered
    rw [if_pos ⟨lt_of_lt_of_le (by positivity) h.1, lt_of_le_of_lt h.2 (by norm_num)⟩, (hw2 (k + 1) (by omega) (by omega)).1]
    simp only
    rw [(hw1 (k + 1) (by omega) (by omega)).1]
  refine ⟨[.left] ++ ((List.range m).map fun k => (k + 1, arangeElem s (block (k + 1)) (k + 1))).map (fun kb =>
      .tempered ("g" ++ toString kb.1) (.fin ((float32 d).rd (1 - w2 kb.1))) (.fin (w2 kb.1))) ++ [.right],
    fun k => (float32 d).rd (1 - w2 k), w2, ?_, ?_, ?_, ?_, ?_, ?_⟩
  · unfold annealBetween
    rw [if_neg (by push_cast; omega)]
    have e1 : arange01 block (b64.round (1 / b64.round ((((m + 2 : Nat) : Int) - 1 : Int) : ℝ))) =
        .ok ((List.range ⌈b64.round (1 / s)⌉.toNat).map fun i => arangeElem s (block i) i) := by
      rw [show ((((m + 2 : Nat) : Int) - 1 : Int) : ℝ) = ((m + 1 : Nat) : ℝ) by push_cast; ring, ← es]
      unfold arange01
      rw [if_pos hs0]
    rw [e1]
    have e2 : (((m + 2 : Nat) : Int) - 2).toNat = m := by omega
    simp only [e2, hzip, hmap]
    rw [if_pos]
    simp
    omega
  · simp
  · simp
  · simp
  · intro k h0 h1
    have hf := hfr k h0 h1
    have a1 := abs_le.1 (hw1 k h0 h1).2
    have a2 := abs_le.1 (hw2 k h0 h1).2
    have ec : ((m + 1 : Nat) : ℝ) = (m : ℝ) + 1 := by push_cast; ring
    rw [ec] at hf a1 a2
    refine ⟨?_, by linarith, by linarith, by linarith, by linarith, abs_le.2 ⟨by linarith, by linarith⟩, abs_le.2 ⟨by linarith, by linarith⟩⟩
    obtain ⟨j, rfl⟩ : ∃ j, k = j + 1 := ⟨k - 1, by omega⟩
    rw [List.append_assoc, List.singleton_append, List.getElem?_cons_succ, List.getElem?_append_left (by simpa using h1)]
    simp only [List.getElem?_map, List.getElem?_range (show j < m by omega), Option.map_some]
    rfl
  · intro j k h0 hjk h1
    have a1 := abs_le.1 (hw1 k (by omega) h1).2
    have a2 := abs_le.1 (hw2 k (by omega) h1).2
    have b1 := abs_le.1 (hw1 j h0 (by omega)).2
    have b2 := abs_le.1 (hw2 j h0 (by omega)).2
    have hgap : (j : ℝ) / ((m + 1 : Nat) : ℝ) + 1 / ((m + 1 : Nat) : ℝ) ≤ k / ((m + 1 : Nat) : ℝ) := by
      rw [← add_div]
      exact div_le_div_of_nonneg_right (by exact_mod_cast hjk) hM0.le
    exact ⟨by linarith, by linarith⟩

/-- The paper's eight targets. -/
example : ∃ (path : List PathNode) (w1 w2 : Nat → ℝ), annealBetween (float32 true) (fun i => i / 8 * 8) 8 = .ok path ∧ path.length = 8 ∧
    path[3]? = some (.tempered "g3" (.fin (w1 3)) (.fin (w2 3))) ∧ w2 3 < w2 4 ∧ |w2 3 - 3 / 7| ≤ 1 / 2 ^ 17 := by
  obtain ⟨path, w1, w2, e, hl, -, -, h, hm⟩ := C104_path true (fun i => i / 8 * 8) (fun i => Nat.div_mul_le_self i 8) 6 (by decide)
  have h3 := h 3 (by decide) (by decide)
  refine ⟨path, w1, w2, e, hl, h3.1, (hm 3 4 (by decide) (by decide) (by decide)).1, ?_⟩
  have := h3.2.2.2.2.2.2
  norm_num at this ⊢
  exact this

/-- Rounding at a known exponent. -/
theorem round_at (F : Format) {x : ℝ} (hx : 0 < x) {e : ℤ} (h1 : (2 : ℝ) ^ (e + F.p - 1) ≤ x) (h2 : x < (2 : ℝ) ^ (e + F.p)) (he : F.emin ≤ e) {k : ℤ}
    (hk : |x / (2 : ℝ) ^ e - k| < 1 / 2) : F.round x = k * (2 : ℝ) ^ e := by
  have hlog : Int.log 2 |x| = e + F.p - 1 := by
    rw [abs_of_pos hx]
    apply le_antisymm
    · have := (Int.lt_zpow_iff_log_lt (b := 2) (by norm_num) hx).1 (by exact_mod_cast h2)
      omega
    · exact (Int.zpow_le_iff_le_log (b := 2) (by norm_num) hx).1 (by exact_mod_cast h1)
  have hul : F.ulpExp x = e := by
    unfold Format.ulpExp
    rw [hlog]
    omega
  unfold Format.round
  rw [hul]
  congr 2
  have h := nearbyint_le (x / (2 : ℝ) ^ e)
  have h' := abs_le.1 h
  have hk' := abs_lt.1 hk
  have a : (nearbyint (x / (2 : ℝ) ^ e) : ℝ) < k + 1 := by linarith
  have b : (k : ℝ) < nearbyint (x / (2 : ℝ) ^ e) + 1 := by linarith
  have a' : nearbyint (x / (2 : ℝ) ^ e) < k + 1 := by exact_mod_cast a
  have b' : k < nearbyint (x / (2 : ℝ) ^ e) + 1 := by exact_mod_cast b
  omega

/-- C104, rounding of the step: with 50 targets `arange` has 50 elements instead of 49 and the last is 1, which `Tempered` does not accept. The zip with the numbers of the
intermediate targets drops it. -/
theorem C104_extra : ∃ bs, arange01 id (b64.round (1 / b64.round 49)) = .ok bs ∧ bs.length = 50 ∧ bs[49]? = some 1 ∧
    ∀ A name, tempered A name 1 = .error .assertion := by
  have h49 : b64.round 49 = 49 := by
    simpa using round_of_rep b64 (by decide) (rep_nat b64 (by decide) (k := 49) (by decide))
  have hs : b64.round (1 / b64.round 49) = 5882252574524729 / 2 ^ 58 := by
    rw [h49, round_at b64 (e := -58) (k := 5882252574524729) (by norm_num) (by simp only [b64]; norm_num [zpow_neg]) (by simp only [b64]; norm_num [zpow_neg])
      (by decide) (by rw [abs_lt]; norm_num [zpow_neg])]
    norm_num [zpow_neg]
  have hq : b64.round (1 / (5882252574524729 / 2 ^ 58)) = 49 + 1 / 2 ^ 47 := by
    rw [round_at b64 (e := -47) (k := 49 * 2 ^ 47 + 1) (by norm_num) (by simp only [b64]; norm_num [zpow_neg]) (by simp only [b64]; norm_num [zpow_neg])
      (by decide) (by rw [abs_lt]; norm_num [zpow_neg])]
    norm_num [zpow_neg]
  have hc : ⌈b64.round (1 / (5882252574524729 / 2 ^ 58))⌉.toNat = 50 := by
    rw [hq, show ⌈(49 : ℝ) + 1 / 2 ^ 47⌉ = 50 from Int.ceil_eq_iff.2 (by norm_num)]
    rfl
  have hp : b64.round ((49 : Nat) * (5882252574524729 / 2 ^ 58)) = 1 - 1 / 2 ^ 53 := by
    rw [round_at b64 (e := -53) (k := 2 ^ 53 - 1) (by norm_num) (by simp only [b64]; norm_num [zpow_neg]) (by simp only [b64]; norm_num [zpow_neg])
      (by decide) (by rw [abs_lt]; norm_num [zpow_neg])]
    norm_num [zpow_neg]
  have h32 : b32.round (1 - 1 / 2 ^ 53) = 1 := by
    rw [round_at b32 (e := -24) (k := 2 ^ 24) (by norm_num) (by simp only [b32]; norm_num [zpow_neg]) (by simp only [b32]; norm_num [zpow_neg])
      (by decide) (by rw [abs_lt]; norm_num [zpow_neg])]
    norm_num [zpow_neg]
  have h1 : ∀ F : Format, 0 < F.p → F.emin ≤ 0 → F.round 1 = 1 := fun F hp he => by
    simpa using round_of_rep F hp (rep_nat F he (k := 1) Nat.one_le_two_pow)
  refine ⟨(List.range 50).map fun i => arangeElem (5882252574524729 / 2 ^ 58) (id i) i, ?_, by simp, ?_, ?_⟩
  · rw [hs]
    unfold arange01
    rw [if_pos (by norm_num), hc]
  · simp only [List.getElem?_map, List.getElem?_range (show 49 < 50 by decide), Option.map_some, id]
    unfold arangeElem
    rw [hp, h32, Nat.sub_self, Nat.cast_zero, zero_mul, round_zero, add_zero, h1 b64 (by decide) (by decide), h1 b32 (by decide) (by decide)]
  · intro A name
    unfold tempered
    rw [if_neg (by simp)]

theorem mapM_error {α β : Type} {f : α → Except Err β} {e : Err} : ∀ {l : List α}, (∀ x ∈ l, ∀ e', f x = .error e' → e' = e) → (∃ x ∈ l, f x = .error e) → l.mapM f = .error e
  | [], _, h => by simp at h
  | a :: l, h1, h2 => by
    rw [List.mapM_cons]
    cases ha : f a with
    | error e' =>
      rw [h1 a (by simp) e' ha]
      rfl
    | ok b =>
      obtain ⟨x, hx, he⟩ := h2
      rcases List.mem_cons.1 hx with rfl | hx
      · rw [ha] at he; cases he
      · have := mapM_error (l := l) (fun y hy => h1 y (by simp [hy])) ⟨x, hx, he⟩
        rw [this]
        rfl

/-- C104, there is a limit: with more than 2^31 targets (and blocks of at most 17 elements, torch's have 8 or 16) float32 does not tell the last weight from 1 and
`anneal_between` raises AssertionError. -/
theorem C104_too_many (A : Arith) (block : Nat → Nat) (hb : ∀ i, block i ≤ i ∧ i ≤ block i + 16) (m : Nat) (h1 : 2 ^ 31 ≤ m) (h2 : m ≤ 2 ^ 50) :
    annealBetween A block (m + 1 : Nat) = .error .assertion := by
  obtain ⟨hs0, hs, hlen⟩ := step_close (m := m) (le_trans (by decide) h1) h2
  set s := b64.round (1 / b64.round (m : ℝ)) with es
  have hm0 : (0 : ℝ) < m := by exact_mod_cast (lt_of_lt_of_le (by decide) h1 : 0 < m)
  have hm1 : 1 / (m : ℝ) ≤ 1 / 2 ^ 31 := one_div_le_one_div_of_le (by positivity) (by exact_mod_cast h1)
  have hbig : 1 ≤ arangeElem s (block (m - 1)) (m - 1) := by
    obtain ⟨hj1, hj2⟩ := hb (m - 1)
    generalize block (m - 1) = j at hj1 hj2 ⊢
    have hone : ∀ F : Format, 0 < F.p → F.emin ≤ 0 → ∀ x, 1 ≤ x → 1 ≤ F.round x := fun F hp he x hx => by
      have := round_mono F hp hx
      rwa [show F.round 1 = 1 by simpa using round_of_rep F hp (rep_nat F he (k := 1) Nat.one_le_two_pow)] at this
    have hjs : 1 - 1 / 2 ^ 26 ≤ (j : ℝ) * s := by
      have hs' := (abs_le.1 hs).1
      have hj : (m : ℝ) - 17 ≤ j := by
        have : m ≤ j + 17 := by omega
        have : (m : ℝ) ≤ j + 17 := by exact_mod_cast this
        linarith
      have hm17 : (0 : ℝ) ≤ m - 17 := by
        have : (2 : ℝ) ^ 31 ≤ m := by exact_mod_cast h1
        linarith
      have hv : ((m : ℝ) - 17) * ((1 - 1 / 2 ^ 53) * (1 / (m : ℝ))) = (1 - 17 * (1 / (m : ℝ))) * (1 - 1 / 2 ^ 53) := by
        field_simp
      calc (1 : ℝ) - 1 / 2 ^ 26 ≤ (1 - 17 * (1 / 2 ^ 31)) * (1 - 1 / 2 ^ 53) := by norm_num
        _ ≤ (1 - 17 * (1 / (m : ℝ))) * (1 - 1 / 2 ^ 53) := mul_le_mul_of_nonneg_right (by linarith) (by norm_num)
        _ = ((m : ℝ) - 17) * ((1 - 1 / 2 ^ 53) * (1 / (m : ℝ))) := hv.symm
        _ ≤ ((m : ℝ) - 17) * s := mul_le_mul_of_nonneg_left (by linarith) hm17
        _ ≤ (j : ℝ) * s := mul_le_mul_of_nonneg_right hj hs0.le
    have hrep : b64.Rep (1 - 1 / 2 ^ 26) := ⟨2 ^ 26 - 1, -26, by decide, by decide, by norm_num [zpow_neg]⟩
    have a1 := round_mono b64 (by decide) hjs
    rw [round_of_rep b64 (by decide) hrep] at a1
    have a2 := round_mono b32 (by decide) a1
    have h32 : b32.round (1 - 1 / 2 ^ 26) = 1 := by
      rw [round_at b32 (e := -24) (k := 2 ^ 24) (by norm_num) (by simp only [b32]; norm_num [zpow_neg]) (by simp only [b32]; norm_num [zpow_neg])
        (by decide) (by rw [abs_lt]; norm_num [zpow_neg])]
      norm_num [zpow_neg]
    rw [h32] at a2
    have a3 := round_mono b64 (by decide) (show (0 : ℝ) ≤ (m - 1 - j : Nat) * s by positivity)
    rw [round_zero] at a3
    exact hone b32 (by decide) (by decide) _ (hone b64 (by decide) (by decide) _ (by linarith))
  unfold annealBetween
  rw [if_neg (by push_cast; omega)]
  have e1 : arange01 block (b64.round (1 / b64.round ((((m + 1 : Nat) : Int) - 1 : Int) : ℝ))) =
      .ok ((List.range ⌈b64.round (1 / s)⌉.toNat).map fun i => arangeElem s (block i) i) := by
    rw [show ((((m + 1 : Nat) : Int) - 1 : Int) : ℝ) = (m : ℝ) by push_cast; ring, ← es]
    unfold arange01
    rw [if_pos hs0]
  rw [e1]
  simp only
  rw [mapM_error (e := .assertion)]
  · intro x _ e' he
    unfold tempered at he
    split at he
    · cases he
    · cases he; rfl
  · refine ⟨(m - 1, arangeElem s (block (m - 1)) (m - 1)), ?_, ?_⟩
    · rw [List.mem_iff_getElem]
      refine ⟨m - 2, ?_, ?_⟩
      · simp only [List.length_zip, List.length_map, List.length_range, List.length_drop]
        omega
      · simp only [List.getElem_zip, List.getElem_map, List.getElem_range, List.getElem_drop]
        rw [show m - 2 + 1 = m - 1 by omega, show 1 + (m - 2) = m - 1 by omega]
    · unfold tempered
      rw [if_neg (fun h => absurd h.2 (not_lt.2 hbig))]

/-- Four thousand million targets, in blocks of eight. -/
example : annealBetween (float32 true) (fun i => i / 8 * 8) 4000000001 = .error .assertion :=
  C104_too_many (float32 true) (fun i => i / 8 * 8) (fun i => by omega) 4000000000 (by decide) (by decide)

end Fp
end Verif
