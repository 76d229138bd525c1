import Verif.Proofs.PaperWalk
import Verif.Props.Paper
/-
The second moment of the weights of the annealing model of the paper before training, at every target.
-/
namespace Verif
open Spec MeasureTheory ProbabilityTheory
open scoped ENNReal

namespace PaperWalk

theorem line_top' (m v α : ℝ) (hv : 0 < v) (h : 1 ≤ 2 * α * v) :
    ∫⁻ y, gaussianPDF m v.toNNReal y * ENNReal.ofReal (Real.exp (α * y ^ 2)) = ⊤ := by
  have hp := Real.pi_pos
  have hα : 1 / (2 * v) ≤ α := by rw [div_le_iff₀ (by positivity)]; linarith
  have key : ∀ y, 0 ≤ m * y → ENNReal.ofReal ((√(2 * Real.pi * v))⁻¹ * Real.exp (-(m ^ 2) / (2 * v))) ≤
      gaussianPDF m v.toNNReal y * ENNReal.ofReal (Real.exp (α * y ^ 2)) := by
    intro y hy
    simp only [gaussianPDF]
    rw [← ENNReal.ofReal_mul (gaussianPDFReal_nonneg _ _ _)]
    refine ENNReal.ofReal_le_ofReal ?_
    simp only [gaussianPDFReal, Real.coe_toNNReal _ hv.le]
    rw [mul_assoc (√(2 * Real.pi * v))⁻¹, ← Real.exp_add]
    refine mul_le_mul_of_nonneg_left (Real.exp_le_exp.2 ?_) (by positivity)
    have e : -(y - m) ^ 2 / (2 * v) = -(m ^ 2) / (2 * v) + m * y / v - 1 / (2 * v) * y ^ 2 := by field_simp; ring
    have h1 : 0 ≤ m * y / v := by positivity
    have h2 : 1 / (2 * v) * y ^ 2 ≤ α * y ^ 2 := mul_le_mul_of_nonneg_right hα (sq_nonneg y)
    rw [e]
    linarith
  have hc : ENNReal.ofReal ((√(2 * Real.pi * v))⁻¹ * Real.exp (-(m ^ 2) / (2 * v))) ≠ 0 := by
    rw [Ne, ENNReal.ofReal_eq_zero, not_le]
    positivity
  have hvol : (volume : Measure ℝ) {y | 0 ≤ m * y} = ⊤ := by
    rcases le_total 0 m with hm | hm
    · refine top_le_iff.1 (le_of_eq_of_le (Real.volume_Ici (a := 0)).symm (measure_mono fun y hy => ?_))
      exact mul_nonneg hm hy
    · refine top_le_iff.1 (le_of_eq_of_le (Real.volume_Iic (a := 0)).symm (measure_mono fun y hy => ?_))
      exact mul_nonneg_of_nonpos_of_nonpos hm hy
  have hms : MeasurableSet {y : ℝ | 0 ≤ m * y} := measurableSet_le measurable_const (by fun_prop)
  refine top_le_iff.1 ?_
  refine le_trans ?_ (setLIntegral_le_lintegral {y : ℝ | 0 ≤ m * y} _)
  refine le_trans ?_ (setLIntegral_mono' hms key)
  rw [setLIntegral_const, hvol, ENNReal.mul_top hc]

theorem G_dens (α : ℝ) (x : Fin 2 → ℝ) : G α x = dens (α * (x 0 ^ 2 + x 1 ^ 2)) := by
  rw [mul_add, dens_add]
  rfl

/-- One component, to the power 2β. -/
theorem component_G (l : ℝ × ℝ) (α β : ℝ) (hβ : 0 < β) :
    ∫⁻ y, G α y * dens (2 * β * mvnLogProb (![l.1, l.2], fun _ => 1 * (1 / 2)) y) ≠ ⊤ ↔ α < 2 * β := by
  have hv : (0 : ℝ) < 1 / (4 * β) := by positivity
  set s : Fin 2 → ℝ := fun _ => 1 / (4 * β) with hs
  set d : ℝ := 2 * β * (-Real.log (2 * Real.pi) - 1 / 2 * Real.log (1 * (1 / 2) * (1 * (1 / 2)))) -
    (-Real.log (2 * Real.pi) - 1 / 2 * Real.log (1 / (4 * β) * (1 / (4 * β)))) with hd
  have e : ∀ y, G α y * dens (2 * β * mvnLogProb (![l.1, l.2], fun _ => 1 * (1 / 2)) y) = dens d * (dens (mvnLogProb (![l.1, l.2], s) y) * G α y) := by
    intro y
    have : 2 * β * mvnLogProb (![l.1, l.2], fun _ => 1 * (1 / 2)) y = d + mvnLogProb (![l.1, l.2], s) y := by
      simp only [mvnLogProb, Fin.sum_univ_two, Fin.prod_univ_two, hd, hs]
      field_simp
      ring
    rw [this, dens_add]
    ring
  simp only [e]
  have hd0 : dens d ≠ 0 := by simp [dens, Real.exp_pos]
  have hdt : dens d ≠ ⊤ := ENNReal.ofReal_ne_top
  rw [lintegral_const_mul' _ _ hdt, plane _ s (fun _ => hv) α]
  constructor
  · intro h
    by_contra hge
    push Not at hge
    have h1 : 1 ≤ 2 * α * (1 / (4 * β)) := by
      rw [mul_one_div, le_div_iff₀ (by positivity)]
      linarith
    refine h ?_
    rw [line_top' _ _ α hv h1, line_top' _ _ α hv h1, ENNReal.top_mul_top, ENNReal.mul_top hd0]
  · intro h
    have h1 : 2 * α * (1 / (4 * β)) < 1 := by
      rw [mul_one_div, div_lt_one (by positivity)]
      linarith
    rw [line _ _ α hv h1, line _ _ α hv h1]
    finiteness

/-- The components of the ring. -/
theorem ring_components : ∃ ls : List (ℝ × ℝ), ls.length = 8 ∧
    ∀ y, Real.exp (paperRing y) = (ls.map fun l => Real.exp (mvnLogProb (![l.1, l.2], fun _ => 1 * (1 / 2)) y)).sum := by
  obtain ⟨ls, h1, h2, -⟩ := (C52_ring 10 8).2 (by decide)
  obtain ⟨cs, k1, k2⟩ := paperRing_exp
  unfold paperComponents at k1
  rw [h1] at k1
  simp only [gmmComponents, h2, List.length_replicate, if_true] at k1
  injection k1 with k1
  refine ⟨ls, h2, fun y => ?_⟩
  rw [k2 y, ← k1, List.map_map]
  have : ∀ (n : Nat) (ls : List (ℝ × ℝ)), ls.length = n →
      (List.map ((fun c : (Fin 2 → ℝ) → ℝ => Real.exp (c y)) ∘ fun q : (ℝ × ℝ) × (Fin 2 → ℝ) => mvnLogProb (![q.1.1, q.1.2], q.2))
        (ls.zip (List.replicate n fun _ => 1 * (1 / 2)))) =
      ls.map fun l => Real.exp (mvnLogProb (![l.1, l.2], fun _ => 1 * (1 / 2)) y) := by
    intro n ls hn
    induction ls generalizing n with
    | nil => simp
    | cons a ls ih =>
      obtain ⟨k, rfl⟩ : ∃ k, n = k + 1 := ⟨ls.length, by simpa using hn.symm⟩
      rw [List.replicate_succ, List.zip_cons_cons, List.map_cons, List.map_cons, ih k (by simpa using hn)]
      rfl
  exact congrArg List.sum (this 8 ls h2)

theorem sum_le_max {A : Type} (f : A → ℝ) : ∀ l : List A, l ≠ [] → ∃ a ∈ l, (l.map f).sum ≤ l.length * f a ∧ ∀ b ∈ l, f b ≤ f a
  | [], h => absurd rfl h
  | [a], _ => ⟨a, by simp, by simp, by simp⟩
  | a :: b :: l, _ => by
    obtain ⟨c, hc, h1, h2⟩ := sum_le_max f (b :: l) (by simp)
    rcases le_total (f a) (f c) with h | h
    · refine ⟨c, List.mem_cons_of_mem _ hc, ?_, ?_⟩
      · rw [List.map_cons, List.sum_cons, List.length_cons]
        push_cast
        linarith
      · intro x hx
        rcases List.mem_cons.1 hx with rfl | hx
        · exact h
        · exact h2 x hx
    · refine ⟨a, by simp, ?_, ?_⟩
      · rw [List.map_cons, List.sum_cons, List.length_cons]
        push_cast
        have hl : (0 : ℝ) ≤ ((b :: l).length : ℝ) := by positivity
        nlinarith
      · intro x hx
        rcases List.mem_cons.1 hx with rfl | hx
        · exact le_refl _
        · exact (h2 x hx).trans h

theorem dens_mono {x y : ℝ} (h : x ≤ y) : dens x ≤ dens y := ENNReal.ofReal_le_ofReal (Real.exp_le_exp.2 h)

/-- The ring to the power 2β against exp(α|x|²). -/
theorem ring_power_G (α β : ℝ) (hβ : 0 < β) : ∫⁻ y, G α y * dens (2 * β * paperRing y) ≠ ⊤ ↔ α < 2 * β := by
  obtain ⟨ls, hl, hr⟩ := ring_components
  have hne : ls ≠ [] := by rintro rfl; simp at hl
  constructor
  · intro h
    obtain ⟨l, ls', rfl⟩ := List.exists_cons_of_ne_nil hne
    refine (component_G l α β hβ).1 (ne_top_of_le_ne_top h (lintegral_mono fun y => ?_))
    refine mul_le_mul_right (dens_mono ?_) _
    have : mvnLogProb (![l.1, l.2], fun _ => 1 * (1 / 2)) y ≤ paperRing y := by
      rw [← Real.exp_le_exp, hr y, List.map_cons, List.sum_cons]
      have : 0 ≤ (ls'.map fun l => Real.exp (mvnLogProb (![l.1, l.2], fun _ => 1 * (1 / 2)) y)).sum := List.sum_nonneg (by
        intro x hx
        obtain ⟨c', -, rfl⟩ := List.mem_map.mp hx
        exact (Real.exp_pos _).le)
      linarith
    nlinarith
  · intro h
    have hb : ∀ y, G α y * dens (2 * β * paperRing y) ≤
        dens (2 * β * Real.log 8) * (ls.map fun l => G α y * dens (2 * β * mvnLogProb (![l.1, l.2], fun _ => 1 * (1 / 2)) y)).sum := by
      intro y
      obtain ⟨a, ha, h1, -⟩ := sum_le_max (fun l : ℝ × ℝ => Real.exp (mvnLogProb (![l.1, l.2], fun _ => 1 * (1 / 2)) y)) ls hne
      rw [← hr y, hl] at h1
      have h2 : paperRing y ≤ Real.log 8 + mvnLogProb (![a.1, a.2], fun _ => 1 * (1 / 2)) y := by
        rw [← Real.exp_le_exp, Real.exp_add, Real.exp_log (by norm_num)]
        exact_mod_cast h1
      have h3 : dens (2 * β * paperRing y) ≤ dens (2 * β * Real.log 8) * dens (2 * β * mvnLogProb (![a.1, a.2], fun _ => 1 * (1 / 2)) y) := by
        rw [← dens_add]
        refine dens_mono ?_
        nlinarith
      calc _ ≤ G α y * (dens (2 * β * Real.log 8) * dens (2 * β * mvnLogProb (![a.1, a.2], fun _ => 1 * (1 / 2)) y)) := mul_le_mul_right h3 _
        _ = dens (2 * β * Real.log 8) * (G α y * dens (2 * β * mvnLogProb (![a.1, a.2], fun _ => 1 * (1 / 2)) y)) := by ring
        _ ≤ _ := mul_le_mul_right (List.single_le_sum (fun _ _ => bot_le) _ (List.mem_map.2 ⟨a, ha, rfl⟩)) (dens (2 * β * Real.log 8))
    refine ne_top_of_le_ne_top ?_ (lintegral_mono hb)
    have hdt : dens (2 * β * Real.log 8) ≠ ⊤ := ENNReal.ofReal_ne_top
    rw [lintegral_const_mul' _ _ hdt]
    refine ENNReal.mul_ne_top hdt ?_
    clear hb hr hne hl
    induction ls with
    | nil => simp
    | cons l ls ih =>
      simp only [List.map_cons, List.sum_cons]
      have hm : Measurable fun y => G α y * dens (2 * β * mvnLogProb (![l.1, l.2], fun _ => 1 * (1 / 2)) y) :=
        (measurable_G α).mul (measurable_dens.comp ((measurable_mvn_right _).const_mul _))
      rw [lintegral_add_left hm]
      exact ENNReal.add_ne_top.2 ⟨(component_G l α β hβ).2 h, ih⟩

/-- The inverse temperature of target k + 1 of K + 1. -/
noncomputable def invTemp (p : PaperParams) (K k : Nat) : ℝ := if k + 1 < K then sigmoid (p.logit k) else 1

theorem target_eq (p : PaperParams) (K k : Nat) (y : Fin 2 → ℝ) :
    paperTarget p K k y = (1 - invTemp p K k) * mvnLogProb paperInitial y + invTemp p K k * paperRing y := by
  unfold paperTarget invTemp temperedAt
  split <;> ring

theorem target_G (p : PaperParams) (K k : Nat) (hβ : 0 < invTemp p K k) (α : ℝ) :
    ∫⁻ y, G α y * dens (paperTarget p K k y) ^ 2 ≠ ⊤ ↔ α < (1 - invTemp p K k) / 25 + 2 * invTemp p K k := by
  set β := invTemp p K k with hb
  set d : ℝ := 2 * (1 - β) * (-Real.log (2 * Real.pi) - 1 / 2 * Real.log (1 * 5 ^ 2 * (1 * 5 ^ 2))) with hd
  have e : ∀ y, G α y * dens (paperTarget p K k y) ^ 2 = dens d * (G (α - (1 - β) / 25) y * dens (2 * β * paperRing y)) := by
    intro y
    rw [sq, ← dens_add, G_dens, G_dens, ← dens_add, ← dens_add, ← dens_add, target_eq, ← hb]
    congr 1
    simp only [mvnLogProb, paperInitial, Fin.sum_univ_two, Fin.prod_univ_two, hd]
    ring
  simp only [e]
  have hd0 : dens d ≠ 0 := by simp [dens, Real.exp_pos]
  have hdt : dens d ≠ ⊤ := ENNReal.ofReal_ne_top
  rw [lintegral_const_mul' _ _ hdt]
  have h := ring_power_G (α - (1 - β) / 25) β hβ
  rw [show α < (1 - β) / 25 + 2 * β ↔ α - (1 - β) / 25 < 2 * β by constructor <;> intro h <;> linarith, ← h]
  constructor
  · intro h1 h2
    exact h1 (by rw [h2, ENNReal.mul_top hd0])
  · exact fun h1 => ENNReal.mul_ne_top hdt h1

theorem second_moment_at (p : PaperParams) (hp : Untrained p) (K k : Nat) : ∃ c : ℝ≥0∞, c ≠ 0 ∧ c ≠ ⊤ ∧
    (paperSpec p K).law volume paperLp (k + 1) (fun w _ => dens w ^ 2) = c * ∫⁻ y, P^[k + 1] (G (1 / 50)) y * dens (paperTarget p K k y) ^ 2 := by
  obtain ⟨c, h1, h2, h3⟩ := initial_inv
  refine ⟨c, h1, h2, ?_⟩
  have hat : (paperSpec p K).at' paperLp (k + 1) = paperTarget p K k := rfl
  have e : (fun (w : ℝ) (_ : Fin 2 → ℝ) => dens w ^ 2) =
      fun w x => (fun u x => dens u ^ 2 * dens (paperTarget p K k x) ^ 2) (w - (paperSpec p K).at' paperLp (k + 1) x) x := by
    funext w x
    simp only [hat]
    rw [← mul_pow, ← dens_add, sub_add_cancel]
  rw [e, law_walk p hp K (k + 1) fun u x => dens u ^ 2 * dens (paperTarget p K k x) ^ 2]
  have hr : Measurable fun y => dens (paperTarget p K k y) ^ 2 := (measurable_dens.comp (measurable_paperTarget p K k)).pow_const 2
  have e2 : ∀ x, dens (mvnLogProb paperInitial x) * P^[k + 1] (fun y => dens (-mvnLogProb paperInitial x) ^ 2 * dens (paperTarget p K k y) ^ 2) x =
      c * (G (1 / 50) x * P^[k + 1] (fun y => dens (paperTarget p K k y) ^ 2) x) := by
    intro x
    rw [iter_const_mul (dens (-mvnLogProb paperInitial x) ^ 2) (ENNReal.pow_ne_top ENNReal.ofReal_ne_top) (k + 1)]
    have : dens (mvnLogProb paperInitial x) * dens (-mvnLogProb paperInitial x) = 1 := by rw [← dens_add, add_neg_cancel]; simp [dens]
    calc _ = (dens (mvnLogProb paperInitial x) * dens (-mvnLogProb paperInitial x)) * dens (-mvnLogProb paperInitial x) *
          P^[k + 1] (fun y => dens (paperTarget p K k y) ^ 2) x := by ring
      _ = _ := by rw [this, h3, one_mul, mul_assoc]
  simp only [e2]
  rw [lintegral_const_mul' _ _ h2, adjoint_iter (measurable_G _) hr]

/-- The second moment of the weight of a chain at target k + 1. -/
theorem second_moment_at_iff (p : PaperParams) (hp : Untrained p) (K k : Nat) (hβ : 0 < invTemp p K k) :
    (paperSpec p K).law volume paperLp (k + 1) (fun w _ => dens w ^ 2) ≠ ⊤ ↔
      k + 1 < 25 ∧ 1 / (2 * (25 - ((k : ℝ) + 1))) < (1 - invTemp p K k) / 25 + 2 * invTemp p K k := by
  obtain ⟨c, h1, h2, h3⟩ := second_moment_at p hp K k
  rw [h3]
  by_cases hlt : k + 1 < 25
  · obtain ⟨d, k1, k2, k3⟩ := iter_G (k + 1) hlt
    simp only [k3, mul_assoc]
    rw [lintegral_const_mul' _ _ k2]
    have h := target_G p K k hβ (1 / (2 * (25 - ((k + 1 : Nat) : ℝ))))
    push_cast at h ⊢
    rw [← h]
    constructor
    · intro h'
      refine ⟨hlt, fun ht => h' ?_⟩
      rw [ht, ENNReal.mul_top k1, ENNReal.mul_top h1]
    · rintro ⟨-, h'⟩
      exact ENNReal.mul_ne_top h2 (ENNReal.mul_ne_top k2 h')
  · refine iff_of_false (fun h => h ?_) fun h => hlt h.1
    rw [iter_G_top (k + 1) (by omega)]
    have : ∀ y : Fin 2 → ℝ, (⊤ : ℝ≥0∞) * dens (paperTarget p K k y) ^ 2 = ⊤ :=
      fun y => ENNReal.top_mul (pow_ne_zero 2 (by simp [dens, Real.exp_pos]))
    simp only [this]
    simp [ENNReal.mul_top h1]

end PaperWalk
end Verif
