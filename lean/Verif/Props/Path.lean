import Mathlib.Tactic.Linarith
import Mathlib.Tactic.FieldSimp
import Mathlib.MeasureTheory.Integral.Lebesgue.Add
import Mathlib.MeasureTheory.Function.SpecialFunctions.Basic
import Mathlib.MeasureTheory.Measure.Dirac
import Verif.Model.Path
import Verif.Spec.Annealing
/-
C37 (the annealing path), C52 (the mixture density).
-/
namespace Verif
variable {V : Type}

theorem sigmoid_logit {x : ℝ} (h0 : 0 < x) (h1 : x < 1) : sigmoid (logit x) = x := by
  unfold sigmoid logit
  have h2 : 0 < 1 - x := by linarith
  rw [Real.exp_neg, Real.exp_log (div_pos h0 h2)]
  field_simp
  ring

theorem mapM_ok {α β : Type} (f : α → Except Err β) (g : α → β) (l : List α) (h : ∀ x ∈ l, f x = .ok (g x)) :
    l.mapM f = .ok (l.map g) := by
  induction l with
  | nil => rfl
  | cons x l ih =>
    rw [List.mapM_cons, h x (by simp), ih fun y hy => h y (by simp [hy])]
    rfl

/-- C37. A tempered density is built exactly for beta strictly between 0 and 1, and is the beta-weighted interpolation of the end
densities. -/
theorem C37_tempered (name : String) (d1 d2 : PathTarget V) (beta : ℝ) :
    (¬ (0 < beta ∧ beta < 1) → tempered name d1 d2 beta = .error .assertion) ∧
    (0 < beta → beta < 1 → ∃ t, tempered name d1 d2 beta = .ok t ∧ t.name = name ∧
      ∀ v, t.logDensity v = (1 - beta) * d1.logDensity v + beta * d2.logDensity v) := by
  constructor
  · intro h
    unfold tempered
    rw [if_neg h]
  · intro h0 h1
    unfold tempered
    rw [if_pos ⟨h0, h1⟩]
    refine ⟨_, rfl, rfl, fun v => ?_⟩
    simp only [sigmoid_logit h0 h1]
    ring

/-- C37. For n >= 2 targets and a step 1/(n-1), rounded so little that n-2 steps stay below 1, anneal_between returns exactly n
targets: the given ends, and between them, named g1, ..., g(n-2), the interpolations with weights k * step, which lie strictly
between 0 and 1 and increase strictly with k. -/
theorem C37_path (recip : Int → ℝ) (left right : PathTarget V) (m : Nat) (h0 : 0 < recip ((m + 2 : Nat) - 1))
    (h1 : m * recip ((m + 2 : Nat) - 1) < 1) :
    ∃ path, annealBetween recip left right (m + 2 : Nat) = .ok path ∧ path.length = m + 2 ∧ path[0]? = some left ∧
      path[m + 1]? = some right ∧
      (∀ k, 0 < k → k < m + 1 → ∃ t, path[k]? = some t ∧ t.name = AnnealModel.name k ∧
        0 < k * recip ((m + 2 : Nat) - 1) ∧ k * recip ((m + 2 : Nat) - 1) < 1 ∧ ∀ v, t.logDensity v =
          (1 - k * recip ((m + 2 : Nat) - 1)) * left.logDensity v + k * recip ((m + 2 : Nat) - 1) * right.logDensity v) ∧
      ∀ j k : Nat, j < k → j * recip ((m + 2 : Nat) - 1) < k * recip ((m + 2 : Nat) - 1) := by
  generalize hs : recip ((m + 2 : Nat) - 1) = s at *
  have hb : ∀ k, k < m → 0 < ((k + 1 : Nat) : ℝ) * s ∧ ((k + 1 : Nat) : ℝ) * s < 1 := by
    intro k hk
    refine ⟨by positivity, lt_of_le_of_lt ?_ h1⟩
    have : ((k + 1 : Nat) : ℝ) ≤ m := by exact_mod_cast hk
    exact mul_le_mul_of_nonneg_right this h0.le
  have hlen : m + 1 ≤ ⌈1 / s⌉.toNat := by
    have : (m : ℝ) < 1 / s := by rwa [lt_div_iff₀ h0]
    have h2 : (m : Int) < ⌈1 / s⌉ := Int.lt_ceil.mpr (by exact_mod_cast this)
    omega
  have hzip : ((List.range m).map (· + 1)).zip (((List.range ⌈1 / s⌉.toNat).map fun i : Nat => (i : ℝ) * s).drop 1) =
      (List.range m).map fun k => (k + 1, ((k + 1 : Nat) : ℝ) * s) := by
    apply List.ext_getElem
    · simp only [List.length_zip, List.length_map, List.length_range, List.length_drop]
      omega
    · intro i h1 h2
      simp only [List.length_map, List.length_range] at h2
      simp only [List.getElem_zip, List.getElem_map, List.getElem_range, List.getElem_drop]
      rw [Nat.add_comm 1 i]
  choose f hf1 hf2 hf3 using fun (kb : Nat × ℝ) (h : 0 < kb.2 ∧ kb.2 < 1) =>
    (C37_tempered ("g" ++ toString kb.1) left right kb.2).2 h.1 h.2
  classical
  let g : Nat × ℝ → PathTarget V := fun kb => if h : 0 < kb.2 ∧ kb.2 < 1 then f kb h else left
  have hmap : ((List.range m).map fun k => (k + 1, ((k + 1 : Nat) : ℝ) * s)).mapM
      (fun kb => tempered ("g" ++ toString kb.1) left right kb.2) =
      .ok (((List.range m).map fun k => (k + 1, ((k + 1 : Nat) : ℝ) * s)).map g) := by
    apply mapM_ok
    intro x hx
    simp only [List.mem_map, List.mem_range] at hx
    obtain ⟨k, hk, rfl⟩ := hx
    have := hb k hk
    simp only [g]
    rw [dif_pos this]
    exact hf1 (k + 1, ((k + 1 : Nat) : ℝ) * s) this
  refine ⟨[left] ++ ((List.range m).map fun k => (k + 1, ((k + 1 : Nat) : ℝ) * s)).map g ++ [right], ?_, ?_, ?_, ?_, ?_, ?_⟩
  · unfold annealBetween
    rw [if_neg (by push_cast; omega)]
    have e1 : arange01 (recip ((m + 2 : Nat) - 1)) = .ok ((List.range ⌈1 / s⌉.toNat).map fun i : Nat => (i : ℝ) * s) := by
      rw [hs]; unfold arange01; rw [if_pos h0]
    rw [e1]
    have e2 : (((m + 2 : Nat) : Int) - 2).toNat = m := by omega
    simp only [e2, hzip, hmap]
    rw [if_pos]
    simp
    omega
  · simp
  · simp
  · simp
  · intro k hk0 hk
    obtain ⟨j, rfl⟩ : ∃ j, k = j + 1 := ⟨k - 1, by omega⟩
    have hj : j < m := by omega
    have hbj := hb j hj
    refine ⟨f (j + 1, ((j + 1 : Nat) : ℝ) * s) hbj, ?_, hf2 _ hbj, hbj.1, hbj.2, hf3 _ hbj⟩
    rw [List.append_assoc, List.singleton_append, List.getElem?_cons_succ, List.getElem?_append_left (by simpa using hj)]
    simp only [List.getElem?_map, List.getElem?_range hj, Option.map_some, g]
    rw [dif_pos hbj]
  · intro j k hjk
    exact mul_lt_mul_of_pos_right (by exact_mod_cast hjk) h0

/-- C37. With the exact reciprocal the weights are k/(n-1). -/
theorem C37_exact (left right : PathTarget V) (m : Nat) :
    ∃ path, annealBetween (fun x => 1 / (x : ℝ)) left right (m + 2 : Nat) = .ok path ∧ path.length = m + 2 ∧
      path[0]? = some left ∧ path[m + 1]? = some right ∧
      ∀ k, 0 < k → k < m + 1 → ∃ t, path[k]? = some t ∧ t.name = AnnealModel.name k ∧
        ∀ v, t.logDensity v = (1 - (k : ℝ) / (m + 1)) * left.logDensity v + (k : ℝ) / (m + 1) * right.logDensity v := by
  have hs : 1 / ((((m + 2 : Nat) : Int) - 1 : Int) : ℝ) = 1 / ((m : ℝ) + 1) := by
    congr 1
    push_cast
    ring
  have hp : (0 : ℝ) < m + 1 := by positivity
  obtain ⟨path, h1, h2, h3, h4, h5, -⟩ := C37_path (fun x => 1 / (x : ℝ)) left right m (by rw [hs]; positivity)
    (by rw [hs, mul_one_div, div_lt_one hp]; linarith)
  refine ⟨path, h1, h2, h3, h4, fun k hk hk' => ?_⟩
  obtain ⟨t, a1, a2, -, -, a3⟩ := h5 k hk hk'
  refine ⟨t, a1, a2, fun v => ?_⟩
  rw [a3, hs, mul_one_div]

/-- C37. One target raises ZeroDivisionError, none or a negative number RuntimeError (the step is negative). -/
theorem C37_too_few (recip : Int → ℝ) (left right : PathTarget V) :
    annealBetween recip left right 1 = .error (.other 3) ∧
    ∀ n : Int, n ≤ 0 → recip (n - 1) < 0 → annealBetween recip left right n = .error .runtime := by
  constructor
  · rfl
  · intro n hn hr
    unfold annealBetween
    rw [if_neg (by omega)]
    unfold arange01
    rw [if_neg (not_lt.mpr hr.le)]

/-- C37. paper_model(n), n >= 2: there are n targets named g0, ..., g(n-1) in this order, and n-1 forward and reverse kernels,
the k-th from g(k) to g(k+1) and back. -/
theorem C37_paper_names (g0 gK : V → ℝ) (m : Nat) :
    ∃ targets fwd rev, paperModel (fun x => 1 / (x : ℝ)) g0 gK (m + 2 : Nat) = .ok (targets, fwd, rev) ∧
      targets.map (·.name) = (List.range (m + 2)).map AnnealModel.name ∧
      fwd = (List.range (m + 1)).map (fun k => ⟨AnnealModel.name k, AnnealModel.name (k + 1)⟩) ∧
      rev = (List.range (m + 1)).map (fun k => ⟨AnnealModel.name (k + 1), AnnealModel.name k⟩) := by
  obtain ⟨path, h1, h2, h3, h4, h5⟩ := C37_exact ⟨"g0", g0⟩ ⟨"g" ++ toString (((m + 2 : Nat) : Int) - 1), gK⟩ m
  have hm : (((m + 2 : Nat) : Int) - 1).toNat = m + 1 := by omega
  refine ⟨path, _, _, ?_, ?_, rfl, rfl⟩
  · unfold paperModel
    rw [h1]
    simp only [hm]
    rfl
  · apply List.ext_getElem?
    intro k
    rw [List.getElem?_map, List.getElem?_map]
    by_cases hk : k < m + 2
    · rw [List.getElem?_range hk]
      rcases Nat.eq_zero_or_pos k with rfl | hpos
      · rw [h3]; rfl
      · by_cases hk' : k < m + 1
        · obtain ⟨t, a1, a2, -⟩ := h5 k hpos hk'
          rw [a1]; simp [a2]
        · have : k = m + 1 := by omega
          subst this
          rw [h4]
          simp only [Option.map_some, AnnealModel.name, Option.some.injEq]
          have : (((m + 2 : Nat) : Int) - 1) = ((m + 1 : Nat) : Int) := by push_cast; ring
          rw [this]
          rfl
    · rw [List.getElem?_eq_none (by omega), List.getElem?_eq_none (by simp; omega)]
      rfl

example : ∃ path, annealBetween (fun x => 1 / (x : ℝ)) ⟨"g0", fun x : ℝ => -x * x⟩ ⟨"g3", fun x => -(x - 2) * (x - 2)⟩ 4 = .ok path ∧
    path.length = 4 := by
  obtain ⟨path, h1, h2, -⟩ := C37_exact ⟨"g0", fun x : ℝ => -x * x⟩ ⟨"g3", fun x => -(x - 2) * (x - 2)⟩ 2
  exact ⟨path, h1, h2⟩

example : ∃ t, tempered "g1" ⟨"g0", fun x : ℝ => -x * x⟩ ⟨"g2", fun x => -(x - 2) * (x - 2)⟩ (1 / 2) = .ok t ∧ t.logDensity 2 = -2 := by
  obtain ⟨t, h1, -, h2⟩ := (C37_tempered "g1" ⟨"g0", fun x : ℝ => -x * x⟩ ⟨"g2", fun x => -(x - 2) * (x - 2)⟩ (1 / 2)).2
    (by norm_num) (by norm_num)
  exact ⟨t, h1, by rw [h2]; norm_num⟩

example : ∃ t f r, paperModel (fun x => 1 / (x : ℝ)) (fun x : ℝ => -x * x) (fun x => -(x - 2) * (x - 2)) 3 = .ok (t, f, r) ∧
    t.map (·.name) = ["g0", "g1", "g2"] := by
  obtain ⟨t, f, r, h1, h2, -⟩ := C37_paper_names (fun x : ℝ => -x * x) (fun x => -(x - 2) * (x - 2)) 1
  exact ⟨t, f, r, h1, by rw [h2]; decide +kernel⟩

/-- C52. The GMM density is the plain sum of the component densities ... -/
theorem C52_density (comps : List (V → ℝ)) (h : comps ≠ []) (v : V) :
    ∃ d, gmmDensity comps v = .ok d ∧ Real.exp d = (comps.map fun c => Real.exp (c v)).sum := by
  have hne : comps.isEmpty = false := by cases comps with
    | nil => exact absurd rfl h
    | cons _ _ => rfl
  refine ⟨Real.log ((comps.map fun c => Real.exp (c v)).sum), by simp [gmmDensity, hne], ?_⟩
  apply Real.exp_log
  cases comps with
  | nil => exact absurd rfl h
  | cons c cs =>
    rw [List.map_cons, List.sum_cons]
    have : 0 ≤ (cs.map fun c => Real.exp (c v)).sum := List.sum_nonneg (by
      intro x hx
      obtain ⟨c', -, rfl⟩ := List.mem_map.mp hx
      exact (Real.exp_pos _).le)
    have := Real.exp_pos (c v)
    linarith

open MeasureTheory in
/-- C52. ... so that when each component is a normalised density, its normalising constant is the number of components (not 1). -/
theorem C52_normaliser [MeasurableSpace V] (μ : Measure V) (comps : List (V → ℝ)) (h : comps ≠ [])
    (hm : ∀ c ∈ comps, Measurable c) (hn : ∀ c ∈ comps, ∫⁻ v, ENNReal.ofReal (Real.exp (c v)) ∂μ = 1)
    (d : V → ℝ) (hd : ∀ v, gmmDensity comps v = .ok (d v)) :
    ∫⁻ v, ENNReal.ofReal (Real.exp (d v)) ∂μ = comps.length := by
  have hs : ∀ v, ENNReal.ofReal (Real.exp (d v)) = (comps.map fun c => ENNReal.ofReal (Real.exp (c v))).sum := by
    intro v
    obtain ⟨x, h1, h2⟩ := C52_density comps h v
    rw [hd v] at h1
    cases h1
    rw [h2]
    clear h2 hn hm h hd
    induction comps with
    | nil => simp
    | cons c cs ih =>
      simp only [List.map_cons, List.sum_cons]
      rw [ENNReal.ofReal_add (Real.exp_pos _).le, ih]
      exact List.sum_nonneg (by
        intro x hx
        obtain ⟨c', -, rfl⟩ := List.mem_map.mp hx
        exact (Real.exp_pos _).le)
  simp only [hs]
  clear hs hd h
  induction comps with
  | nil => simp
  | cons c cs ih =>
    simp only [List.map_cons, List.sum_cons]
    rw [lintegral_add_left, hn c (by simp), ih (fun c hc => hm c (by simp [hc])) (fun c hc => hn c (by simp [hc]))]
    · simp [add_comm]
    · exact ENNReal.measurable_ofReal.comp (Real.measurable_exp.comp (hm c (by simp)))

open MeasureTheory in
example (d : Unit → ℝ) (hd : ∀ v, gmmDensity [fun _ : Unit => (0 : ℝ), fun _ => 0, fun _ => 0] v = .ok (d v)) :
    ∫⁻ v, ENNReal.ofReal (Real.exp (d v)) ∂(Measure.dirac ()) = 3 := by
  have := C52_normaliser (Measure.dirac ()) [fun _ : Unit => (0 : ℝ), fun _ => 0, fun _ => 0] (by simp)
    (fun c _ => measurable_of_countable c) (by simp) d hd
  simpa using this

/-- C52. `GMM(locs, covs)` raises if there are not as many covariances as means; otherwise the i-th component has the i-th mean and
covariance. -/
theorem C52_components {P C : Type} (mvn : P → C → V → ℝ) (locs : List P) (covs : List C) :
    (locs.length ≠ covs.length → gmmComponents mvn locs covs = .error .assertion) ∧
    (locs.length = covs.length → ∃ cs, gmmComponents mvn locs covs = .ok cs ∧ cs.length = locs.length ∧
      ∀ (i : Nat) l c, locs[i]? = some l → covs[i]? = some c → cs[i]? = some (mvn l c)) := by
  refine ⟨fun h => if_neg h, fun h => ⟨_, if_pos h, by simp [h], fun i l c h1 h2 => ?_⟩⟩
  rw [List.getElem?_map, List.getElem?_zip_eq_some (z := (l, c)) |>.2 ⟨h1, h2⟩]
  rfl

/-- C52. RingGMM places its components on the circle of the given radius; there is no ring of no components. -/
theorem C52_ring (radius : ℝ) (count : Nat) : (count = 0 → ringLocs radius count = .error (.other 3)) ∧
    (count ≠ 0 → ∃ ls, ringLocs radius count = .ok ls ∧ ls.length = count ∧ ls[0]? = some (0, radius) ∧
      ∀ p ∈ ls, p.1 ^ 2 + p.2 ^ 2 = radius ^ 2) := by
  constructor
  · rintro rfl; rfl
  · intro h
    refine ⟨_, by unfold ringLocs; rw [if_neg h], by simp, ?_, ?_⟩
    · rw [List.getElem?_map, List.getElem?_range (Nat.pos_of_ne_zero h)]
      simp
    · intro p hp
      obtain ⟨k, -, rfl⟩ := List.mem_map.mp hp
      have := Real.sin_sq_add_cos_sq (2 * Real.pi / count * k)
      simp only
      linear_combination radius ^ 2 * this

example : ∃ ls, ringLocs 10 8 = .ok ls ∧ ls.length = 8 := by
  obtain ⟨ls, h1, h2, -⟩ := (C52_ring 10 8).2 (by decide)
  exact ⟨ls, h1, h2⟩

end Verif
