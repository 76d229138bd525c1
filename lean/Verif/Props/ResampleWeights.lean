import Verif.Props.Resample
import Verif.Props.Unbiased
/-
C48: resampling keeps weighted averages correct in expectation.
-/
namespace Verif
open Spec

variable {n b : Nat} {X D : Type} {lp : D → (Fin n → Fin b → X) → Fin n → Fin b → ℝ}

open Classical in
/-- The values of all variables that take part in resampling, for one particle of one batch element. -/
noncomputable def Spec.particle (t : Trace (TLang n b X D lp)) (s : Fin n) (j : Fin b) (k : String) : Option X :=
  match t.get? k with
  | some rv => if rv.resamplable = true ∧ rv.prov ≠ .observed then some (rv.value s j) else none
  | none => none

theorem particle_moved {t t' : Trace (TLang n b X D lp)} {a : Fin n → Fin b → Fin n}
    (h : SameAddrs (Moved a) t t') (s : Fin n) (j : Fin b) : particle t' s j = particle t (a s j) j := by
  funext k
  unfold particle
  cases hk : t.get? k with
  | none =>
    have : t'.get? k = none := by
      rw [Dict.get?_eq_none] at hk ⊢
      rwa [h.1]
    rw [this]
  | some rv =>
    obtain ⟨rv', h1, h2, h3⟩ := h.2 k rv hk
    rw [h1]
    by_cases hp : rv.resamplable = true ∧ rv.prov ≠ .observed
    · obtain ⟨e1, -, e2, -, -, -, e3, -⟩ := h2 hp
      simp only [if_pos hp, e1, e2, e3]
      rw [if_pos ⟨trivial, hp.2⟩]
    · rw [h3 hp]
      simp only [if_neg hp]

/-- C48. For any real function of the resampled variables of one particle, the weighted average over the particles after
`Systematic` has, over a uniform offset, the value of the weighted average before: resampling keeps a properly weighted
set of particles properly weighted. (`E u` is the average after resampling with offset `u`.) -/
theorem C48_weighted_average [NeZero n] (t : Trace (TLang n b X D lp)) (lv : Fin n → Fin b → ℝ) (j : Fin b)
    (g : (String → Option X) → ℝ) :
    ∃ E : ℝ → ℝ,
      (∀ (u : Set.Ico (0 : ℝ) 1) t' lw', systematicAt false t lv (fun _ => u) = .ok (t', .tensor lw') →
        E u = (1 / n : ℝ) * ∑ s, Real.exp (lw' s j) * g (particle t' s j)) ∧
      ∫ u in (0 : ℝ)..1, E u = (1 / n : ℝ) * ∑ i, Real.exp (lv i j) * g (particle t i j) := by
  set w : Fin n → ℝ := softmax fun i => lv i j with hw
  have hn : (n : ℝ) ≠ 0 := (n_pos (n := n)).ne'
  have hS : (∑ i, Real.exp (lv i j)) ≠ 0 := (sum_exp_pos fun i => lv i j).ne'
  refine ⟨fun u => zHat (fun i => lv i j) * ((1 / n : ℝ) * ∑ k : Fin n, ∑ i : Fin n,
    (if ancestors w u k = i.val then g (particle t i j) else 0)), ?_, ?_⟩
  · intro u t' lw' h
    obtain ⟨a, h1, h2, h3⟩ := systematicAt_ok false t t' lv _ _ h
    have h2 := sameAddrs_of_forall₂ h2
    cases h3
    have e1 : ∀ s : Fin n, (∑ i : Fin n, (if ancestors w u.1 s = i.val then g (particle t i j) else 0)) =
        g (particle t' s j) := by
      intro s
      rw [particle_moved h2, ← hw] at *
      rw [Finset.sum_eq_single (a s j)]
      · rw [if_pos (h1 s j).symm]
      · intro i _ hne
        rw [if_neg]
        intro he
        exact hne (Fin.ext (by rw [h1 s j]; exact he.symm))
      · intro hx; exact absurd (Finset.mem_univ _) hx
    simp only [e1]
    have e2 : ∀ s, Real.exp (resampledLw false (fun i => lv i j) s) = zHat fun i => lv i j := by
      intro s
      rw [resampledLw_eq, logZHat, Real.exp_log (zHat_pos _)]
    simp only [e2, ← Finset.mul_sum]
    ring
  · rw [intervalIntegral.integral_const_mul, C23_unbiased w (softmax_hyps _).1 (softmax_hyps _).2]
    have e3 : ∀ i, share w i = Real.exp (lv i j) / ∑ l, Real.exp (lv l j) := by
      intro i
      unfold share
      rw [hw, softmax_sum, div_one, softmax]
    simp only [e3]
    unfold zHat
    rw [Finset.mul_sum, Finset.mul_sum]
    refine Finset.sum_congr rfl fun i _ => ?_
    field_simp

open TToy in
/-- C48: the particles 5 and 7 with weights 1 and 3, averaging the value of "x": 13 on average. -/
example : ∃ E : ℝ → ℝ,
    (∀ (u : Set.Ico (0 : ℝ) 1) t' lw', systematicAt false tr y (fun _ => u) = .ok (t', .tensor lw') →
      E u = (1 / (2 : ℕ) : ℝ) * ∑ s, Real.exp (lw' s 0) * ((particle t' s 0 "x").getD 0)) ∧
    (∃ t' lw', systematicAt false tr y (fun _ => ⟨0, by norm_num, by norm_num⟩) = .ok (t', .tensor lw')) ∧
    ∫ u in (0 : ℝ)..1, E u = 13 := by
  obtain ⟨E, h1, h2⟩ := C48_weighted_average tr y 0 fun p => (p "x").getD 0
  refine ⟨E, h1, ?_, ?_⟩
  · obtain ⟨⟨t', lw'⟩, hr⟩ := systematicAt_total false tr y (fun _ => ⟨0, by norm_num, by norm_num⟩) (by
      intro k rv hk _ ho
      have : k = "y" ∨ k = "x" := by
        have := Dict.mem_keys_iff.2 ⟨rv, hk⟩
        simpa [tr, Dict.mem_keys_insert] using this
      rcases this with rfl | rfl <;> cases hk <;> cases ho)
    obtain ⟨a, -, -, rfl⟩ := systematicAt_ok _ _ _ _ _ _ hr
    exact ⟨t', _, hr⟩
  · rw [h2, Fin.sum_univ_two]
    have hp : ∀ s : Fin 2, particle tr s 0 "x" = some (if s = 0 then 5 else 7) := by
      intro s
      have : tr.get? "x" = some (RV.mk' (L := TToy.L) () x .sampled true) := rfl
      unfold particle
      rw [this]
      simp only [RV.mk']
      rw [if_pos ⟨trivial, by simp⟩]
      rfl
    rw [hp, hp]
    simp [y, Real.exp_log]
    norm_num

end Verif
