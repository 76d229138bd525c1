import Verif.Proofs.PaperTempered
import Verif.Props.PaperVariance
/-
C80 for every target: the evidence estimates of the annealing experiment before training, at intermediate targets.
-/
namespace Verif
open Spec MeasureTheory
open scoped ENNReal

section
variable {n b : Nat} (p : PaperParams) (K : Nat)
local notation "ℙ" => PopLang n b (Fin 2 → ℝ) PaperDist volume paperLp

/-- C80. nvi_test on an untrained model, whatever its inverse temperatures: the estimate for step t + 1, whose target has inverse temperature β,
has finite variance exactly if t + 1 < 25 and 1 / (2 (25 - (t + 1))) < (1 - β) / 25 + 2 β. -/
theorem C80_steps [NeZero n] (fresh : ObjId) (j : Fin b) (hp : PaperWalk.Untrained p) (I : AnnealIds) (hid : I.Below fresh)
    (lossFn : Out ℙ → Except Err (ℙ).Lo) (hl : LossOk lossFn)
    (transf : Option (Trace ℙ → Kw ℙ → Except Err (Trace ℙ))) (ht : AnnealTransf transf) (nd : Node ℙ)
    (hnd : vsmc fresh ((paperAnneal n b p (K + 1)).initial I :: (List.range (K + 1)).map ((paperAnneal n b p (K + 1)).target I))
        ((List.range (K + 1)).map ((paperAnneal n b p (K + 1)).forward I)) ((List.range (K + 1)).map ((paperAnneal n b p (K + 1)).reverse I))
        lossFn transf none = .ok nd)
    (kw : Kw ℙ) (w : World ℙ) (hk : KwOk kw) (hw : ∀ i, w.cond i = none) (t : Nat) (htK : t ≤ K) (β : ℝ)
    (hβ : β = if t < K then sigmoid (p.logit t) else 1) :
    expectT (nviTest popEss popLz nd kw w) (onReturn fun rep => ENNReal.ofReal (Real.exp (reportLz t j rep)) ^ 2) ≠ ⊤ ↔
      t + 1 < 25 ∧ 1 / (2 * (25 - ((t : ℝ) + 1))) < (1 - β) / 25 + 2 * β := by
  have e : β = PaperWalk.invTemp p (K + 1) t := by rw [hβ, PaperWalk.invTemp]; simp
  have hpos : 0 < PaperWalk.invTemp p (K + 1) t := by
    unfold PaperWalk.invTemp
    split
    · unfold sigmoid; positivity
    · exact one_pos
  rw [report_square fresh _ (paperSpec p (K + 1)) j (paper_vectorises n b p (K + 1) j) (paper_norm p (K + 1)) I hid lossFn hl transf ht (K + 1) t
    (by omega) nd hnd kw w hk hw, e]
  · exact PaperWalk.second_moment_at_iff p hp (K + 1) t hpos
  · by_cases h : t + 1 < K + 1
    · refine ne_top_of_le_ne_top ?_ ((C79_evidence p (K + 1) t).2 h).2
      exact ENNReal.rpow_ne_top_of_nonneg (by unfold sigmoid; positivity) (by norm_num)
    · have : ∫⁻ x, dens (paperLp ((paperSpec p (K + 1)).g t) x) = 8 := (C79_evidence p (K + 1) t).1 h
      rw [this]
      norm_num

/-- C80. A new model, with K + 2 targets and inverse temperatures 1 / (K + 1), 2 / (K + 1), …, 1. With up to 103 targets the variance is finite
exactly for the first 24 steps; with more it is infinite for step 24 already. -/
theorem C80_new_steps [NeZero n] (fresh : ObjId) (j : Fin b) (hp : PaperWalk.Untrained p) (hlog : ∀ t < K, p.logit t = logit (((t + 1 : Nat) : ℝ) / (K + 1)))
    (I : AnnealIds) (hid : I.Below fresh) (lossFn : Out ℙ → Except Err (ℙ).Lo) (hl : LossOk lossFn)
    (transf : Option (Trace ℙ → Kw ℙ → Except Err (Trace ℙ))) (ht : AnnealTransf transf) (nd : Node ℙ)
    (hnd : vsmc fresh ((paperAnneal n b p (K + 1)).initial I :: (List.range (K + 1)).map ((paperAnneal n b p (K + 1)).target I))
        ((List.range (K + 1)).map ((paperAnneal n b p (K + 1)).forward I)) ((List.range (K + 1)).map ((paperAnneal n b p (K + 1)).reverse I))
        lossFn transf none = .ok nd)
    (kw : Kw ℙ) (w : World ℙ) (hk : KwOk kw) (hw : ∀ i, w.cond i = none) (t : Nat) (htK : t ≤ K) :
    (expectT (nviTest popEss popLz nd kw w) (onReturn fun rep => ENNReal.ofReal (Real.exp (reportLz t j rep)) ^ 2) ≠ ⊤ ↔
      t + 1 < 25 ∧ 1 / (2 * (25 - ((t : ℝ) + 1))) < 1 / 25 + 49 / 25 * (((t : ℝ) + 1) / (K + 1))) ∧
    (K + 1 < 103 → (expectT (nviTest popEss popLz nd kw w) (onReturn fun rep => ENNReal.ofReal (Real.exp (reportLz t j rep)) ^ 2) ≠ ⊤ ↔ t + 1 < 25)) ∧
    (103 ≤ K + 1 → t + 1 = 24 → expectT (nviTest popEss popLz nd kw w) (onReturn fun rep => ENNReal.ofReal (Real.exp (reportLz t j rep)) ^ 2) = ⊤) := by
  have hK : (0 : ℝ) < K + 1 := by positivity
  have hβ : ((t : ℝ) + 1) / (K + 1) = if t < K then sigmoid (p.logit t) else 1 := by
    split
    next h =>
      rw [hlog t h, sigmoid_logit]
      · push_cast; rfl
      · positivity
      · rw [div_lt_one hK]
        exact_mod_cast (by omega : t + 1 < K + 1)
    next h =>
      have : t = K := by omega
      rw [this, div_self hK.ne']
  have h := C80_steps p K fresh j hp I hid lossFn hl transf ht nd hnd kw w hk hw t htK _ hβ
  have e : (1 - ((t : ℝ) + 1) / (K + 1)) / 25 + 2 * (((t : ℝ) + 1) / (K + 1)) = 1 / 25 + 49 / 25 * (((t : ℝ) + 1) / (K + 1)) := by ring
  rw [e] at h
  refine ⟨h, fun hlt => h.trans ⟨fun h => h.1, fun h25 => ⟨h25, ?_⟩⟩, fun hge h24 => ?_⟩
  swap
  · by_contra hne
    have h2 := (h.1 hne).2
    have h3 : (t : ℝ) = 23 := by exact_mod_cast (by omega : t = 23)
    have h4 : (103 : ℝ) ≤ K + 1 := by exact_mod_cast hge
    rw [h3] at h2
    have h5 : ((23 : ℝ) + 1) / (K + 1) ≤ 24 / 103 := by
      rw [div_le_div_iff₀ hK (by norm_num)]
      linarith
    norm_num at h2
    norm_num at h5
    linarith
  have h1 : ((t : ℝ) + 1) / 102 ≤ ((t : ℝ) + 1) / (K + 1) := by
    have : (K : ℝ) + 1 ≤ 102 := by exact_mod_cast (by omega : K + 1 ≤ 102)
    gcongr
  have h2 : 1 / (2 * (25 - ((t : ℝ) + 1))) < 1 / 25 + 49 / 25 * (((t : ℝ) + 1) / 102) := by
    have ht : t ≤ 23 := by omega
    clear * - ht
    interval_cases t <;> norm_num
  linarith

end

/-- C80: with 200 steps the estimate for step 24 of a new model has infinite variance, that for step 12 finite variance. -/
example (n : Nat) [NeZero n] (net : ResMLPJ 2 50) :
    let p : PaperParams := ⟨fun _ => newKernel net fun i i' => if i = i' then 1 ^ 2 else 0,
      fun _ => newKernel net fun i i' => if i = i' then 1 ^ 2 else 0, fun k => logit (((k + 1 : Nat) : ℝ) / ((199 : Nat) + 1))⟩
    ∃ nd, vsmc 100 ((paperAnneal n 1 p 200).initial Toy.annealIds :: (List.range 200).map ((paperAnneal n 1 p 200).target Toy.annealIds))
      ((List.range 200).map ((paperAnneal n 1 p 200).forward Toy.annealIds)) ((List.range 200).map ((paperAnneal n 1 p 200).reverse Toy.annealIds))
      (fun _ => .ok 0) none none = .ok nd ∧
    expectT (nviTest popEss popLz nd {} (PaperEx.w0 n 1)) (onReturn fun rep => ENNReal.ofReal (Real.exp (reportLz 23 0 rep)) ^ 2) = ⊤ ∧
    expectT (nviTest popEss popLz nd {} (PaperEx.w0 n 1)) (onReturn fun rep => ENNReal.ofReal (Real.exp (reportLz 11 0 rep)) ^ 2) ≠ ⊤ := by
  intro p
  have hp : PaperWalk.Untrained p := (C79_new (fun _ => net) (fun _ => net) 199).2
  obtain ⟨nd, h1, -⟩ := C30_vsmc 100 (paperAnneal n 1 p 200) Toy.annealIds Coin.ids_below (fun _ => .ok 0) (fun _ _ _ => ⟨_, rfl⟩) none (Or.inl rfl) 200
  refine ⟨nd, h1, ?_, ?_⟩
  · exact (C80_new_steps (n := n) (b := 1) p 199 100 0 hp (fun _ _ => rfl) Toy.annealIds Coin.ids_below (fun _ => .ok 0) (fun _ _ _ => ⟨_, rfl⟩) none
      (Or.inl rfl) nd h1 {} (PaperEx.w0 n 1) (fun e he => by cases he) (fun _ => rfl) 23 (by norm_num)).2.2 (by norm_num) rfl
  · refine (C80_new_steps (n := n) (b := 1) p 199 100 0 hp (fun _ _ => rfl) Toy.annealIds Coin.ids_below (fun _ => .ok 0) (fun _ _ _ => ⟨_, rfl⟩) none
      (Or.inl rfl) nd h1 {} (PaperEx.w0 n 1) (fun e he => by cases he) (fun _ => rfl) 11 (by norm_num)).1.2 ⟨by norm_num, by norm_num⟩

end Verif
