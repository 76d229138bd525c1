import Verif.Proofs.PaperWalk
import Verif.Props.Paper
/-
C80: the evidence estimates of the annealing experiment before training.
-/
namespace Verif
open Spec MeasureTheory
open scoped ENNReal

section
variable {n b : Nat} {X D : Type} [MeasurableSpace X] {μ : Measure X} {lp : D → X → ℝ}
local notation "ℙ" => PopLang n b X D μ lp

/-- The evidence estimate reported for a step, in terms of the chain. -/
theorem report_chain (fresh : ObjId) (M : AnnealModel ℙ) (j : Fin b) (I : AnnealIds) (hid : I.Below fresh) (lossFn : Out ℙ → Except Err (ℙ).Lo)
    (hl : LossOk lossFn) (transf : Option (Trace ℙ → Kw ℙ → Except Err (Trace ℙ))) (ht : AnnealTransf transf) (K t : Nat) (htK : t < K) (nd : Node ℙ)
    (hnd : vsmc fresh (M.initial I :: (List.range K).map (M.target I)) ((List.range K).map (M.forward I))
        ((List.range K).map (M.reverse I)) lossFn transf none = .ok nd)
    (kw : Kw ℙ) (w : World ℙ) (hk : KwOk kw) (hw : ∀ i, w.cond i = none) (ψ : ℝ → ℝ≥0∞) :
    expectT (nviTest popEss popLz nd kw w) (onReturn fun rep => ψ (reportLz t j rep)) =
      expectT (M.chain (t + 1)) fun z => ψ (logZHat fun s => M.weight z (t + 1) s j) := by
  obtain ⟨nd2, e2, -⟩ := C30_vsmc fresh M I hid lossFn hl transf ht (t + 1)
  obtain ⟨nd1, e1, h1⟩ := C63_nvi_test (L := ℙ) popEss popLz fresh M I hid lossFn hl transf ht K
  rw [hnd] at e1
  cases e1
  obtain ⟨F, hF, hF'⟩ := (h1 kw w hk hw).2 (by omega)
  have hrep : expectT (nviTest popEss popLz nd kw w) (onReturn fun rep => ψ (reportLz t j rep)) =
      expectT (nviTest popEss popLz nd kw w) (onReturn (atStep t fun lw _ => ψ (logZHat fun s => lw s j))) := by
    refine (isLaw_expectT (μ := μ) (lp := lp) (n := n) j).congr _ _ _ ?_
    rintro ⟨r, w'⟩ hr
    rw [hF, Comp.bind_Ret] at hr
    obtain ⟨z, -, hz⟩ := hr
    cases hz
    have b0 : (F z).lw[t]? = some (M.incoming z (t + 1)) := by rw [(hF' z).lw]; simp [htK]
    have b1 : (F z).lZHat[t]? = some (popLz (M.incoming z (t + 1))) := by rw [(hF' z).lZHat]; simp [htK]
    have b2 : (F z).samples[t]? = some (AnnealModel.name (t + 1), z (t + 1)) := by rw [(hF' z).samples]; simp [htK]
    simp only [onReturn, atStep, reportLz, b0, b1, b2, Option.getD_some, popLz]
  rw [hrep, C63_prefix fresh M I hid lossFn hl transf ht K t htK nd nd2 hnd e2 .none kw {} w hk (fun e he => by cases he) hw]
  exact vsmc_atEnd fresh M I hid lossFn hl transf ht (t + 1) nd2 e2 .none {} w (fun e he => by cases he) hw _

theorem sum_sq_le (f : Fin n → ℝ≥0∞) : ∑ s, f s ^ 2 ≤ (∑ s, f s) ^ 2 := by
  rw [sq (∑ s, f s), Finset.sum_mul]
  refine Finset.sum_le_sum fun s _ => ?_
  rw [sq]
  have : f s ≤ ∑ s, f s := Finset.single_le_sum (fun _ _ => bot_le) (Finset.mem_univ s)
  gcongr

/-- The second moment of an evidence estimate is finite exactly if that of the weight of a chain is. -/
theorem report_square [NeZero n] [Nonempty X] [SFinite μ] (fresh : ObjId) (M : AnnealModel ℙ) (S : AnnealSpec X D) (j : Fin b) (hV : Vectorises M S j)
    (hS : S.Norm μ lp) (I : AnnealIds) (hid : I.Below fresh) (lossFn : Out ℙ → Except Err (ℙ).Lo) (hl : LossOk lossFn)
    (transf : Option (Trace ℙ → Kw ℙ → Except Err (Trace ℙ))) (ht : AnnealTransf transf) (K t : Nat) (htK : t < K) (nd : Node ℙ)
    (hnd : vsmc fresh (M.initial I :: (List.range K).map (M.target I)) ((List.range K).map (M.forward I))
        ((List.range K).map (M.reverse I)) lossFn transf none = .ok nd)
    (kw : Kw ℙ) (w : World ℙ) (hk : KwOk kw) (hw : ∀ i, w.cond i = none) (hZ : ∫⁻ x, dens (lp (S.g t) x) ∂μ ≠ ⊤) :
    expectT (nviTest popEss popLz nd kw w) (onReturn fun rep => ENNReal.ofReal (Real.exp (reportLz t j rep)) ^ 2) ≠ ⊤ ↔
      S.law μ lp (t + 1) (fun w _ => dens w ^ 2) ≠ ⊤ := by
  rw [report_chain fresh M j I hid lossFn hl transf ht K t htK nd hnd kw w hk hw fun x => ENNReal.ofReal (Real.exp x) ^ 2]
  have hn : (0 : ℝ) < n := by exact_mod_cast NeZero.pos n
  have hn0 : (n : ℝ≥0∞) ≠ 0 := by exact_mod_cast NeZero.ne n
  have hnt : (n : ℝ≥0∞) ≠ ⊤ := ENNReal.natCast_ne_top n
  have e : ∀ z : Nat → (ℙ).V, ENNReal.ofReal (Real.exp (logZHat fun s => M.weight z (t + 1) s j)) ^ 2 =
      ((n : ℝ≥0∞)⁻¹) ^ 2 * (∑ s, dens (M.weight z (t + 1) s j)) ^ 2 := by
    intro z
    rw [logZHat, Real.exp_log (zHat_pos _), zHat, ENNReal.ofReal_div_of_pos hn, ENNReal.ofReal_sum_of_nonneg fun _ _ => (Real.exp_pos _).le,
      ENNReal.ofReal_natCast, ← mul_pow, div_eq_mul_inv, mul_comm]
    rfl
  simp only [e]
  have hi0 : ((n : ℝ≥0∞)⁻¹) ^ 2 ≠ 0 := pow_ne_zero 2 (ENNReal.inv_ne_zero.2 hnt)
  have hit : ((n : ℝ≥0∞)⁻¹) ^ 2 ≠ ⊤ := ENNReal.pow_ne_top (ENNReal.inv_ne_top.2 hn0)
  rw [expectT_mul _ _ hit]
  have hd : Measurable fun q : ℝ × X => dens q.1 := measurable_dens.comp measurable_fst
  constructor
  · intro h hc
    refine h ?_
    have h1 := chain_sum M S j hV hS (t + 1) (fun w _ => dens w ^ 2) (hd.pow_const 2)
    rw [hc, ENNReal.mul_top hn0] at h1
    have h2 : expectT (M.chain (t + 1)) (fun z => (∑ s, dens (M.weight z (t + 1) s j)) ^ 2) = ⊤ := by
      refine top_le_iff.1 (le_of_eq_of_le h1.symm (expectT_mono _ fun z => ?_))
      exact fun _ => sum_sq_le fun s => dens (M.weight z (t + 1) s j)
    rw [h2, ENNReal.mul_top hi0]
  · intro h
    refine ENNReal.mul_ne_top hit ?_
    have h1 := chain_square M S j hV hS (t + 1) (fun w _ => dens w) hd fun _ => 0
    have h0 : expectT (M.chain (t + 1)) (fun _ => (0 : ℝ≥0∞)) = 0 := by
      have := expectT_mul (M.chain (t + 1)) 0 ENNReal.zero_ne_top fun _ => 0
      simpa using this
    have h2 : S.law μ lp (t + 1) (fun w _ => dens w) ≠ ⊤ := by
      have := law_proper S hS (t + 1) (fun _ => 1) measurable_const
      simp only [mul_one] at this
      rw [this]
      exact hZ
    rw [h0, add_zero] at h1
    simp only [add_zero] at h1
    refine ne_top_of_le_ne_top ?_ h1
    exact ENNReal.add_ne_top.2 ⟨ENNReal.mul_ne_top hnt h, ENNReal.mul_ne_top (ENNReal.natCast_ne_top _) (ENNReal.pow_ne_top h2)⟩

end

section
variable {n b : Nat} (p : PaperParams) (K : Nat)
local notation "ℙ" => PopLang n b (Fin 2 → ℝ) PaperDist volume paperLp

/-- C80. nvi_test on a new model with any number of particles: the evidence estimate for the last target has finite variance exactly for fewer
than 25 steps (at most 25 targets). -/
theorem C80_variance [NeZero n] (fresh : ObjId) (j : Fin b) (hp : PaperWalk.Untrained p) (I : AnnealIds) (hid : I.Below fresh)
    (lossFn : Out ℙ → Except Err (ℙ).Lo) (hl : LossOk lossFn)
    (transf : Option (Trace ℙ → Kw ℙ → Except Err (Trace ℙ))) (ht : AnnealTransf transf) (nd : Node ℙ)
    (hnd : vsmc fresh ((paperAnneal n b p (K + 1)).initial I :: (List.range (K + 1)).map ((paperAnneal n b p (K + 1)).target I))
        ((List.range (K + 1)).map ((paperAnneal n b p (K + 1)).forward I)) ((List.range (K + 1)).map ((paperAnneal n b p (K + 1)).reverse I))
        lossFn transf none = .ok nd)
    (kw : Kw ℙ) (w : World ℙ) (hk : KwOk kw) (hw : ∀ i, w.cond i = none) :
    expectT (nviTest popEss popLz nd kw w) (onReturn fun rep => ENNReal.ofReal (Real.exp (reportLz K j rep)) ^ 2) ≠ ⊤ ↔ K + 1 < 25 := by
  rw [report_square fresh _ (paperSpec p (K + 1)) j (paper_vectorises n b p (K + 1) j) (paper_norm p (K + 1)) I hid lossFn hl transf ht (K + 1) K
    (by omega) nd hnd kw w hk hw]
  · exact PaperWalk.second_moment_iff p hp (K + 1) (by omega)
  · have : ∫⁻ x, dens (paperLp ((paperSpec p (K + 1)).g K) x) = 8 := (C79_evidence p (K + 1) K).1 (by omega)
    rw [this]
    norm_num

end

/-- C80. With fewer than 25 steps the estimates of a new model converge to 8: for some V that depends on the number of steps only, an estimate
from n particles is off by ε or more with probability at most V / (n ε²). -/
theorem C80_consistent (p : PaperParams) (K : Nat) (hp : PaperWalk.Untrained p) (hK : K + 1 < 25) : ∃ V : ℝ≥0∞, V ≠ ⊤ ∧
    ∀ (n b : Nat) [NeZero n] (fresh : ObjId) (j : Fin b) (I : AnnealIds) (_ : I.Below fresh)
      (lossFn : Out (PopLang n b (Fin 2 → ℝ) PaperDist volume paperLp) → Except Err ((PopLang n b (Fin 2 → ℝ) PaperDist volume paperLp)).Lo) (_ : LossOk lossFn)
      (transf : Option (Trace (PopLang n b (Fin 2 → ℝ) PaperDist volume paperLp) → Kw (PopLang n b (Fin 2 → ℝ) PaperDist volume paperLp) → Except Err (Trace (PopLang n b (Fin 2 → ℝ) PaperDist volume paperLp)))) (_ : AnnealTransf transf) (nd : Node (PopLang n b (Fin 2 → ℝ) PaperDist volume paperLp))
      (_ : vsmc fresh ((paperAnneal n b p (K + 1)).initial I :: (List.range (K + 1)).map ((paperAnneal n b p (K + 1)).target I))
        ((List.range (K + 1)).map ((paperAnneal n b p (K + 1)).forward I)) ((List.range (K + 1)).map ((paperAnneal n b p (K + 1)).reverse I))
        lossFn transf none = .ok nd)
      (kw : Kw (PopLang n b (Fin 2 → ℝ) PaperDist volume paperLp)) (w : World (PopLang n b (Fin 2 → ℝ) PaperDist volume paperLp)) (_ : KwOk kw) (_ : ∀ i, w.cond i = none) (ε : ℝ) (_ : 0 ≤ ε),
      n * ENNReal.ofReal ε ^ 2 * expectT (nviTest popEss popLz nd kw w) (onReturn fun rep => indicate (ε ≤ |Real.exp (reportLz K j rep) - 8|)) ≤ V := by
  refine ⟨_, (PaperWalk.second_moment_iff p hp (K + 1) (by omega)).2 hK, ?_⟩
  intro n b _ fresh j I hid lossFn hl transf ht nd hnd kw w hk hw ε hε
  refine le_trans le_self_add (C76_report fresh _ (paperSpec p (K + 1)) j (paper_vectorises n b p (K + 1) j) (paper_norm p (K + 1)) I hid lossFn hl
    transf ht (K + 1) K (by omega) nd hnd kw w hk hw 8 ε (by norm_num) hε ?_)
  refine ((C79_evidence p (K + 1) K).1 (by omega)).trans ?_
  norm_num


namespace PaperEx

/-- A new model. -/
noncomputable def new : PaperParams := ⟨fun _ => newKernel net fun i i' => if i = i' then 1 ^ 2 else 0,
  fun _ => newKernel net fun i i' => if i = i' then 1 ^ 2 else 0, fun k => k⟩

theorem new_untrained : PaperWalk.Untrained new := (C79_new (fun _ => net) (fun _ => net) 0).2

end PaperEx

/-- C80: with 30 targets the variance of the evidence estimate of a new model is infinite, however many particles. -/
example (n : Nat) [NeZero n] : ∃ nd, vsmc 100 ((paperAnneal n 1 PaperEx.new 29).initial Toy.annealIds :: (List.range 29).map ((paperAnneal n 1 PaperEx.new 29).target Toy.annealIds))
      ((List.range 29).map ((paperAnneal n 1 PaperEx.new 29).forward Toy.annealIds)) ((List.range 29).map ((paperAnneal n 1 PaperEx.new 29).reverse Toy.annealIds))
      (fun _ => .ok 0) none none = .ok nd ∧
    expectT (nviTest popEss popLz nd {} (PaperEx.w0 n 1)) (onReturn fun rep => ENNReal.ofReal (Real.exp (reportLz 28 0 rep)) ^ 2) = ⊤ := by
  obtain ⟨nd, h1, -⟩ := C30_vsmc 100 (paperAnneal n 1 PaperEx.new 29) Toy.annealIds Coin.ids_below (fun _ => .ok 0) (fun _ _ _ => ⟨_, rfl⟩) none (Or.inl rfl) 29
  refine ⟨nd, h1, ?_⟩
  by_contra h
  have := (C80_variance (n := n) (b := 1) PaperEx.new 28 100 0 PaperEx.new_untrained Toy.annealIds Coin.ids_below (fun _ => .ok 0) (fun _ _ _ => ⟨_, rfl⟩) none
    (Or.inl rfl) nd h1 {} (PaperEx.w0 n 1) (fun e he => by cases he) (fun _ => rfl)).1 h
  omega

end Verif
