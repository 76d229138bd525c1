import Verif.Spec.Paper
import Verif.Props.AnnealMain
import Verif.Props.AnnealKl
import Verif.Props.Kernel
/-
C79: the annealing experiment of the paper, whatever its parameters.
-/
namespace Verif
open Spec MeasureTheory InformationTheory
open scoped ENNReal

theorem paper_vectorises (n b : Nat) (p : PaperParams) (K : Nat) (j : Fin b) : Vectorises (paperAnneal n b p K) (paperSpec p K) j :=
  ⟨fun _ => rfl, fun _ _ _ => rfl, fun _ _ _ => rfl, fun _ _ _ => rfl⟩

theorem measurable_paperTarget (p : PaperParams) (K k : Nat) : Measurable (paperTarget p K k) := by
  unfold paperTarget
  split
  · exact measurable_tempered _
  · exact measurable_ring

theorem measurable_kernel {h : Nat} (net : ResMLPJ 2 h) : Measurable fun x : (Fin 2 → ℝ) × (Fin 2 → ℝ) => mvnLogProb (kernelDist net x.1) x.2 := by
  exact measurable_mvn ((measurable_kernelDist net).comp measurable_fst) measurable_snd

/-- C79. Whatever the networks and logits: kernels are normalised distributions, and everything is measurable. -/
theorem paper_norm (p : PaperParams) (K : Nat) : (paperSpec p K).Norm volume paperLp where
  d0 := initial_normalised
  f _ _ := kernel_normalised _ _
  r _ _ := kernel_normalised _ _
  measG k := measurable_paperTarget p K k
  measF k := measurable_kernel (p.net k)
  measR k := measurable_kernel (p.net' k)

/-- C79. The normalising constants of the targets: 8 for the last one, whatever the parameters; for a tempered one a positive number that is
at most 8 to the power of its inverse temperature. -/
theorem C79_evidence (p : PaperParams) (K k : Nat) :
    (¬k + 1 < K → ∫⁻ x, dens (paperTarget p K k x) = 8) ∧
    (k + 1 < K → 0 < ∫⁻ x, dens (paperTarget p K k x) ∧ ∫⁻ x, dens (paperTarget p K k x) ≤ 8 ^ sigmoid (p.logit k)) := by
  refine ⟨fun h => ?_, fun h => ⟨?_, ?_⟩⟩
  · simp only [paperTarget, if_neg h]
    exact ring_mass
  · exact (mass_pos _ (measurable_paperTarget p K k)).bot_lt
  · simp only [paperTarget, if_pos h]
    exact tempered_mass_le _

/-- C79. A new model (untrained, logits of the betas) has the targets of paper_model; its kernels are random walks with variance 1. -/
theorem C79_new (net net' : Nat → ResMLPJ 2 50) (m : Nat) :
    let p : PaperParams := ⟨fun k => newKernel (net k) fun i i' => if i = i' then 1 ^ 2 else 0,
      fun k => newKernel (net' k) fun i i' => if i = i' then 1 ^ 2 else 0, fun k => logit (((k + 1 : Nat) : ℝ) / (m + 1))⟩
    (∃ targets fwd rev, paperModel (fun x => 1 / (x : ℝ)) (mvnLogProb paperInitial) paperRing (m + 2 : Nat) = .ok (targets, fwd, rev) ∧
      targets.length = m + 2 ∧ (∃ t, targets[0]? = some t ∧ t.logDensity = paperLp (paperSpec p (m + 1)).d0) ∧
      ∀ k, k < m + 1 → ∃ t, targets[k + 1]? = some t ∧ t.logDensity = paperTarget p (m + 1) k) ∧
    ∀ k x, kernelDist (p.net k) x = (x, fun _ => 1) ∧ kernelDist (p.net' k) x = (x, fun _ => 1) := by
  intro p
  have hw : ∀ (net : ResMLPJ 2 50) (x : Fin 2 → ℝ), kernelDist (newKernel net fun i i' => if i = i' then 1 ^ 2 else 0) x = (x, fun _ => 1) := by
    intro net x
    have h := C71_random_walk net (fun i i' => if i = i' then 1 ^ 2 else 0) (fun i => by simp) (fun i => by
      simp only [if_true, one_pow]
      have : Real.log (Real.exp 1 - 1) ≤ Real.log (Real.exp 1) := Real.log_le_log (by linarith [Real.add_one_lt_exp (one_ne_zero (α := ℝ))]) (by linarith)
      rw [Real.log_exp] at this
      linarith) x
    rw [h]
    simp
  refine ⟨?_, fun k x => ⟨hw _ _, hw _ _⟩⟩
  obtain ⟨path, h1, h2, h3, h4, h5⟩ := C37_exact ⟨"g0", mvnLogProb paperInitial⟩ ⟨"g" ++ toString (((m + 2 : Nat) : Int) - 1), paperRing⟩ m
  have h0 : ∃ fwd rev, paperModel (fun x => 1 / (x : ℝ)) (mvnLogProb paperInitial) paperRing (m + 2 : Nat) = .ok (path, fwd, rev) := by
    unfold paperModel
    rw [h1]
    exact ⟨_, _, rfl⟩
  obtain ⟨fwd, rev, h0⟩ := h0
  refine ⟨path, fwd, rev, h0, h2, ⟨_, h3, rfl⟩, fun k hk => ?_⟩
  · by_cases hl : k + 1 < m + 1
    · obtain ⟨t, a1, -, a3⟩ := h5 (k + 1) (by omega) hl
      refine ⟨t, a1, funext fun v => ?_⟩
      have hp : (0 : ℝ) < m + 1 := by positivity
      rw [a3, paperTarget, if_pos hl, temperedAt]
      have hs : sigmoid (p.logit k) = ((k + 1 : Nat) : ℝ) / (m + 1) :=
        sigmoid_logit (by positivity) (by rw [div_lt_one hp]; exact_mod_cast hl)
      rw [hs]
      ring
    · have : k = m := by omega
      subst this
      exact ⟨_, h4, by rw [paperTarget, if_neg hl]⟩

section
variable {n b : Nat} (p : PaperParams) (K : Nat)
local notation "ℙ" => PopLang n b (Fin 2 → ℝ) PaperDist volume paperLp

/-- C79. With resampling, whatever the networks and logits: running vsmc on the model never raises, and the weighted mean of a function of the
last values is its integral over the ring; the mean weight is 8. -/
theorem C79_resampled [NeZero n] (fresh : ObjId) (j : Fin b) (hK : K ≠ 0) (I : AnnealIds) (hid : I.Below fresh)
    (lossFn : Out ℙ → Except Err (ℙ).Lo) (hl : LossOk lossFn)
    (transf : Option (Trace ℙ → Kw ℙ → Except Err (Trace ℙ))) (ht : AnnealTransf transf)
    (hteq : ∀ detachD weq, transf = some (stlTrace detachD weq) → ∀ x y, weq x y = true → x = y) :
    ∃ nd : Node ℙ, vsmc fresh ((paperAnneal n b p K).initial I :: (List.range K).map ((paperAnneal n b p K).target I))
        ((List.range K).map ((paperAnneal n b p K).forward I)) ((List.range K).map ((paperAnneal n b p K).reverse I)) lossFn transf
        (some (systematic false false)) = .ok nd ∧
      ∀ (kw : Kw ℙ) (w : World ℙ), KwOk kw → kw.sampleDims = .int 0 → kw.batchDim = .int 1 →
        (∃ kw0 : Kw (PLang (Fin 2 → ℝ) PaperDist ℝ paperLp), ∀ s, laneKw (particleLane s j) kw = kw0) →
        (∀ i, w.cond i = none) → (∀ t t', w.store.hooks.resampleUpdate w.store.data t t' = (.ok (), w.store.data)) →
        (∀ r w', (eval nd .none kw).Runs w r w' → ∃ o, r = .ok o) ∧
        (∀ h : (Fin 2 → ℝ) → ℝ≥0∞, Measurable h → expectT (eval nd .none kw w) (onReturn (atEnd K fun lw x => (∑ s, dens (lw s j) * h (x s j)) / n)) = ∫⁻ x, dens (paperRing x) * h x) ∧
        expectT (eval nd .none kw w) (onReturn fun o => (∑ s, dens (o.logWeight.val s j)) / n) = 8 := by
  obtain ⟨nd, h1, h2⟩ := C57_vsmc_resampled (n := n) fresh (paperAnneal n b p K) (paperSpec p K) j (paper_vectorises n b p K j) (paper_norm p K) I hid lossFn hl
    transf ht hteq K
  refine ⟨nd, h1, fun kw w hk hs hb hkw hw hh => ?_⟩
  obtain ⟨a1, a2⟩ := h2 .none kw w hk hs hb ⟨.none, fun _ => rfl⟩ hkw hw hh
  have hlast : paperLp ((paperSpec p K).last K) = paperRing := by
    obtain ⟨k, rfl⟩ := Nat.exists_eq_succ_of_ne_zero hK
    show paperTarget p (k + 1) k = paperRing
    rw [paperTarget, if_neg (by omega)]
  rw [hlast] at a2
  refine ⟨fun r w' hr => (a1 r w' hr).imp fun o ho => ho.choose_spec.1, fun h hh => ?_, ?_⟩
  · rw [← a2 h hh]
    refine (isLaw_expectT (n := n) j).congr _ _ _ ?_
    rintro ⟨r, w'⟩ hr
    obtain ⟨o, rv, rfl, -, -, h4, -⟩ := a1 r w' hr
    simp only [onReturn, atEnd, h4]
  have := a2 (fun _ => 1) measurable_const
  simp only [mul_one] at this
  rw [ring_mass] at this
  refine Eq.trans ?_ this
  refine (isLaw_expectT (n := n) j).congr _ _ _ ?_
  rintro ⟨r, w'⟩ hr
  obtain ⟨o, rv, rfl, -, -, h4, -⟩ := a1 r w' hr
  simp only [onReturn, h4, mul_one]

theorem MeanLe.mono {α : Type} {E : (α → ℝ≥0∞) → ℝ≥0∞} (hE : ∀ f g : α → ℝ≥0∞, (∀ a, f a ≤ g a) → E f ≤ E g) {x : α → ℝ} {y z : ℝ}
    (h : MeanLe E x y) (hyz : y ≤ z) : MeanLe E x z :=
  ((hE _ _ fun _ => ENNReal.ofReal_le_ofReal (by linarith)).trans h).trans (hE _ _ fun _ => ENNReal.ofReal_le_ofReal (by linarith))

/-- C79. Without resampling (nvi_test), whatever the networks and logits: exp of the evidence estimate reported for the last target has mean 8, the
estimate itself has mean at most log 8; the estimate for the tempered target g(t+1) has mean at most its inverse temperature times log 8. The
samples reported for a step, weighted, have the mean of the target. -/
theorem C79_report [NeZero n] (fresh : ObjId) (j : Fin b) (I : AnnealIds) (hid : I.Below fresh)
    (lossFn : Out ℙ → Except Err (ℙ).Lo) (hl : LossOk lossFn)
    (transf : Option (Trace ℙ → Kw ℙ → Except Err (Trace ℙ))) (ht : AnnealTransf transf)
    (hteq : ∀ detachD weq, transf = some (stlTrace detachD weq) → ∀ x y, weq x y = true → x = y) (nd : Node ℙ)
    (hnd : vsmc fresh ((paperAnneal n b p K).initial I :: (List.range K).map ((paperAnneal n b p K).target I))
        ((List.range K).map ((paperAnneal n b p K).forward I)) ((List.range K).map ((paperAnneal n b p K).reverse I)) lossFn transf none = .ok nd)
    (kw : Kw ℙ) (w : World ℙ) (hk : KwOk kw) (hw : ∀ i, w.cond i = none) (t : Nat) (htK : t < K) :
    (t + 1 = K → expectT (nviTest popEss popLz nd kw w) (onReturn fun rep => ENNReal.ofReal (Real.exp (reportLz t j rep))) = 8 ∧
      MeanLe (fun g => expectT (nviTest popEss popLz nd kw w) (onReturn g)) (reportLz t j) (Real.log 8)) ∧
    (t + 1 < K → MeanLe (fun g => expectT (nviTest popEss popLz nd kw w) (onReturn g)) (reportLz t j) (sigmoid (p.logit t) * Real.log 8)) ∧
    ∀ h : (Fin 2 → ℝ) → ℝ≥0∞, Measurable h →
      expectT (nviTest popEss popLz nd kw w) (onReturn (atStep t fun lw x => (∑ s, dens (lw s j) * h (x s j)) / n)) =
        ∫⁻ x, dens (paperTarget p K t x) * h x := by
  obtain ⟨h1, h2⟩ := C63_evidence (n := n) fresh (paperAnneal n b p K) (paperSpec p K) j (paper_vectorises n b p K j) (paper_norm p K) I hid lossFn hl
    transf ht hteq K t htK nd hnd kw w hk hw
  have h3 := C63_weighted_samples (n := n) fresh (paperAnneal n b p K) (paperSpec p K) j (paper_vectorises n b p K j) (paper_norm p K) I hid lossFn hl
    transf ht hteq K t htK nd hnd kw w hk hw
  obtain ⟨e1, e2⟩ := C79_evidence p K t
  refine ⟨fun h => ⟨h1.trans (e1 (by omega)), h2 _ ((e1 (by omega)).trans ?_)⟩, fun h => ?_, h3⟩
  · rw [dens, Real.exp_log (by norm_num)]
    norm_num
  · obtain ⟨q1, q2⟩ := e2 h
    have hfin : (8 : ℝ≥0∞) ^ sigmoid (p.logit t) ≠ ⊤ := ENNReal.rpow_ne_top_of_nonneg (sigmoid_mem _).1.le (by norm_num)
    have hne := ne_top_of_le_ne_top hfin q2
    have hpos := ENNReal.toReal_pos q1.ne' hne
    have hm := h2 (Real.log (∫⁻ x, dens (paperTarget p K t x)).toReal) (by
      rw [dens, Real.exp_log hpos, ENNReal.ofReal_toReal hne]
      rfl)
    refine MeanLe.mono (fun f g hfg => ?_) hm ?_
    · exact expectT_mono _ fun a => by cases a with | mk a w => cases a <;> simp [onReturn, hfg]
    · rw [← Real.log_rpow (by norm_num)]
      refine Real.log_le_log hpos ?_
      have := ENNReal.toReal_mono hfin q2
      rwa [← ENNReal.toReal_rpow] at this

end

section
variable {n b : Nat} {E : Type} [NormedAddCommGroup E] [NormedSpace ℝ E] {θ₀ : E}
  {lpθ : (Fin n → Fin b → { d : PaperDist // Normalised volume paperLp d }) → (Fin n → Fin b → Fin 2 → ℝ) → Ten n b E}
local notation "𝕆" => CLang n b E θ₀ (Fin n → Fin b → Fin 2 → ℝ) (Fin n → Fin b → { d : PaperDist // Normalised volume paperLp d }) lpθ id

/-- C79. The mean loss that nvo_avo minimises is the divergence of the sampled paths from the extended target, minus log 8. -/
theorem C79_avo (fresh : ObjId) (hn : n ≠ 0) (p : PaperParams) (K : Nat) (hK : K ≠ 0) (M : AnnealModel 𝕆) (j : Fin b) (hV : VectorisesAt M (paperSpec p K) j)
    (I : AnnealIds) (hid : I.Below fresh) (transf : Option (Trace 𝕆 → Kw 𝕆 → Except Err (Trace 𝕆))) (ht : AnnealTransf transf)
    (nd : Node 𝕆) (hnd : vsmc fresh (M.initial I :: (List.range K).map (M.target I)) ((List.range K).map (M.forward I))
        ((List.range K).map (M.reverse I)) nvoAvo transf none = .ok nd)
    (c : PyVal 𝕆) (kw : Kw 𝕆) (w : World 𝕆) (hk : KwOk kw) (hw : ∀ i, w.cond i = none) :
    expectO (eval nd c kw w) (onReturn fun o => ENNReal.ofReal (lossAt j o + Real.log 8)) =
        klDiv ((paperSpec p K).sampled volume paperLp K) ((paperSpec p K).extended volume paperLp (Real.log 8) K) +
          expectO (eval nd c kw w) (onReturn fun o => ENNReal.ofReal (-(lossAt j o + Real.log 8))) ∧
      expectO (eval nd c kw w) (onReturn fun o => ENNReal.ofReal (-(lossAt j o + Real.log 8))) ≤ 1 := by
  refine C78_avo fresh hn M (paperSpec p K) j hV (paper_norm p K) I hid transf ht K hK nd hnd c kw w hk hw (Real.log 8) ?_
  obtain ⟨k, rfl⟩ := Nat.exists_eq_succ_of_ne_zero hK
  refine ((C79_evidence p (k + 1) k).1 (by omega)).trans ?_
  rw [dens, Real.exp_log (by norm_num)]
  norm_num

end

namespace PaperEx

/-- Some network: it moves points to the right and makes the variance depend on them. -/
noncomputable def net : ResMLPJ 2 50 where
  joint := { weight := fun _ _ => 1, bias := fun _ => 0 }
  mu := { weight := fun _ _ => 0, bias := fun _ => 1 }
  cov := { weight := fun _ _ => 1, bias := fun _ => -1 }

/-- Parameters that are not those of a new model. -/
noncomputable def p : PaperParams := ⟨fun _ => net, fun _ => net, fun k => k⟩

noncomputable def w0 (n b : Nat) : World (PopLang n b (Fin 2 → ℝ) PaperDist volume paperLp) := { cond := fun _ => none, store := Store.init }

end PaperEx

/-- C79: the default experiment (4 targets, 96 particles per step, one batch element) without training: the mean weight is 8. -/
example : ∃ nd, vsmc 100 ((paperAnneal 96 1 PaperEx.p 3).initial Toy.annealIds :: (List.range 3).map ((paperAnneal 96 1 PaperEx.p 3).target Toy.annealIds))
      ((List.range 3).map ((paperAnneal 96 1 PaperEx.p 3).forward Toy.annealIds)) ((List.range 3).map ((paperAnneal 96 1 PaperEx.p 3).reverse Toy.annealIds))
      (fun _ => .ok 0) none (some (systematic false false)) = .ok nd ∧
    expectT (eval nd .none { sampleDims := .int 0, batchDim := .int 1 } (PaperEx.w0 96 1))
      (onReturn fun o => (∑ s, dens (o.logWeight.val s 0)) / (96 : Nat)) = 8 := by
  obtain ⟨nd, h1, h2⟩ := C79_resampled (n := 96) (b := 1) PaperEx.p 3 100 0 (by omega) Toy.annealIds Coin.ids_below (fun _ => .ok 0) (fun _ _ _ => ⟨_, rfl⟩)
    none (Or.inl rfl) (by simp)
  exact ⟨nd, h1, (h2 { sampleDims := .int 0, batchDim := .int 1 } (PaperEx.w0 96 1) (fun e he => by cases he) rfl rfl ⟨{ sampleDims := .int 0, batchDim := .int 1 }, fun _ => rfl⟩ (fun _ => rfl)
    (fun _ _ => rfl)).2.2⟩

/-- C79: nvi_test reports about the last of three steps. -/
example : ∃ nd, vsmc 100 ((paperAnneal 5 2 PaperEx.p 3).initial Toy.annealIds :: (List.range 3).map ((paperAnneal 5 2 PaperEx.p 3).target Toy.annealIds))
      ((List.range 3).map ((paperAnneal 5 2 PaperEx.p 3).forward Toy.annealIds)) ((List.range 3).map ((paperAnneal 5 2 PaperEx.p 3).reverse Toy.annealIds))
      (fun _ => .ok 0) none none = .ok nd ∧
    expectT (nviTest popEss popLz nd {} (PaperEx.w0 5 2)) (onReturn fun rep => ENNReal.ofReal (Real.exp (reportLz 2 1 rep))) = 8 := by
  obtain ⟨nd, h1, -⟩ := C30_vsmc 100 (paperAnneal 5 2 PaperEx.p 3) Toy.annealIds Coin.ids_below (fun _ => .ok 0) (fun _ _ _ => ⟨_, rfl⟩) none (Or.inl rfl) 3
  exact ⟨nd, h1, ((C79_report (n := 5) (b := 2) PaperEx.p 3 100 1 Toy.annealIds Coin.ids_below (fun _ => .ok 0) (fun _ _ _ => ⟨_, rfl⟩) none (Or.inl rfl)
    (by simp) nd h1 {} (PaperEx.w0 5 2) (fun e he => by cases he) (fun _ => rfl) 2 (by omega)).1 rfl).1⟩

/-- C79: a model with objectives. -/
example (n b : Nat) : ∃ M : AnnealModel (CLang n b ℝ 0 (Fin n → Fin b → Fin 2 → ℝ) (Fin n → Fin b → { d : PaperDist // Normalised volume paperLp d })
    (fun d v s j _ => paperLp (d s j).1 (v s j)) id), ∀ j, VectorisesAt M (paperSpec PaperEx.p 3) j :=
  ⟨{ d0 := fun _ _ => ⟨.inl paperInitial, initial_normalised⟩, rep0 := false, cls0 := "FixedMultivariateNormal",
     g := fun k v s j _ => paperTarget PaperEx.p 3 k (v s j), cls := fun _ => "Tempered",
     f := fun _ v s j => ⟨.inl (kernelDist PaperEx.net (v s j)), kernel_normalised _ _⟩, rep := true,
     r := fun _ v s j => ⟨.inl (kernelDist PaperEx.net (v s j)), kernel_normalised _ _⟩, rep' := false },
   fun _ => ⟨fun _ _ _ => rfl, fun _ => rfl, fun _ _ _ => rfl, fun _ _ _ => rfl, fun _ _ _ => rfl⟩⟩

end Verif
