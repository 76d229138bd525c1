import Verif.Model.AnnealMain
import Verif.Props.Annealing
import Verif.Props.Evidence
/-
C63: what nvi_test reports.
-/
namespace Verif
open Spec
variable {L : Lang}

theorem mapM_ok {α β : Type} {f : α → Except Err β} {g : α → β} (l : List α) (h : ∀ x ∈ l, f x = .ok (g x)) : l.mapM f = .ok (l.map g) := by
  induction l with
  | nil => rfl
  | cons x l ih =>
    rw [List.mapM_cons, h x (by simp), ih fun y hy => h y (by simp [hy])]
    rfl

/-- What the report of `nvi_test` says about the chain `z`. -/
structure ReportOf {R : Type} (ess lz : L.W → R) (lossFn : Out L → Except Err L.Lo) (M : AnnealModel L) (z : Nat → L.V) (K : Nat)
    (rep : TestReport L R) : Prop where
  lw : rep.lw = (List.range K).map fun t => M.incoming z (t + 1)
  ess : rep.ess = (List.range K).map fun t => ess (M.incoming z (t + 1))
  lZHat : rep.lZHat = (List.range K).map fun t => lz (M.incoming z (t + 1))
  samples : rep.samples = (List.range K).map fun t => (AnnealModel.name (t + 1), z (t + 1))
  lossCount : rep.loss.length = K
  loss : ∀ (t : Nat) l, rep.loss[t]? = some l → ChainLoss lossFn M z (t + 1) (some l)
  result : rep.out.logWeight.val = M.weight z K ∧ ChainLoss lossFn M z K rep.out.loss

/-- C63. nvi_test on the object vsmc builds (K steps, no resampling, as main.py calls it): with at least one step it never raises,
draws the chain z_0, …, z_K, and reports for each step t < K the log weight of annealed importance sampling after t+1 steps, its
effective sample size and evidence estimate, the sum of the losses of the first t+1 steps, and the value z_{t+1} under the name
g(t+1). With a single target (`--num_targets 1`) it always raises NameError. -/
theorem C63_nvi_test {R : Type} (ess lz : L.W → R) (fresh : ObjId) (M : AnnealModel L) (I : AnnealIds) (hid : I.Below fresh)
    (lossFn : Out L → Except Err L.Lo) (hl : LossOk lossFn)
    (transf : Option (Trace L → Kw L → Except Err (Trace L))) (ht : AnnealTransf transf) (K : Nat) :
    ∃ nd : Node L, vsmc fresh (M.initial I :: (List.range K).map (M.target I)) ((List.range K).map (M.forward I))
        ((List.range K).map (M.reverse I)) lossFn transf none = .ok nd ∧
      ∀ (kw : Kw L) (w : World L), KwOk kw → (∀ j, w.cond j = none) →
        (K = 0 → ∀ r w', (nviTest ess lz nd kw).Runs w r w' → r = .error .name ∧ w' = w) ∧
        (K ≠ 0 → ∃ F : (Nat → L.V) → TestReport L R, nviTest ess lz nd kw w = (M.chain K).bind (fun z => .ret (.ok (F z), w)) ∧
          ∀ z, ReportOf ess lz lossFn M z K (F z)) := by
  obtain ⟨nd, h1, h2⟩ := chain_vsmc fresh ((List.range K).map (M.forward I)).length M I hid lossFn hl transf ht.ok K
  refine ⟨nd, ?_, fun kw w hk hw => ?_⟩
  · simp only [vsmc]
    rw [zip3_range]
    exact h1
  obtain ⟨F, e1, e2⟩ := h2 .none { kw with debug := true } w hk hw
  have e3 : nviTest ess lz nd kw w = (M.chain K).bind fun z => .ret (testReport ess lz (F z), w) := by
    simp only [nviTest, Exec.bind]
    rw [e1, Comp.bind_assoc]
    congr 1
  refine ⟨fun hK r w' hr => ?_, fun hK => ?_⟩
  · rw [Exec.Runs, e3, Comp.bind_Ret] at hr
    obtain ⟨z, -, hz⟩ := hr
    cases hz
    obtain ⟨_, -, -, -, -, -, -, -, t0, -⟩ := e2 z
    obtain ⟨m, hm⟩ := t0 hK
    refine ⟨?_, rfl⟩
    have : getStats (F z) = .error .name := by
      unfold getStats
      rw [traverseProposals]
      simp only [hm]
    simp only [testReport, this, bind, Except.bind]
  · have key : ∀ z, ∃ rep, testReport ess lz (F z) = .ok rep ∧ ReportOf ess lz lossFn M z K rep := by
      intro z
      obtain ⟨_, -, -, -, -, -, r5, r6, -, -, rows, t2, t3, t4⟩ := e2 z
      have hs : getStats (F z) = .ok rows := by
        unfold getStats
        rw [t4 hK [], List.append_nil]
        cases rows with
        | nil => simp at t2; omega
        | cons r rows => rfl
      have hm : rows.zipIdx.mapM (fun e => sampleOf e.1 e.2) =
          .ok (rows.zipIdx.map fun e => (AnnealModel.name (e.2 + 1), z (e.2 + 1))) := by
        refine mapM_ok _ fun x hx => ?_
        obtain ⟨rv, a1, a2⟩ := (t3 x.2 x.1 (List.mem_zipIdx_iff_getElem?.1 hx)).sample
        have a1' : x.1.proposalTrace.get? ("g" ++ toString (x.2 + 1)) = some rv := a1
        simp only [sampleOf, a1', a2]
        rfl
      have hrow : ∀ {β : Type} (f : L.W → β), rows.map (fun r => f r.lw.val) = (List.range K).map fun t => f (M.incoming z (t + 1)) := by
        intro β f
        apply List.ext_getElem
        · simp [t2]
        · intro i h1 h2
          have hi : i < rows.length := by simpa using h1
          simp only [List.getElem_map, List.getElem_range]
          rw [(t3 i rows[i] (List.getElem?_eq_getElem hi)).lw]
          rfl
      refine ⟨_, by simp only [testReport, hs, hm, bind, Except.bind, pure, Except.pure]; rfl, ?_⟩
      refine ⟨hrow id, hrow ess, hrow lz, ?_, by simp [t2], ?_, by rw [r5, AnnealModel.lw_val], r6⟩
      · apply List.ext_getElem
        · simp [t2]
        · intro i h1 h2
          simp
      · intro t l hl
        simp only [List.getElem?_map, Option.map_eq_some_iff] at hl
        obtain ⟨r, h3, rfl⟩ := hl
        exact (t3 t r h3).loss
    choose G hG hG' using key
    exact ⟨G, by rw [e3]; congr 1; funext z; rw [hG], hG'⟩

/-- C63. What nvi_train watches (loss, and the metrics of `lw`), with or without resampling: the log weight and the loss of the last row
of get_stats, which has one row per step. -/
theorem C63_train (fresh : ObjId) (q : Node L) (hq : IsProg q) (ps fs rs : List (Node L)) (hf : ∀ f ∈ fs, IsProg f)
    (hlen : fs.length ≤ rs.length ∧ fs.length ≤ ps.length)
    (lossFn : Out L → Except Err L.Lo) (transf : Option (Trace L → Kw L → Except Err (Trace L)))
    (resample : Option (ResamplerFn L)) (nd : Node L) (h : vsmc fresh (q :: ps) fs rs lossFn transf resample = .ok nd)
    (hK : 0 < fs.length) (c : PyVal L) (kw : Kw L) (hkw : kw.debug = true) (w w' : World L) (out : Out L)
    (hr : (eval nd c kw).Runs w (.ok out) w') :
    ∃ rows r, getStats out = .ok rows ∧ rows.length = fs.length ∧ rows.getLast? = some r ∧
      detachLW (trainLw out) = .ok r.lw ∧ out.loss = some r.loss := by
  have hmin : min fs.length (min rs.length ps.length) = fs.length := by omega
  obtain ⟨rows, h1, h2, h3⟩ := C36_get_stats fresh q hq ps fs rs hf lossFn transf resample nd h (by omega) c kw (Or.inr hkw) w w' out hr
  rw [hmin] at h2
  have hne : rows ≠ [] := by rintro rfl; simp at h2; omega
  have hlast : rows.getLast? = some (rows.getLast hne) := List.getLast?_eq_some_getLast hne
  -- the result is not resampled
  have hty : out.type = .propose := by
    have hl : (fs.zip (rs.zip ps)).length = fs.length := by simp [hmin]
    simp only [vsmc] at h
    have hm : ∀ e ∈ fs.zip (rs.zip ps), IsProg e.1 := fun e he => hf _ (List.of_mem_zip he).1
    generalize fs.zip (rs.zip ps) = l at h hl hm
    rcases List.eq_nil_or_concat l with rfl | ⟨l, x, rfl⟩
    · simp at hl; omega
    rw [List.concat_eq_append, List.zipIdx_append] at h
    simp only [List.zipIdx_cons, List.zipIdx_nil] at h
    rw [foldlM_snoc_ok] at h
    obtain ⟨nd0, -, h⟩ := h
    simp only [vsmcStep, Nat.zero_add] at h
    have hll : l.length + 1 = fs.length := by simpa using hl
    split at h
    · cases h
    · rename_i nd1 hp
      have : nd = nd1 := by
        cases resample with
        | none => cases h; rfl
        | some r => simp only [if_neg (show ¬ l.length + 1 < fs.length by omega)] at h; cases h; rfl
      subst this
      obtain ⟨_, _, _, _, _, _, -, e, -⟩ := step_run (hm x (by simp)) hp hr
      exact e
  refine ⟨rows, rows.getLast hne, h1, h2, hlast, ?_⟩
  have ho : out = (rows.getLast hne).out := by
    rcases h3.last _ hlast with h | ⟨h, -⟩
    · exact h
    · rw [hty] at h; cases h
  have hl' := hlast
  rw [List.getLast?_eq_getElem?] at hl'
  obtain ⟨-, -, hs⟩ := h3.row _ _ hl'
  obtain ⟨px, x, -, a1, a2, a3, -, -⟩ := hs
  rw [← ho] at a1 a3
  refine ⟨?_, a3⟩
  rw [show trainLw out = out.logWeight from rfl, a1, a2]
  rfl

/-! ### Over a population of particles -/
open MeasureTheory
open scoped ENNReal

section
variable {n b : Nat} {X D : Type} [MeasurableSpace X] {μ : Measure X} {lp : D → X → ℝ}
local notation "ℙ" => PopLang n b X D μ lp

/-- The expectation of something that the last draws of a chain do not change. -/
theorem expectT_chain (M : AnnealModel ℙ) (t K : Nat) (h : t ≤ K) (φ : (Nat → (ℙ).V) → ℝ≥0∞)
    (hφ : ∀ z z', (∀ i ≤ t, z i = z' i) → φ z = φ z') : expectT (M.chain K) φ = expectT (M.chain t) φ := by
  induction K, h using Nat.le_induction with
  | base => rfl
  | succ K hK ih =>
    rw [← ih, AnnealModel.chain, expectT_bind]
    congr 1
    funext z
    have hp : ∀ s j, IsProbabilityMeasure (μ.withDensity fun x => dens (lp (M.f K (AnnealModel.point z K) s j).1 x)) :=
      fun s j => normalised_prob (M.f K (AnnealModel.point z K) s j).2
    have e : ∀ v : (ℙ).V, φ (fun i => if i ≤ K then z i else v) = φ z := fun v =>
      hφ _ _ fun i hi => by simp [le_trans hi hK]
    refine (lintegral_congr e).trans ?_
    refine (lintegral_const _).trans ?_
    have hu : (Measure.pi fun s : Fin n => Measure.pi fun j : Fin b => μ.withDensity fun x => dens (lp (M.f K (AnnealModel.point z K) s j).1 x)) Set.univ = 1 :=
      measure_univ
    exact (congrArg (φ z * ·) hu).trans (mul_one _)

/-- `effective_sample_size` and `log_Z_hat` of each batch element. -/
noncomputable def popEss (lw : Fin n → Fin b → ℝ) (j : Fin b) : ℝ := effectiveSampleSize fun s => lw s j
noncomputable def popLz (lw : Fin n → Fin b → ℝ) (j : Fin b) : ℝ := logZHat fun s => lw s j

/-- A quantity of the log weights and samples that a report lists for step `t`. -/
noncomputable def Spec.atStep (t : Nat) (φ : (Fin n → Fin b → ℝ) → (Fin n → Fin b → X) → ℝ≥0∞)
    (rep : TestReport ℙ (Fin b → ℝ)) : ℝ≥0∞ :=
  match rep.lw[t]?, rep.samples[t]? with
  | some lw, some x => φ lw x.2
  | _, _ => 0

/-- The same quantity of the log weight and the variable g(k) of a result. -/
noncomputable def Spec.atEnd (k : Nat) (φ : (Fin n → Fin b → ℝ) → (Fin n → Fin b → X) → ℝ≥0∞) (o : Out ℙ) : ℝ≥0∞ :=
  match o.trace.get? (AnnealModel.name k) with
  | some rv => φ o.logWeight.val rv.value
  | none => 0

/-- C63. Stopping early is looking at an earlier row: what the report of a K-step run says about step t < K (log weights and samples,
jointly) has the same distribution as the log weight and the sample that vsmc with t+1 steps returns. -/
theorem C63_prefix (fresh : ObjId) (M : AnnealModel ℙ) (I : AnnealIds) (hid : I.Below fresh)
    (lossFn : Out ℙ → Except Err (ℙ).Lo) (hl : LossOk lossFn)
    (transf : Option (Trace ℙ → Kw ℙ → Except Err (Trace ℙ))) (ht : AnnealTransf transf) (K t : Nat) (htK : t < K) (nd nd' : Node ℙ)
    (hnd : vsmc fresh (M.initial I :: (List.range K).map (M.target I)) ((List.range K).map (M.forward I))
        ((List.range K).map (M.reverse I)) lossFn transf none = .ok nd)
    (hnd' : vsmc fresh (M.initial I :: (List.range (t + 1)).map (M.target I)) ((List.range (t + 1)).map (M.forward I))
        ((List.range (t + 1)).map (M.reverse I)) lossFn transf none = .ok nd')
    (c : PyVal ℙ) (kw kw' : Kw ℙ) (w : World ℙ) (hk : KwOk kw) (hk' : KwOk kw') (hw : ∀ i, w.cond i = none)
    (φ : (Fin n → Fin b → ℝ) → (Fin n → Fin b → X) → ℝ≥0∞) :
    expectT (nviTest popEss popLz nd kw w) (onReturn (atStep t φ)) = expectT (eval nd' c kw' w) (onReturn (atEnd (t + 1) φ)) := by
  obtain ⟨nd1, e1, h1⟩ := C63_nvi_test (L := ℙ) popEss popLz fresh M I hid lossFn hl transf ht K
  rw [hnd] at e1
  cases e1
  obtain ⟨F, hF, hF'⟩ := (h1 kw w hk hw).2 (by omega)
  obtain ⟨nd2, e2, h2⟩ := chain_vsmc fresh ((List.range (t + 1)).map (M.forward I)).length M I hid lossFn hl transf ht.ok (t + 1)
  have e3 : vsmc fresh (M.initial I :: (List.range (t + 1)).map (M.target I)) ((List.range (t + 1)).map (M.forward I))
        ((List.range (t + 1)).map (M.reverse I)) lossFn transf none = .ok nd2 := by
    simp only [vsmc]
    rw [zip3_range]
    exact e2
  rw [hnd'] at e3
  cases e3
  obtain ⟨G, hG, hG'⟩ := h2 c kw' w hk' hw
  rw [hF, hG, expectT_bind, expectT_bind]
  have a1 : ∀ z, onReturn (atStep t φ) (Except.ok (F z), w) = φ (M.weight z (t + 1)) (z (t + 1)) := by
    intro z
    have b1 : (F z).lw[t]? = some (M.weight z (t + 1)) := by rw [(hF' z).lw]; simp [htK, AnnealModel.incoming]; rfl
    have b2 : (F z).samples[t]? = some (AnnealModel.name (t + 1), z (t + 1)) := by rw [(hF' z).samples]; simp [htK]
    simp only [onReturn, atStep, b1, b2]
  have a2 : ∀ z, onReturn (atEnd (t + 1) φ) (Except.ok (G z), w) = φ (M.weight z (t + 1)) (z (t + 1)) := by
    intro z
    obtain ⟨ra, r1, -, r3, -, -, r6, -⟩ := hG' z
    have b1 : (G z).trace.get? (AnnealModel.name (t + 1)) = some ra := by rw [r1]; simp [gname]
    have b3 : (G z).logWeight.val = M.weight z (t + 1) := by rw [r6, AnnealModel.lw_val]
    simp only [onReturn, atEnd, b1, b3, r3]
    rfl
  refine Eq.trans (congrArg (expectT (M.chain K)) (funext a1)) (Eq.trans ?_ (congrArg (expectT (M.chain (t + 1))) (funext a2)).symm)
  exact expectT_chain M (t + 1) K htK (fun z => φ (M.weight z (t + 1)) (z (t + 1))) fun z z' h => by
    rw [weight_congr M h, h (t + 1) le_rfl]


/-- Without resampling vsmc builds the nest in which no step is resampled. -/
theorem vsmc_none_eq {L : Lang} (fresh : ObjId) (n : Nat) (M : AnnealModel L) (I : AnnealIds) (lossFn : Out L → Except Err L.Lo)
    (transf : Option (Trace L → Kw L → Except Err (Trace L))) (r : ResamplerFn L) (K : Nat) :
    ((List.range K).map fun k => ((M.forward I k, M.reverse I k, M.target I k), k)).foldlM
        (vsmcStep fresh n lossFn transf none) (M.initial I) = .ok (vsmcNode fresh 0 M I lossFn transf r K) := by
  induction K with
  | zero => rfl
  | succ K ih =>
    rw [List.range_succ, List.map_append, List.foldlM_append, ih]
    rfl

/-- C63. The samples of each step, weighted by exp of the log weights reported with them, represent that step's target: for every
batch element the mean over the particles of exp(lw) h(sample) has the integral of h against the density of g(t+1) as its
expectation. -/
theorem C63_weighted_samples [NeZero n] [Nonempty X] [SFinite μ] (fresh : ObjId) (M : AnnealModel ℙ) (S : AnnealSpec X D) (j : Fin b) (hV : Vectorises M S j)
    (hS : S.Norm μ lp) (I : AnnealIds) (hid : I.Below fresh) (lossFn : Out ℙ → Except Err (ℙ).Lo) (hl : LossOk lossFn)
    (transf : Option (Trace ℙ → Kw ℙ → Except Err (Trace ℙ))) (ht : AnnealTransf transf)
    (hteq : ∀ detachD weq, transf = some (stlTrace detachD weq) → ∀ x y, weq x y = true → x = y) (K t : Nat) (htK : t < K) (nd : Node ℙ)
    (hnd : vsmc fresh (M.initial I :: (List.range K).map (M.target I)) ((List.range K).map (M.forward I))
        ((List.range K).map (M.reverse I)) lossFn transf none = .ok nd)
    (kw : Kw ℙ) (w : World ℙ) (hk : KwOk kw) (hw : ∀ i, w.cond i = none) (h : X → ℝ≥0∞) (hh : Measurable h) :
    expectT (nviTest popEss popLz nd kw w) (onReturn (atStep t fun lw x => (∑ s, dens (lw s j) * h (x s j)) / n)) =
      ∫⁻ x, dens (lp (S.g t) x) * h x ∂μ := by
  have hnd' : vsmc fresh (M.initial I :: (List.range (t + 1)).map (M.target I)) ((List.range (t + 1)).map (M.forward I))
        ((List.range (t + 1)).map (M.reverse I)) lossFn transf none = .ok (vsmcNode fresh 0 M I lossFn transf (systematic false false) (t + 1)) := by
    simp only [vsmc]
    rw [zip3_range]
    exact vsmc_none_eq _ _ _ _ _ _ _ _
  rw [C63_prefix fresh M I hid lossFn hl transf ht K t htK nd _ hnd hnd' .none kw {} w hk (fun e he => by cases he) hw]
  obtain ⟨nd2, e2, h2⟩ := chain_vsmc fresh 0 M I hid lossFn hl transf ht.ok (t + 1)
  rw [vsmc_none_eq fresh 0 M I lossFn transf (systematic false false) (t + 1)] at e2
  cases e2
  obtain ⟨G, hG, hG'⟩ := h2 .none {} w (fun e he => by cases he) hw
  have hruns : ∀ r w', (eval (vsmcNode fresh 0 M I lossFn transf (systematic false false) (t + 1)) .none {}).Runs w r w' → ∃ z, r = .ok (G z) := by
    intro r w' hr
    rw [Exec.Runs, hG, Comp.bind_Ret] at hr
    obtain ⟨z, -, hz⟩ := hr
    cases hz
    exact ⟨z, rfl⟩
  let h' : Env X → PyVal (PLang X D ℝ lp) → ℝ≥0∞ := fun e _ => match e with
    | (_, v) :: _ => h v.value
    | [] => 0
  have hh' : MeasFun h' := by
    intro Γ _ e o he _
    cases he with
    | nil => exact measurable_const
    | cons name v w latent e hv hw he => exact hh.comp hv
  have hmain := C55_population (Lo := ℝ) (vsmcNode fresh 0 M I lossFn transf (systematic false false) (t + 1))
    (S.node M.rep0 M.rep M.rep' (fun k => decide (k + 1 < 0)) (t + 1)) j .none {} w .none {}
    (vsmcNode_scoped fresh 0 M I hid lossFn transf _ (t + 1)) (fun i _ => hw i)
    (fun r w' hr => by obtain ⟨z, h⟩ := hruns r w' hr; exact ⟨_, h⟩)
    (fun s => vsmcNode_lane fresh 0 M S j hV I lossFn transf (by
      rcases ht with h | ⟨d, e, h, -⟩
      · exact Or.inl h
      · exact Or.inr ⟨d, e, h, hteq d e h⟩) _ s (t + 1))
    (vsmcNode_resamples _ _ _ _ _ _ _ _) (fun _ => rfl) (fun _ => rfl)
    (node_fits S hS _ _ _ _ (t + 1) _ _) (node_meas S hS _ _ _ _ (t + 1)) hh'
  rw [node_target] at hmain
  refine Eq.trans ?_ hmain
  refine (isLaw_expectT (μ := μ) (lp := lp) (n := n) j).congr _ _ _ ?_
  rintro ⟨r, w'⟩ hr
  obtain ⟨z, rfl⟩ := hruns r w' hr
  obtain ⟨ra, r1, -⟩ := hG' z
  have h4 : (G z).trace.get? (AnnealModel.name (t + 1)) = some ra := by rw [r1]; simp [gname]
  have h5 : ∀ s, laneEnv (particleLane (μ := μ) (lp := lp) s j) (G z).trace =
      [(gname (t + 1), ⟨ra.value s j, ra.logProb s j, ra.prov != .observed⟩)] := fun s => by rw [r1]; rfl
  simp only [onReturn, atEnd, h4, h5]
  rfl

/-- The evidence estimate a report lists for step `t` and batch element `j`. -/
noncomputable def Spec.reportLz (t : Nat) (j : Fin b) (rep : TestReport ℙ (Fin b → ℝ)) : ℝ := (rep.lZHat[t]?.getD fun _ => 0) j

/-- C63. The evidence estimates reported by nvi_test: exp of the one for step t is unbiased for the normalising constant of g(t+1);
its own mean (over runs, and hence also averaged over the batch as main.py prints it) is at most the log of that constant. -/
theorem C63_evidence [NeZero n] [Nonempty X] [SFinite μ] (fresh : ObjId) (M : AnnealModel ℙ) (S : AnnealSpec X D) (j : Fin b) (hV : Vectorises M S j)
    (hS : S.Norm μ lp) (I : AnnealIds) (hid : I.Below fresh) (lossFn : Out ℙ → Except Err (ℙ).Lo) (hl : LossOk lossFn)
    (transf : Option (Trace ℙ → Kw ℙ → Except Err (Trace ℙ))) (ht : AnnealTransf transf)
    (hteq : ∀ detachD weq, transf = some (stlTrace detachD weq) → ∀ x y, weq x y = true → x = y) (K t : Nat) (htK : t < K) (nd : Node ℙ)
    (hnd : vsmc fresh (M.initial I :: (List.range K).map (M.target I)) ((List.range K).map (M.forward I))
        ((List.range K).map (M.reverse I)) lossFn transf none = .ok nd)
    (kw : Kw ℙ) (w : World ℙ) (hk : KwOk kw) (hw : ∀ i, w.cond i = none) :
    expectT (nviTest popEss popLz nd kw w) (onReturn fun rep => ENNReal.ofReal (Real.exp (reportLz t j rep))) = ∫⁻ x, dens (lp (S.g t) x) ∂μ ∧
    ∀ logZ : ℝ, ∫⁻ x, dens (lp (S.g t) x) ∂μ = dens logZ →
      MeanLe (fun g => expectT (nviTest popEss popLz nd kw w) (onReturn g)) (reportLz t j) logZ := by
  have hnd' : vsmc fresh (M.initial I :: (List.range (t + 1)).map (M.target I)) ((List.range (t + 1)).map (M.forward I))
        ((List.range (t + 1)).map (M.reverse I)) lossFn transf none = .ok (vsmcNode fresh 0 M I lossFn transf (systematic false false) (t + 1)) := by
    simp only [vsmc]
    rw [zip3_range]
    exact vsmc_none_eq _ _ _ _ _ _ _ _
  -- the report is complete on every run
  obtain ⟨nd1, e1, h1⟩ := C63_nvi_test (L := ℙ) popEss popLz fresh M I hid lossFn hl transf ht K
  rw [hnd] at e1
  cases e1
  obtain ⟨F, hF, hF'⟩ := (h1 kw w hk hw).2 (by omega)
  have hrep : ∀ ψ : ℝ → ℝ≥0∞, expectT (nviTest popEss popLz nd kw w) (onReturn fun rep => ψ (reportLz t j rep)) =
      expectT (nviTest popEss popLz nd kw w) (onReturn (atStep t fun lw _ => ψ (logZHat fun s => lw s j))) := by
    intro ψ
    refine (isLaw_expectT (μ := μ) (lp := lp) (n := n) j).congr _ _ _ ?_
    rintro ⟨r, w'⟩ hr
    rw [hF, Comp.bind_Ret] at hr
    obtain ⟨z, -, hz⟩ := hr
    cases hz
    have b0 : (F z).lw[t]? = some (M.incoming z (t + 1)) := by rw [(hF' z).lw]; simp [htK]
    have b1 : (F z).lZHat[t]? = some (popLz (M.incoming z (t + 1))) := by rw [(hF' z).lZHat]; simp [htK]
    have b2 : (F z).samples[t]? = some (AnnealModel.name (t + 1), z (t + 1)) := by rw [(hF' z).samples]; simp [htK]
    simp only [onReturn, atStep, reportLz, b0, b1, b2, Option.getD_some]
    rfl
  refine ⟨?_, fun logZ hZ => ?_⟩
  · rw [hrep fun x => ENNReal.ofReal (Real.exp x)]
    have := C63_weighted_samples fresh M S j hV hS I hid lossFn hl transf ht hteq K t htK nd hnd kw w hk hw (fun _ => 1) measurable_const
    simp only [mul_one] at this
    rw [← this]
    refine congrArg (fun φ => expectT _ (onReturn (atStep t φ))) (funext fun lw => funext fun x => ?_)
    have hn : (0 : ℝ) < n := by exact_mod_cast NeZero.pos n
    rw [logZHat, Real.exp_log (zHat_pos _), zHat, ENNReal.ofReal_div_of_pos hn, ENNReal.ofReal_sum_of_nonneg fun _ _ => (Real.exp_pos _).le,
      ENNReal.ofReal_natCast]
    rfl
  · obtain ⟨nd2, e2, h2⟩ := chain_vsmc fresh 0 M I hid lossFn hl transf ht.ok (t + 1)
    rw [vsmc_none_eq fresh 0 M I lossFn transf (systematic false false) (t + 1)] at e2
    cases e2
    obtain ⟨G, hG, hG'⟩ := h2 .none {} w (fun e he => by cases he) hw
    have hruns : ∀ r w', (eval (vsmcNode fresh 0 M I lossFn transf (systematic false false) (t + 1)) .none {}).Runs w r w' → ∃ z, r = .ok (G z) := by
      intro r w' hr
      rw [Exec.Runs, hG, Comp.bind_Ret] at hr
      obtain ⟨z, -, hz⟩ := hr
      cases hz
      exact ⟨z, rfl⟩
    have hZ' : target μ (S.node (Lo := ℝ) (lp := lp) M.rep0 M.rep M.rep' (fun k => decide (k + 1 < 0)) (t + 1)) false (fun _ => none) .none {} (fun _ _ => 1) = dens logZ := by
      rw [node_target]
      simp only [mul_one]
      exact hZ
    have hel := C62_population_elbo (Lo := ℝ) (vsmcNode fresh 0 M I lossFn transf (systematic false false) (t + 1))
      (S.node M.rep0 M.rep M.rep' (fun k => decide (k + 1 < 0)) (t + 1)) j .none {} w .none {}
      (vsmcNode_scoped fresh 0 M I hid lossFn transf _ (t + 1)) (fun i _ => hw i)
      (fun r w' hr => by obtain ⟨z, h⟩ := hruns r w' hr; exact ⟨_, h⟩)
      (fun s => vsmcNode_lane fresh 0 M S j hV I lossFn transf (by
        rcases ht with h | ⟨d, e, h, -⟩
        · exact Or.inl h
        · exact Or.inr ⟨d, e, h, hteq d e h⟩) _ s (t + 1))
      (vsmcNode_resamples _ _ _ _ _ _ _ _) (fun _ => rfl) (fun _ => rfl)
      (node_fits S hS _ _ _ _ (t + 1) _ _) (node_meas S hS _ _ _ _ (t + 1)) logZ hZ'
    have hend : ∀ ψ : ℝ → ℝ≥0∞, expectT (nviTest popEss popLz nd kw w) (onReturn fun rep => ψ (reportLz t j rep)) =
        expectT (eval (vsmcNode fresh 0 M I lossFn transf (systematic false false) (t + 1)) .none {} w)
          (onReturn fun o => ψ (logZHat fun s => o.logWeight.val s j)) := by
      intro ψ
      rw [hrep, C63_prefix fresh M I hid lossFn hl transf ht K t htK nd _ hnd hnd' .none kw {} w hk (fun e he => by cases he) hw]
      refine (isLaw_expectT (μ := μ) (lp := lp) (n := n) j).congr _ _ _ ?_
      rintro ⟨r, w'⟩ hr
      obtain ⟨z, rfl⟩ := hruns r w' hr
      obtain ⟨ra, r1, -⟩ := hG' z
      have h4 : (G z).trace.get? (AnnealModel.name (t + 1)) = some ra := by rw [r1]; simp [gname]
      simp only [onReturn, atEnd, h4]
    exact le_of_eq_of_le (hend fun x => ENNReal.ofReal (x - logZ)) (hel.trans_eq (hend fun x => ENNReal.ofReal (logZ - x)).symm)

end

/-- C63: two steps over the toy language: the log weights, losses and samples reported for the draws 1, 2, 3. -/
example : ∃ nd : Node Toy.L, vsmc 100 (Toy.anneal.initial Toy.annealIds :: (List.range 2).map (Toy.anneal.target Toy.annealIds))
      ((List.range 2).map (Toy.anneal.forward Toy.annealIds)) ((List.range 2).map (Toy.anneal.reverse Toy.annealIds))
      (fun o => .ok o.logWeight.val.1) none none = .ok nd ∧
    ∃ rep w', (nviTest (L := Toy.L) (fun x => x.1) (fun x => -x.1) nd {}).Runs Toy.w0 (.ok rep) w' ∧ rep.lw = [(1, 0), (5, 0)] ∧
      rep.ess = [1, 5] ∧ rep.lZHat = [-1, -5] ∧ rep.samples = [("g1", (2, 1)), ("g2", (3, 1))] := by
  obtain ⟨nd, h1, h2⟩ := C63_nvi_test (L := Toy.L) (fun x => x.1) (fun x => -x.1) 100 Toy.anneal Toy.annealIds Coin.ids_below
    (fun o => .ok o.logWeight.val.1) (fun _ _ _ => ⟨_, rfl⟩) none (Or.inl rfl) 2
  refine ⟨nd, h1, ?_⟩
  obtain ⟨F, e1, e2⟩ := (h2 {} Toy.w0 (fun e he => by cases he) (fun _ => rfl)).2 (by decide)
  let z : Nat → Toy.L.V := fun j => if j ≤ 1 then (if j ≤ 0 then (1, 1) else (2, 1)) else (3, 1)
  refine ⟨F z, Toy.w0, ?_, ?_, ?_, ?_, ?_⟩
  · show Comp.Ret _ _
    rw [e1]
    exact ⟨(1, 1), (2, 1), (3, 1), rfl⟩
  · rw [(e2 z).lw]; decide
  · rw [(e2 z).ess]; decide
  · rw [(e2 z).lZHat]; decide
  · rw [(e2 z).samples]; rfl

/-- C63: a run with resampling: the loss watched is that of the last of two rows. -/
example : ∃ nd out w' rows r, vsmc 100 (Toy.anneal.initial Toy.annealIds :: [0, 1].map (Toy.anneal.target Toy.annealIds))
      ([0, 1].map (Toy.anneal.forward Toy.annealIds)) ([0, 1].map (Toy.anneal.reverse Toy.annealIds))
      (fun o => .ok o.logWeight.val.1) none (some Toy.keepAll) = .ok nd ∧
    (eval nd .none { debug := true }).Runs Toy.w0 (.ok out) w' ∧ getStats out = .ok rows ∧ rows.length = 2 ∧ rows.getLast? = some r ∧
      out.loss = some r.loss := by
  have hr : ∃ nd out w', vsmc 100 (Toy.anneal.initial Toy.annealIds :: [0, 1].map (Toy.anneal.target Toy.annealIds))
      ([0, 1].map (Toy.anneal.forward Toy.annealIds)) ([0, 1].map (Toy.anneal.reverse Toy.annealIds))
      (fun o => .ok o.logWeight.val.1) none (some Toy.keepAll) = .ok nd ∧
    (eval nd .none { debug := true }).Runs Toy.w0 (.ok out) w' :=
    Toy.succeeds_runs (vs := [(1, 1), (2, 1), (3, 1)]) (by decide +kernel)
  obtain ⟨nd, out, w', h1, h2⟩ := hr
  obtain ⟨rows, r, h3, h4, h5, -, h6⟩ := C63_train 100 _ ⟨_, _, rfl⟩ _ _ _ (by simp [IsProg, AnnealModel.forward]) (by simp) _ _ _ nd h1
    (by decide) .none { debug := true } rfl _ _ out h2
  exact ⟨nd, out, w', rows, r, h1, h2, h3, h4, h5, h6⟩

/-- C63: a single target. -/
example : ∃ nd : Node Toy.L, vsmc 100 [Toy.anneal.initial Toy.annealIds] [] [] (fun o => .ok o.logWeight.val.1) none none = .ok nd ∧
    ∀ r w', (nviTest (L := Toy.L) (fun x => x.1) (fun x => -x.1) nd {}).Runs Toy.w0 r w' → r = .error .name := by
  obtain ⟨nd, h1, h2⟩ := C63_nvi_test (L := Toy.L) (fun x => x.1) (fun x => -x.1) 100 Toy.anneal Toy.annealIds Coin.ids_below
    (fun o => .ok o.logWeight.val.1) (fun _ _ _ => ⟨_, rfl⟩) none (Or.inl rfl) 0
  exact ⟨nd, h1, fun r w' hr => ((h2 {} Toy.w0 (fun e he => by cases he) (fun _ => rfl)).1 rfl r w' hr).1⟩

/-- C63: the coins, three steps, two particles: the second estimate of the report has mean e (the fair coin scaled by e), and the mean of its log
is at most 1. -/
example : ∃ nd, vsmc 100 (Coin.annealPop.initial Toy.annealIds :: (List.range 3).map (Coin.annealPop.target Toy.annealIds))
      ((List.range 3).map (Coin.annealPop.forward Toy.annealIds)) ((List.range 3).map (Coin.annealPop.reverse Toy.annealIds))
      (fun _ => .ok 0) none none = .ok nd ∧
    expectT (nviTest popEss popLz nd {} { cond := fun _ => none, store := Store.init })
      (onReturn fun rep => ENNReal.ofReal (Real.exp (reportLz 1 0 rep))) = ENNReal.ofReal (Real.exp 1) ∧
    MeanLe (fun g => expectT (nviTest popEss popLz nd {} { cond := fun _ => none, store := Store.init }) (onReturn g)) (reportLz 1 0) 1 := by
  obtain ⟨nd, h1, -⟩ := C30_vsmc 100 Coin.annealPop Toy.annealIds Coin.ids_below (fun _ => .ok 0) (fun _ _ _ => ⟨_, rfl⟩) none (Or.inl rfl) 3
  refine ⟨nd, h1, ?_⟩
  have hZ : ∫⁻ x, dens (Coin.lpU (Coin.annealSpec.g 1) x) ∂Measure.count = dens 1 := by
    rw [Coin.lintegral_bool]
    have h6 : ∀ v, dens (Coin.lpU (Coin.annealSpec.g 1) v) = ENNReal.ofReal (Coin.prob false v) * ENNReal.ofReal (Real.exp 1) := by
      intro v
      rw [← Coin.dens_lp, dens, dens, ← ENNReal.ofReal_mul (Real.exp_pos _).le, ← Real.exp_add]
      rfl
    simp only [h6]
    rw [← add_mul, ← ENNReal.ofReal_add (Coin.prob_pos _ _).le (Coin.prob_pos _ _).le]
    norm_num [Coin.prob, dens]
  obtain ⟨h2, h3⟩ := C63_evidence 100 Coin.annealPop Coin.annealSpec 0
    ⟨fun _ => rfl, fun _ _ _ => rfl, fun _ _ _ => rfl, fun _ _ _ => rfl⟩
    ⟨Coin.normalisedU _, fun _ _ => Coin.normalisedU _, fun _ _ => Coin.normalisedU _,
    fun _ => measurable_of_countable _, fun _ => measurable_of_countable _, fun _ => measurable_of_countable _⟩ Toy.annealIds
    Coin.ids_below (fun _ => .ok 0) (fun _ _ _ => ⟨_, rfl⟩) none (Or.inl rfl) (fun _ _ h => by cases h) 3 1 (by decide) nd h1 {}
    { cond := fun _ => none, store := Store.init } (fun e he => by cases he) (fun _ => rfl)
  exact ⟨h2.trans hZ, h3 1 hZ⟩

end Verif
