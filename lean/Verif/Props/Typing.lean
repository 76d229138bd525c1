import Verif.Proofs.Typing
import Verif.Props.Population
import Verif.Props.Scoping
import Verif.Props.Weighting
/-
C60: a static discipline under which calls never raise.
-/
namespace Verif
open Spec MeasureTheory
open scoped ENNReal

section
variable {L : Lang}

/-- C60. A nest of programs and combinators that follows the static discipline `Typed` (names, provenances, disjointness, tensor
weights) never raises, whatever is drawn: every run returns, the result's trace holds exactly the predicted names with the predicted
provenances, its log weight is a tensor exactly when predicted, its output satisfies the predicted property, and nothing is left behind
in the conditioning slots or the store.
* The graph is well-scoped (C05) and only the root may hold a conditioning trace, one with the names `Γ`.
* The store's `resample_update` hook does nothing. -/
theorem C60_well_typed {Γ : Option Names} {kw : Kw L} {pre : PyVal L → Prop} {n : Node L} {τ : Ty L} (h : Typed Γ kw pre n τ)
    {c : PyVal L} (hc : pre c) {w : World L} (hs : WellScoped (w.cond n.id).isSome n) (hw : ∀ i ∈ below n, w.cond i = none)
    (hΓ : CondNames (w.cond n.id) Γ) (hst : ∀ t t', w.store.hooks.resampleUpdate w.store.data t t' = (.ok (), w.store.data))
    {r : Except Err (Out L)} {w' : World L} (hr : (eval n c kw).Runs w r w') :
    ∃ o, r = .ok o ∧ w' = w ∧ HasNames o.trace τ.names ∧ (o.logWeight ≠ .float0 ↔ τ.weighted) ∧ τ.post o.output := by
  rw [Exec.Runs, C05_lexical n c kw w hs hw] at hr
  rcases typed_sound h hΓ hc hst r w' hr with ⟨o, h1, h2, h3, -⟩ | ⟨_, _, h⟩
  · exact ⟨o, h1, h2, h3⟩
  · exact h.elim

/-- C60, the rule for Compose is exact: when the parts follow the discipline but share a name, every run raises AssertionError. -/
theorem C60_compose_exact {Γ : Option Names} {kw : Kw L} {pre : PyVal L → Prop} {a : Attrs L} {q2 q1 : Node L} {τ1 τ2 : Ty L}
    (h1 : Typed none (subKw a kw) pre q1 τ1) (h2 : Typed none (subKw a kw) τ1.post q2 τ2) (hd : ¬ τ1.names.Disjoint τ2.names)
    {c : PyVal L} (hc : pre c) {w : World L} (hs : WellScoped (w.cond a.id).isSome (.compose a q2 q1))
    (hw : ∀ i ∈ below (.compose a q2 q1), w.cond i = none) (hΓ : CondNames (w.cond a.id) Γ)
    (hst : ∀ t t', w.store.hooks.resampleUpdate w.store.data t t' = (.ok (), w.store.data))
    {r : Except Err (Out L)} {w' : World L} (hr : (eval (.compose a q2 q1) c kw).Runs w r w') : r = .error .assertion := by
  rw [Exec.Runs, C05_lexical (.compose a q2 q1) c kw w hs hw, evalP_compose] at hr
  replace hr := Exec.Runs_bind.1 hr
  rcases hr with ⟨e, rfl, hr⟩ | ⟨o1, w1, hr1, hr⟩
  · exact ((typed_sound h1 (cond := none) trivial hc hst).error hr).elim
  obtain ⟨rfl, hf1⟩ := (typed_sound h1 (cond := none) trivial hc hst).result hr1
  replace hr := Exec.Runs_bind.1 hr
  rcases hr with ⟨e, rfl, hr⟩ | ⟨o2, w2, hr2, hr⟩
  · exact ((typed_sound h2 (cond := none) trivial hf1.1.2.2 hst).error hr).elim
  obtain ⟨rfl, hf2⟩ := (typed_sound h2 (cond := none) trivial hf1.1.2.2 hst).result hr2
  rw [Exec.Runs_lift] at hr
  rcases composeRest_spec a kw o1 o2 with ⟨-, h⟩ | ⟨h, -⟩
  · rw [hr.1, h]
  · refine absurd (fun k => ?_) hd
    by_contra hk
    rw [not_or] at hk
    exact h ⟨k, by_contra fun h' => hk.1 (hf1.1.1.none_iff.2 h'), by_contra fun h' => hk.2 (hf2.1.1.none_iff.2 h')⟩

/-- C60, the rule for Extend is exact: when the parts follow the discipline but share a name, or the kernel observes something, or
(without a conditioning trace) reuses something, every run raises AssertionError. -/
theorem C60_extend_exact {Γ : Option Names} {kw : Kw L} {pre : PyVal L → Prop} {a : Attrs L} {p f : Node L} {τp τf : Ty L}
    (hp : Typed Γ (subKw a kw) pre p τp) (hf : Typed Γ (subKw a kw) τp.post f τf)
    (hd : ¬ τp.names.Disjoint τf.names ∨ (∃ k, τf.names k = some .observed) ∨ Γ = none ∧ ∃ k, τf.names k = some .reused)
    {c : PyVal L} (hc : pre c) {w : World L} (hs : WellScoped (w.cond a.id).isSome (.extend a p f))
    (hw : ∀ i ∈ below (.extend a p f), w.cond i = none) (hΓ : CondNames (w.cond a.id) Γ)
    (hst : ∀ t t', w.store.hooks.resampleUpdate w.store.data t t' = (.ok (), w.store.data))
    {r : Except Err (Out L)} {w' : World L} (hr : (eval (.extend a p f) c kw).Runs w r w') : r = .error .assertion := by
  rw [Exec.Runs, C05_lexical (.extend a p f) c kw w hs hw, evalP_extend] at hr
  change (Exec.bind (evalP p (w.cond a.id) c (subKw a kw)) fun po => Exec.bind (evalP f (w.cond a.id) po.output (subKw a kw)) fun fo =>
    Exec.lift (extendRest a kw (w.cond a.id) po fo)).Runs w r w' at hr
  replace hr := Exec.Runs_bind.1 hr
  rcases hr with ⟨e, rfl, hr⟩ | ⟨po, w1, hr1, hr⟩
  · exact ((typed_sound hp hΓ hc hst).error hr).elim
  obtain ⟨rfl, hf1⟩ := (typed_sound hp hΓ hc hst).result hr1
  replace hr := Exec.Runs_bind.1 hr
  rcases hr with ⟨e, rfl, hr⟩ | ⟨fo, w2, hr2, hr⟩
  · exact ((typed_sound hf hΓ hf1.1.2.2 hst).error hr).elim
  obtain ⟨rfl, hf2⟩ := (typed_sound hf hΓ hf1.1.2.2 hst).result hr2
  rw [Exec.Runs_lift] at hr
  have hget : ∀ {k p}, τf.names k = some p → ∃ rv, fo.trace.get? k = some rv ∧ rv.prov = p := fun {k p} h => by
    rw [← hf2.1.1.1 k, Option.map_eq_some_iff] at h
    exact h
  rcases extendRest_spec a kw (w2.cond a.id) po fo with ⟨-, h⟩ | ⟨h, hK, -⟩
  · rw [hr.1]; exact h
  · exfalso
    rcases hd with hd | ⟨k, hk⟩ | ⟨rfl, k, hk⟩
    · refine hd fun k => ?_
      by_contra hk
      rw [not_or] at hk
      exact h ⟨k, by_contra fun h' => hk.1 (hf1.1.1.none_iff.2 h'), by_contra fun h' => hk.2 (hf2.1.1.none_iff.2 h')⟩
    · obtain ⟨rv, h1, h2⟩ := hget hk
      exact (hK.1 k rv h1).1 h2
    · obtain ⟨rv, h1, h2⟩ := hget hk
      refine (hK.1 k rv h1).2 ?_ h2
      revert hΓ
      cases hcond : w2.cond a.id with
      | none => exact fun _ => rfl
      | some t => exact fun hΓ => hΓ.elim

/-- C60, what Propose needs: when the parts follow the discipline but the proposal object has no `_debug` attribute (as a bare Program,
C11), or nothing makes the weight a tensor, every run raises. -/
theorem C60_propose_exact {Γ : Option Names} {kw : Kw L} {pre : PyVal L → Prop} {a : Attrs L}
    {transf : Trace L → Kw L → Except Err (Trace L)} {nr : Bool} {p q : Node L} {τq τp : Ty L}
    (hq : Typed none (subKw a kw) pre q τq) (hp : Typed (some τq.names) (subKw a kw) pre p τp)
    (hd : q.debugAttr = none ∨ ¬ (τq.weighted ∨ τp.weighted ∨ ∃ k, denominator τq.names τp.names k))
    {c : PyVal L} (hc : pre c) {w : World L} (hs : WellScoped (w.cond a.id).isSome (.propose a transf nr p q))
    (hw : ∀ i ∈ below (.propose a transf nr p q), w.cond i = none) (hΓ : CondNames (w.cond a.id) Γ)
    (hst : ∀ t t', w.store.hooks.resampleUpdate w.store.data t t' = (.ok (), w.store.data))
    {r : Except Err (Out L)} {w' : World L} (hr : (eval (.propose a transf nr p q) c kw).Runs w r w') : ∃ e, r = .error e := by
  rw [Exec.Runs, C05_lexical (.propose a transf nr p q) c kw w hs hw, evalP_propose] at hr
  replace hr := Exec.Runs_bind.1 hr
  rcases hr with ⟨e, rfl, hr⟩ | ⟨qo, w1, hr1, hr⟩
  · exact ⟨e, rfl⟩
  obtain ⟨rfl, hf1⟩ := (typed_sound hq (cond := none) trivial hc hst).result hr1
  replace hr := Exec.Runs_bind.1 hr
  rcases hr with ⟨e, rfl, hr⟩ | ⟨po, w2, hr2, hr⟩
  · exact ⟨e, rfl⟩
  obtain ⟨rfl, hf2⟩ := (typed_sound hp (cond := some qo.trace) hf1.1.1 hc hst).result hr2
  rw [Exec.Runs_lift] at hr
  obtain ⟨rfl, -⟩ := hr
  cases hres : proposeRest a transf nr p q kw qo po with
  | error e => exact ⟨e, rfl⟩
  | ok o =>
    exfalso
    unfold proposeRest at hres
    simp only [Except.bind_ok_iff, copytrace1_ok] at hres
    obtain ⟨qt, -, _, -, t, -, lw, h4, _, -, _, -, fwd, h7, -⟩ := hres
    rcases hd with hd | hd
    · rw [forwardTrace, hd] at h7
      cases h7
    · rw [not_or, not_or] at hd
      obtain ⟨d1, d2, d3⟩ := hd
      have e1 : qo.logWeight = .float0 := by_contra fun h => d1 (hf1.1.2.1.1 h)
      have e2 : po.logWeight = .float0 := by_contra fun h => d2 (hf2.1.2.1.1 h)
      have e3 : logJoint qt (proposeNodes qo.trace po.trace) = .float0 := by
        rw [logJoint_eq_float0]
        intro k _
        rw [← Bool.not_eq_true, denominator_iff hf1.1.1 hf2.1.1]
        exact fun h => d3 ⟨k, h⟩
      rw [e1, e2, e3] at h4
      cases h4

end

/-! ### Resampling, annealing, expectations -/

section
variable {n b : Nat} {X D : Type} {lp : D → (Fin n → Fin b → X) → Fin n → Fin b → ℝ}

/-- C60. `Systematic` is a resampler as the rule for Resample asks for: on dimensions it accepts it returns for every offset, keeps
names and provenances, and gives a tensor weight. -/
theorem C60_systematic [NeZero n] (oneD normalize : Bool) {sampleDims batchDim : PyVal (TLang n b X D lp)}
    (hd : checkDims oneD n b sampleDims batchDim = .ok ()) {N : Names} (t : Trace (TLang n b X D lp)) (lw : (TLang n b X D lp).W)
    (x : Except Err (Trace (TLang n b X D lp) × LW (TLang n b X D lp).W)) (ht : HasNames t N)
    (hx : (systematic oneD normalize sampleDims batchDim t (.tensor lw)).Ret x) :
    ∃ t' w', x = .ok (t', .tensor w') ∧ HasNames t' N := by
  simp only [systematic, hd] at hx
  obtain ⟨u, hx⟩ := hx
  rw [Comp.ret_Ret] at hx
  obtain ⟨⟨t', lw'⟩, hy⟩ := systematicAt_total normalize t lw u fun k rv hk _ => ht.2 k rv hk
  obtain ⟨a, -, hm, hlw⟩ := systematicAt_ok _ _ _ _ _ _ hy
  subst hlw
  refine ⟨t', _, hx.symm.trans hy, ?_⟩
  have hrv : ∀ rv rv' : RV (TLang n b X D lp), Moved a rv rv' → rv'.prov = rv.prov ∧ (rv.kind ≠ .other → rv'.kind ≠ .other) := by
    intro rv rv' h
    by_cases hp : Permuted rv
    · exact ⟨(h.1 hp).1, fun hk => by rw [(h.1 hp).2.1]; exact hk⟩
    · rw [h.2 hp]; exact ⟨rfl, id⟩
  have key : ∀ l l' : List (String × RV (TLang n b X D lp)), List.Forall₂ (fun e e' => e'.1 = e.1 ∧ Moved a e.2 e'.2) l l' → ∀ k,
      (getL l' k).map (·.prov) = (getL l k).map (·.prov) ∧ ∀ rv', getL l' k = some rv' → ∃ rv, getL l k = some rv ∧
        (rv.kind ≠ .other → rv'.kind ≠ .other) := by
    intro l l' h k
    induction h with
    | nil => exact ⟨rfl, fun rv' h => by cases h⟩
    | @cons e e' l l' he _ ih =>
      rw [getL.eq_def (e' :: l'), getL.eq_def (e :: l)]
      dsimp only
      rw [he.1]
      split
      · exact ⟨by simp [(hrv _ _ he.2).1], fun rv' h => by cases h; exact ⟨_, rfl, (hrv _ _ he.2).2⟩⟩
      · exact ih
  refine ⟨fun k => ((key _ _ hm k).1).trans (ht.1 k), fun k rv' h => ?_⟩
  obtain ⟨rv, h1, h2⟩ := (key _ _ hm k).2 rv' h
  exact h2 (ht.2 k rv h1)

end

section
variable {L : Lang}

/-- The trace holds one name. -/
def single (name : String) (p : Prov) : Names := Function.update (fun _ => none) name (some p)

theorem single_self (name : String) (p : Prov) : single name p name = some p := by simp [single]
theorem single_ne {name k : String} (p : Prov) (h : k ≠ name) : single name p k = none := by simp [single, h]

/-- The types along vsmc. -/
def annealTy (L : Lang) (K : Nat) : Ty L :=
  .plain (single (AnnealModel.name K) (if K = 0 then .sampled else .reused)) (K ≠ 0) fun o => ∃ v, o = outDict (AnnealModel.name K) v

theorem kernel_typed (i : ObjId) (a b : String) (net : L.V → L.D) (rep : Bool) (Γ : Option Names) (kw : Kw L) (hk : KwOk kw) :
    Typed Γ kw (fun o => ∃ v, o = outDict a v) (.prog i (kernelProg a b net rep))
      (.plain (single b (if heldIn Γ b then .reused else .sampled)) (progWeighted Γ (single b (if heldIn Γ b then .reused else .sampled)))
        fun o => ∃ v, o = outDict b v) := by
  refine Typed.prog (bindModel_ok hk (by rfl)) ?_
  rintro c ⟨v, rfl⟩
  have : kernelInput (outDict a v) a = .ok v := by simp [kernelInput, outDict, getL]
  simp only [kernelProg, kernelModel, this]
  exact ⟨rfl, fun x => ⟨rfl, x, rfl⟩⟩

theorem target_typed (i : ObjId) (cls name : String) (g : L.V → L.W) (N : Names) (kw : Kw L) (hk : KwOk kw) (hN : N name ≠ none)
    (pre : PyVal L → Prop) :
    Typed (some N) kw pre (.prog i (densityProg cls name g))
      (.plain (single name .reused) (progWeighted (some N) (single name .reused)) fun o => ∃ v, o = outDict name v) := by
  refine Typed.prog (bindModel_ok hk (by rfl)) ?_
  intro c _
  refine fun cond hc => ?_
  cases cond with
  | none => exact hc.elim
  | some t =>
    cases h : t.get? name with
    | none =>
      refine absurd ?_ hN
      rw [← (show HasNames t N from hc).1 name, h]
      rfl
    | some rv =>
      simp only [Option.bind_some, h]
      exact ⟨by simp [RV.mkImproper], rfl, rv.value, rfl⟩

/-- C60. Every nest that vsmc builds on an annealing model follows the discipline, for any number of steps, with any resampler that
keeps the names: it can be called with a loss function that only needs the index and a tensor lv (nvo_avo). -/
theorem C60_vsmc (fresh : ObjId) (m : Nat) (M : AnnealModel L) (I : AnnealIds) (lossFn : Out L → Except Err L.Lo)
    (hl : ∀ o (k : Nat) px lv, o.ix = some (.int k) → o.px = some px → px.lv = .tensor lv → ∃ l, lossFn o = .ok l)
    (R : ResamplerFn L) (kw : Kw L) (hk : KwOk kw)
    (hR : ∀ N t w x, HasNames t N → (R kw.sampleDims kw.batchDim t (.tensor w)).Ret x → ∃ t' w', x = .ok (t', .tensor w') ∧ HasNames t' N)
    (K : Nat) : Typed none kw (fun _ => True) (vsmcNode fresh m M I lossFn none R K) (annealTy L K) := by
  induction K generalizing kw with
  | zero =>
    have hw : progWeighted none (single (AnnealModel.name 0) .sampled) ↔ False := by
      refine iff_false_intro ?_
      rintro ⟨k, h | ⟨-, M, h, -⟩⟩
      · unfold single Function.update at h
        split at h <;> simp_all
      · cases h
    have h0 : annealTy L 0 = .plain (single (AnnealModel.name 0) .sampled) (progWeighted none (single (AnnealModel.name 0) .sampled))
        fun o => ∃ v, o = outDict (AnnealModel.name 0) v := by
      simp only [annealTy, if_true, hw, ne_eq, not_true_eq_false]
    rw [h0]
    refine Typed.prog (bindModel_ok hk (by rfl)) fun c _ cond hc => ?_
    cases cond with
    | none => exact fun v => ⟨by simp [RV.mk'], rfl, v, rfl⟩
    | some t => exact hc.elim
  | succ K ih =>
    have hne : AnnealModel.name (K + 1) ≠ AnnealModel.name K := fun h => by have := gname_inj h; omega
    have hprop : Typed none kw (fun _ => True) (Node.propose (mkAttrs (fresh + 4 * K + 2) (some (addLoss lossFn)) none (.int K) true)
        (Option.getD none fun t _ => .ok t) false (mkExtend (fresh + 4 * K) (M.target I K) (M.reverse I K) none none .none false)
        (mkCompose (fresh + 4 * K + 1) (M.forward I K) (vsmcNode fresh m M I lossFn none R K) none none .none true)) (annealTy L (K + 1)) := by
      have hk' : KwOk (subKw (mkAttrs (L := L) (fresh + 4 * K + 2) (some (addLoss lossFn)) none (.int K) true) kw) := hk
      let kw' := subKw (mkAttrs (L := L) (fresh + 4 * K + 2) (some (addLoss lossFn)) none (.int K) true) kw
      have hsub : ∀ i d, subKw (mkAttrs (L := L) i none none .none d) kw' = kw' := fun _ _ => rfl
      have hq := ih kw' hk hR
      have hf := kernel_typed (I.forward K) (AnnealModel.name K) (AnnealModel.name (K + 1)) (M.f K) M.rep none kw' hk
      have hd1 : (annealTy L K).names.Disjoint (single (AnnealModel.name (K + 1)) .sampled) := fun k => by
        by_cases h : k = AnnealModel.name K
        · exact Or.inr (single_ne _ (by rw [h]; exact hne.symm))
        · exact Or.inl (single_ne _ h)
      have hcomp := Typed.compose (Γ := none) (a := mkAttrs (fresh + 4 * K + 1) none none .none true) (kw := kw') hq hf hd1
        (fun o _ l => ⟨l, rfl⟩)
      have hNq : ∀ k, (single (AnnealModel.name (K + 1)) .sampled).union (annealTy L K).names k =
          if k = AnnealModel.name (K + 1) then some .sampled else if k = AnnealModel.name K then some (if K = 0 then .sampled else .reused)
          else none := fun k => by
        simp only [Names.union, annealTy, Ty.plain]
        by_cases h1 : k = AnnealModel.name (K + 1)
        · rw [if_pos h1, h1, single_self]; rfl
        · rw [if_neg h1, single_ne _ h1, Option.none_or]
          by_cases h2 : k = AnnealModel.name K
          · rw [if_pos h2, h2, single_self]
          · rw [if_neg h2, single_ne _ h2]
      have hp := target_typed (I.target K) (M.cls K) (AnnealModel.name (K + 1)) (M.g K)
        ((single (AnnealModel.name (K + 1)) .sampled).union (annealTy L K).names) kw' hk (by rw [hNq]; simp) fun _ => True
      have hheld : heldIn (some ((single (AnnealModel.name (K + 1)) .sampled).union (annealTy L K).names)) (AnnealModel.name K) = true := by
        rw [heldIn, hNq, if_neg hne.symm, if_pos rfl]; rfl
      have hr := kernel_typed (I.reverse K) (AnnealModel.name (K + 1)) (AnnealModel.name K) (M.r K) M.rep'
        (some ((single (AnnealModel.name (K + 1)) .sampled).union (annealTy L K).names)) kw' hk
      rw [hheld, if_pos rfl] at hr
      have hext := Typed.extend (a := mkAttrs (fresh + 4 * K) none none .none false) (kw := kw') hp hr
        (fun k => by
          by_cases h : k = AnnealModel.name (K + 1)
          · exact Or.inr (single_ne _ (by rw [h]; exact hne))
          · exact Or.inl (single_ne _ h))
        (fun k h => by
          simp only [Ty.plain, single, Function.update] at h
          split at h <;> simp_all)
        (fun h => by cases h) rfl (fun o _ l => ⟨l, rfl⟩)
      have hden : denominator ((single (AnnealModel.name (K + 1)) .sampled).union (annealTy L K).names)
          ((single (AnnealModel.name (K + 1)) .reused).union (single (AnnealModel.name K) .reused)) (AnnealModel.name (K + 1)) := by
        refine Or.inr ⟨by rw [hNq]; simp, Or.inr ?_⟩
        rw [Names.union, single_self]; rfl
      have hτ : annealTy L (K + 1) = .plain (single (AnnealModel.name (K + 1)) .reused) True fun o => ∃ v, o = outDict (AnnealModel.name (K + 1)) v := by
        simp [annealTy]
      refine Typed.propose hcomp hext (by simp [mkCompose, Node.debugAttr]) (Or.inr (Or.inr ⟨_, hden⟩))
        (fun t ht => ⟨t, rfl, fun _ => ⟨_, hden, ?_⟩⟩) ?_ hτ ?_
      · rw [ht.contains_eq]
        show Option.isSome ((single (AnnealModel.name (K + 1)) .sampled).union (annealTy L K).names (AnnealModel.name (K + 1))) = true
        rw [hNq, if_pos rfl]; rfl
      · rintro o ⟨v, rfl⟩
        exact ⟨L.detachV v, rfl⟩
      · rintro o ⟨-, hix, -, px, hpx, -, -, hlv⟩ l
        have : px.lv ≠ .float0 := hlv.2 (Or.inr ⟨_, hden⟩)
        cases hlv' : px.lv with
        | float0 => exact absurd hlv' this
        | tensor lv =>
          obtain ⟨l', hl'⟩ := hl o K px lv hix hpx hlv'
          exact ⟨l' + l, by simp [mkAttrs, addLoss, hl']⟩
    simp only [vsmcNode]
    split
    · have hτ : annealTy L (K + 1) = .plain (annealTy L (K + 1)).names True (annealTy L (K + 1)).post := by
        simp [annealTy, Ty.plain]
      rw [hτ]
      refine Typed.resample (τq := annealTy L (K + 1)) (a := mkAttrs (fresh + 4 * K + 3) none none .none false) hprop (by simp [annealTy, Ty.plain])
        (fun t w x ht hx => hR _ t w x ht hx) ?_ (fun o _ l => ⟨l, rfl⟩)
      rintro o t ⟨v, rfl⟩ ht
      simp only [resampleOutput, outDict, List.any_cons, List.any_nil, isTensor]
      refine ⟨PyVal.dict [(AnnealModel.name (K + 1), resampleEntry t (AnnealModel.name (K + 1), .tensor v))], by simp, ?_⟩
      have hg := ht.1 (AnnealModel.name (K + 1))
      simp only [annealTy, Ty.plain, single_self, Option.map_eq_some_iff] at hg
      obtain ⟨rv, hg, -⟩ := hg
      exact ⟨rv.value, by simp [resampleEntry, hg, outDict]⟩
    · exact hprop

end

section
variable {V D Lo : Type} [AddCommMonoid Lo] [Nonempty V] [MeasurableSpace V] {μ : Measure V} {lp : D → V → ℝ}
local notation "𝕃" => PLang V D Lo lp

/-- C60 for C29: for nests that follow the discipline, proper weighting needs no assumption that the call does not raise. -/
theorem C60_properly_weighted [SFinite μ] (n : Node 𝕃) (c : PyVal 𝕃) (kw : Kw 𝕃) (w : World 𝕃) {pre : PyVal 𝕃 → Prop} {τ : Ty 𝕃}
    (ht : Typed none kw pre n τ) (hc : pre c) (hst : ∀ t t', w.store.hooks.resampleUpdate w.store.data t t' = (.ok (), w.store.data))
    (hs : WellScoped false n) (hw : ∀ i ∈ objects n, w.cond i = none) (hn : Whole n) (hf : Fits μ n c kw) (hm : MeasNode n)
    {h : Env V → PyVal 𝕃 → ℝ≥0∞} (hh : MeasFun h) :
    expect μ (eval n c kw w) (fun r => match r.1 with
      | .ok o => dens o.logWeight.val * h (envOf o.trace) o.output
      | .error _ => 0) = target μ n false (fun _ => none) c kw h := by
  have h0 : w.cond n.id = none := hw n.id (by simp [objects])
  refine C29_properly_weighted n c kw w hs hw (fun r w' hr => ?_) hn hf hm hh
  obtain ⟨o, ho, -⟩ := C60_well_typed ht hc (by rw [h0]; exact hs) (fun i hi => hw i (by simp [objects, hi])) (by rw [h0]; trivial) hst hr
  exact ⟨o, ho⟩

end

section
variable {n b : Nat} {X D Lo : Type} [AddCommMonoid Lo] [Nonempty X] [MeasurableSpace X] {μ : Measure X} [SFinite μ] {lp : D → X → ℝ}
local notation "ℙ" => PopLang n b X D μ lp
local notation "𝕃" => PLang X D Lo lp

/-- C60 for C55: the same for populations with resampling. -/
theorem C60_population [NeZero n] (N : Node ℙ) (m : Node 𝕃) (j : Fin b) (c : PyVal ℙ) (kw : Kw ℙ) (w : World ℙ) (c0 : PyVal 𝕃) (kw0 : Kw 𝕃)
    {pre : PyVal ℙ → Prop} {τ : Ty ℙ} (ht : Typed none kw pre N τ) (hpre : pre c)
    (hst : ∀ t t', w.store.hooks.resampleUpdate w.store.data t t' = (.ok (), w.store.data))
    (hs : WellScoped false N) (hw : ∀ i ∈ objects N, w.cond i = none)
    (hl : ∀ s, LaneNode (particleLane s j) N m) (hN : Resamples (· = systematic false false) N)
    (hc : ∀ s, lanePy (particleLane s j) c = c0) (hkw : ∀ s, laneKw (particleLane s j) kw = kw0) (hf : Fits μ m c0 kw0)
    (hm : MeasNode m) {h : Env X → PyVal 𝕃 → ℝ≥0∞} (hh : MeasFun h) :
    expectT (eval N c kw w) (fun r => match r.1 with
      | .ok o => (∑ s, dens (o.logWeight.val s j) * h (laneEnv (particleLane s j) o.trace) (lanePy (particleLane s j) o.output)) / n
      | .error _ => 0) = target μ m false (fun _ => none) c0 kw0 h := by
  have h0 : w.cond N.id = none := hw N.id (by simp [objects])
  refine C55_population N m j c kw w c0 kw0 hs hw (fun r w' hr => ?_) hl hN hc hkw hf hm hh
  obtain ⟨o, ho, -⟩ := C60_well_typed ht hpre (by rw [h0]; exact hs) (fun i hi => hw i (by simp [objects, hi])) (by rw [h0]; trivial) hst hr
  exact ⟨o, ho⟩

end

/-! The hypotheses can be met. -/
namespace Typed

/-- Draws one variable. -/
def draw (L : Lang) (name : String) (d : L.D) : ProgSpec L where
  name := "Draw"
  sig := { args := ["self", "trace", "c"], varargs := false, kwonly := [], varkw := false }
  debugAttr := none
  model _ _ := .variable name d none none true fun v => .ret (outDict name v)

/-- Propose(draw x, Compose(draw u, Resample(Propose(Extend(draw x, draw z), Compose(draw z, draw x))))). -/
def nest (L : Lang) (d : L.D) (r : ResamplerFn L) : Node L :=
  .propose (mkAttrs 10 none none .none true) (fun t _ => .ok t) false (.prog 11 (draw L "x" d))
    (.compose (mkAttrs 12 none none .none true) (.prog 13 (draw L "u" d))
      (.resample (mkAttrs 0 none none .none true) r
        (.propose (mkAttrs 1 none none .none true) (fun t _ => .ok t) false
          (.extend (mkAttrs 2 none none .none true) (.prog 3 (draw L "x" d)) (.prog 4 (draw L "z" d)))
          (.compose (mkAttrs 5 none none .none true) (.prog 6 (draw L "z" d)) (.prog 7 (draw L "x" d))))))

theorem draw_typed {L : Lang} (i : ObjId) (name : String) (d : L.D) (Γ : Option Names) (pre : PyVal L → Prop) {kw : Kw L} (hk : KwOk kw) :
    Spec.Typed Γ kw pre (.prog i (draw L name d))
      (.plain (single name (if heldIn Γ name then .reused else .sampled))
        (progWeighted Γ (single name (if heldIn Γ name then .reused else .sampled))) fun o => ∃ v, o = outDict name v) :=
  Spec.Typed.prog (bindModel_ok hk (by rfl)) fun _ _ => ⟨rfl, fun v => ⟨rfl, v, rfl⟩⟩

theorem not_observed {L : Lang} (name : String) (Γ : Option Names) (k : String) (w : Prop) (post : PyVal L → Prop) :
    (Ty.plain (single name (if heldIn Γ name then .reused else .sampled)) w post).names k ≠ some .observed := by
  simp only [Ty.plain, single, Function.update]
  split
  · cases heldIn Γ name <;> simp
  · simp

theorem nest_typed {L : Lang} (d : L.D) (r : ResamplerFn L) (kw : Kw L) (hk : KwOk kw)
    (hr : ∀ N t w x, HasNames t N → (r kw.sampleDims kw.batchDim t (.tensor w)).Ret x → ∃ t' w', x = .ok (t', .tensor w') ∧ HasNames t' N) :
    Spec.Typed none kw (fun _ => True) (nest L d r) (.plain (single "x" .reused) True fun o => ∃ v, o = outDict "x" v) := by
  have hq1 := Spec.Typed.compose (Γ := none) (a := mkAttrs 5 none none .none true)
    (draw_typed 7 "x" d none (fun _ : PyVal L => True) hk) (draw_typed 6 "z" d none _ hk)
    (fun k => by
      by_cases h : k = "x"
      · exact Or.inr (single_ne _ (by rw [h]; decide))
      · exact Or.inl (single_ne _ h))
    (fun _ _ l => ⟨l, rfl⟩)
  have hp1 := Spec.Typed.extend (Γ := some (Names.union (single "z" .sampled) (single "x" .sampled))) (a := mkAttrs 2 none none .none true)
    (draw_typed 3 "x" d _ (fun _ : PyVal L => True) hk) (draw_typed 4 "z" d _ _ hk)
    (fun k => by
      by_cases h : k = "x"
      · exact Or.inr (single_ne _ (by rw [h]; decide))
      · exact Or.inl (single_ne _ h))
    (fun k => not_observed _ _ k _ _) (fun h => by cases h) rfl (fun _ _ l => ⟨l, rfl⟩)
  have hd1 : denominator (Names.union (single "z" .sampled) (single "x" .sampled)) (Names.union (single "x" .reused) (single "z" .reused)) "x" := by
    refine Or.inr ⟨by simp [Names.union, single], Or.inr ?_⟩
    simp [Names.union, single]
  have h1 := Spec.Typed.propose (Γ := none) (a := mkAttrs 1 none none .none true) (transf := fun t _ => .ok t) (nr := false) hq1 hp1
    (by simp [Node.debugAttr]) (Or.inr (Or.inr ⟨_, hd1⟩))
    (fun t ht => ⟨t, rfl, fun _ => ⟨_, hd1, by rw [ht.contains_eq]; rfl⟩⟩) (post := fun o => ∃ v, o = outDict "x" v)
    (fun o ho => by obtain ⟨v, rfl⟩ := ho; exact ⟨L.detachV v, rfl⟩) rfl (fun _ _ l => ⟨l, rfl⟩)
  have h2 := Spec.Typed.resample (Γ := none) (a := mkAttrs 0 none none .none true) (r := r) (post := fun o => ∃ v, o = outDict "x" v) h1 trivial
    (fun t w x ht hx => hr _ t w x ht hx)
    (fun o t ho ht => by
      obtain ⟨v, rfl⟩ := ho
      refine ⟨.dict [("x", resampleEntry t ("x", .tensor v))], by simp [resampleOutput, outDict, isTensor], ?_⟩
      have hg := ht.1 "x"
      obtain ⟨rv, hg, -⟩ := Option.map_eq_some_iff.1 (hg.trans (single_self "x" .reused))
      exact ⟨rv.value, by simp [resampleEntry, hg, outDict]⟩)
    (fun _ _ l => ⟨l, rfl⟩)
  have hq3 := Spec.Typed.compose (Γ := none) (a := mkAttrs 12 none none .none true) h2 (draw_typed 13 "u" d none _ hk)
    (fun k => by
      by_cases h : k = "x"
      · exact Or.inr (single_ne _ (by rw [h]; decide))
      · exact Or.inl (single_ne _ h))
    (fun _ _ l => ⟨l, rfl⟩)
  have hd3 : denominator (Names.union (single "u" .sampled) (single "x" .reused)) (single "x" .reused) "x" :=
    Or.inr ⟨by simp [Names.union, single], Or.inr (single_self _ _)⟩
  refine Spec.Typed.propose (Γ := none) (a := mkAttrs 10 none none .none true) (transf := fun t _ => .ok t) (nr := false) hq3
    (draw_typed 11 "x" d _ (fun _ : PyVal L => True) hk)
    (by simp [Node.debugAttr]) (Or.inr (Or.inr ⟨_, hd3⟩))
    (fun t ht => ⟨t, rfl, fun _ => ⟨_, hd3, by rw [ht.contains_eq]; rfl⟩⟩)
    (fun o ho => by obtain ⟨v, rfl⟩ := ho; exact ⟨L.detachV v, rfl⟩) rfl (fun _ _ l => ⟨l, rfl⟩)

end Typed

/-- That nest with systematic resampling of two particles: it never raises, and the result holds just "x", reused. -/
example (r : Except Err (Out (TLang 2 1 Nat Unit fun _ _ _ _ => 0))) (w' : World (TLang 2 1 Nat Unit fun _ _ _ _ => 0))
    (hr : (eval (Typed.nest _ () (systematic false true)) .none { sampleDims := .int 0, batchDim := .int 1 }).Runs
      { cond := fun _ => none, store := Store.init } r w') :
    ∃ o, r = .ok o ∧ HasNames o.trace (single "x" .reused) ∧ o.logWeight ≠ .float0 := by
  obtain ⟨o, h1, -, h2, h3, -⟩ := C60_well_typed (Typed.nest_typed _ _ _ (by intro e he; cases he)
    fun N t w x ht hx => C60_systematic false true rfl t w x ht hx) trivial
    (by simp [Typed.nest, WellScoped, below, Node.id, mkAttrs]) (by intros; rfl) (by trivial) (by intros; rfl) hr
  exact ⟨o, h1, h2, h3.2 trivial⟩

namespace Coin

/-- Propose(Extend(flip x, kernel z), Compose(kernel z, flip x)). -/
noncomputable def nest3 : Node L := .propose (attrs 0) (fun t _ => .ok t) true
  (.extend (attrs 1) (.prog 2 (flip "x" true)) (.prog 3 (kernel "z")))
  (.compose (attrs 4) (.prog 5 (kernel "z")) (.prog 6 (flip "x" false)))

theorem prog_typed (Γ : Option Names) (i : ObjId) (name : String) (s : ProgSpec L) (hs : s.sig = sig)
    (hm : ∀ c kw, ∃ d, s.model c kw = .variable name d none none true fun x => .ret (.tensor x)) :
    Spec.Typed Γ {} (fun _ => True) (.prog i s) (.plain (single name (if heldIn Γ name then .reused else .sampled))
      (progWeighted Γ (single name (if heldIn Γ name then .reused else .sampled))) fun _ => True) := by
  refine Spec.Typed.prog (by rw [hs]; rfl) fun c _ => ?_
  obtain ⟨d, hm⟩ := hm c (receivedKwargs s.sig {})
  rw [hm]
  exact ⟨rfl, fun v => ⟨rfl, trivial⟩⟩

theorem nest3_typed : Spec.Typed none {} (fun _ => True) nest3 (.plain (single "x" .reused) True fun _ => True) := by
  have hdis : ∀ p q, (single "x" p).Disjoint (single "z" q) := fun p q k => by
    by_cases h : k = "x"
    · exact Or.inr (single_ne _ (by rw [h]; decide))
    · exact Or.inl (single_ne _ h)
  have hd : denominator (Names.union (single "z" .sampled) (single "x" .sampled)) (Names.union (single "x" .reused) (single "z" .reused)) "x" := by
    refine Or.inr ⟨by simp [Names.union, single], Or.inr ?_⟩
    simp [Names.union, single]
  have hq := Spec.Typed.compose (Γ := none) (a := attrs 4) (kw := {}) (prog_typed none 6 "x" (flip "x" false) rfl fun _ _ => ⟨_, rfl⟩)
    (prog_typed none 5 "z" (kernel "z") rfl fun _ _ => ⟨_, rfl⟩) (hdis _ _) fun _ _ l => ⟨l, rfl⟩
  have hp := Spec.Typed.extend (Γ := some (Names.union (single "z" .sampled) (single "x" .sampled))) (a := attrs 1) (kw := {})
    (prog_typed _ 2 "x" (flip "x" true) rfl fun _ _ => ⟨_, rfl⟩) (prog_typed _ 3 "z" (kernel "z") rfl fun _ _ => ⟨_, rfl⟩) (hdis _ _)
    (fun k => Typed.not_observed _ _ k _ _) (by intro h; cases h) rfl fun _ _ l => ⟨l, rfl⟩
  exact Spec.Typed.propose (Γ := none) (a := attrs 0) (kw := {}) hq hp (by simp [Node.debugAttr]) (Or.inr (Or.inr ⟨_, hd⟩))
    (fun t ht => ⟨t, rfl, fun _ => ⟨_, hd, by rw [ht.contains_eq]; rfl⟩⟩) (fun _ _ => trivial) rfl fun _ _ l => ⟨l, rfl⟩

end Coin

/-- A nest without resampling, with coins: it meets the hypotheses of C60_properly_weighted. -/
example : (∀ t t', Coin.w0.store.hooks.resampleUpdate Coin.w0.store.data t t' = (.ok (), Coin.w0.store.data)) ∧ WellScoped false Coin.nest3 ∧
    (∀ i ∈ objects Coin.nest3, Coin.w0.cond i = none) ∧ Whole Coin.nest3 ∧ Fits Measure.count Coin.nest3 .none {} ∧ MeasNode Coin.nest3 := by
  refine ⟨fun _ _ => rfl, ?_, fun _ _ => rfl, by simp [Coin.nest3, Whole], ?_, measNode_countable _⟩
  · simp [Coin.nest3, WellScoped, below, Node.id, Coin.attrs, mkAttrs]
  · have hN : ∀ d, Normalised Measure.count Coin.lp d := Coin.normalised
    simp [Coin.nest3, Fits, IsTarget, Covered, reorders_id, alwaysN, always, samplesN, samples, hN, Coin.kernel, Coin.flip,
      Env.lat, List.findSome?, Env.names]
    grind

/-- vsmc with an objective as nvo_avo: every number of steps follows the discipline, … -/
theorem Coin.anneal_typed (K : Nat) : Spec.Typed none { sampleDims := .int 0, batchDim := .int 1 } (fun _ => True)
    (vsmcNode 100 K Coin.annealPop Toy.annealIds (fun o => match o.px with
      | some px => match px.lv with
        | .tensor lv => .ok (-lv 0 0)
        | .float0 => .error .type
      | none => .error .attribute) none (systematic false false) K) (annealTy _ K) := by
  refine C60_vsmc _ _ _ _ _ (fun o k px lv _ hpx hlv => ?_) _ _ (by intro e he; cases he) ?_ K
  · refine ⟨-lv 0 0, ?_⟩
    rw [hpx]
    dsimp only
    rw [hlv]
  · exact fun N t w x ht hx => C60_systematic false false rfl t w x ht hx

/-- … and the further hypotheses of C60_population hold. -/
example (K : Nat) (lossFn : Out (PopLang 2 1 Bool (Bool × Bool) Measure.count Coin.lpU) → Except Err ℝ) :
    let N := vsmcNode 100 K Coin.annealPop Toy.annealIds lossFn none (systematic false false) K
    let m : Node (PLang Bool (Bool × Bool) ℝ Coin.lpU) := Coin.annealSpec.node false true false (fun k => decide (k + 1 < K)) K
    WellScoped false N ∧ (∀ s, LaneNode (particleLane s 0) N m) ∧ Resamples (· = systematic false false) N ∧
      Fits Measure.count m .none { sampleDims := .int 0, batchDim := .int 1 } ∧ MeasNode m := by
  have hV : Vectorises Coin.annealPop Coin.annealSpec 0 := ⟨fun _ => rfl, fun _ _ _ => rfl, fun _ _ _ => rfl, fun _ _ _ => rfl⟩
  have hS : Coin.annealSpec.Norm Measure.count Coin.lpU := ⟨Coin.normalisedU _, fun _ _ => Coin.normalisedU _, fun _ _ => Coin.normalisedU _,
    fun _ => measurable_of_countable _, fun _ => measurable_of_countable _, fun _ => measurable_of_countable _⟩
  exact ⟨vsmcNode_scoped 100 K Coin.annealPop Toy.annealIds Coin.ids_below _ none _ K,
    fun s => vsmcNode_lane 100 K Coin.annealPop Coin.annealSpec 0 hV Toy.annealIds _ none (Or.inl rfl) _ s K,
    vsmcNode_resamples _ _ _ _ _ _ _ _, node_fits _ hS _ _ _ _ K _ _, node_meas _ hS _ _ _ _ K⟩

/-- Where the rules fail: composing two programs with the same name, … -/
example {L : Lang} (d : L.D) (w : World L) (hw : ∀ i, w.cond i = none)
    (hst : ∀ t t', w.store.hooks.resampleUpdate w.store.data t t' = (.ok (), w.store.data)) (r : Except Err (Out L)) (w' : World L)
    (hr : (eval (.compose (mkAttrs 0 none none .none false) (.prog 1 (Typed.draw L "x" d)) (.prog 2 (Typed.draw L "x" d))) .none {}).Runs w r w') :
    r = .error .assertion :=
  C60_compose_exact (Γ := none) (Typed.draw_typed 2 "x" d none (fun _ => True) (by intro e he; cases he))
    (Typed.draw_typed 1 "x" d none _ (by intro e he; cases he)) (fun h => by rcases h "x" with h | h <;> cases h) trivial
    (by simp [mkAttrs, WellScoped, below, Node.id, hw]) (fun _ _ => hw _) (by rw [hw]; trivial) hst hr

/-- … extending by a program that shares a name, … -/
example {L : Lang} (d : L.D) (w : World L) (hw : ∀ i, w.cond i = none)
    (hst : ∀ t t', w.store.hooks.resampleUpdate w.store.data t t' = (.ok (), w.store.data)) (r : Except Err (Out L)) (w' : World L)
    (hr : (eval (.extend (mkAttrs 0 none none .none false) (.prog 1 (Typed.draw L "x" d)) (.prog 2 (Typed.draw L "x" d))) .none {}).Runs w r w') :
    r = .error .assertion :=
  C60_extend_exact (Γ := none) (Typed.draw_typed 1 "x" d none (fun _ => True) (by intro e he; cases he))
    (Typed.draw_typed 2 "x" d none _ (by intro e he; cases he)) (Or.inl fun h => by rcases h "x" with h | h <;> cases h) trivial
    (by simp [mkAttrs, WellScoped, below, Node.id, hw]) (fun _ _ => hw _) (by rw [hw]; trivial) hst hr

/-- … and proposing with a bare program. -/
example {L : Lang} (d : L.D) (w : World L) (hw : ∀ i, w.cond i = none)
    (hst : ∀ t t', w.store.hooks.resampleUpdate w.store.data t t' = (.ok (), w.store.data)) (r : Except Err (Out L)) (w' : World L)
    (hr : (eval (.propose (mkAttrs 0 none none .none false) (fun t _ => .ok t) false (.prog 1 (Typed.draw L "x" d))
      (.prog 2 (Typed.draw L "x" d))) .none {}).Runs w r w') : ∃ e, r = .error e :=
  C60_propose_exact (Γ := none) (Typed.draw_typed 2 "x" d none (fun _ => True) (by intro e he; cases he))
    (Typed.draw_typed 1 "x" d _ _ (by intro e he; cases he)) (Or.inl rfl) trivial
    (by simp [mkAttrs, WellScoped, below, Node.id, hw]) (fun _ _ => hw _) (by rw [hw]; trivial) hst hr

end Verif
