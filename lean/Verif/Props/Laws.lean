import Verif.Proofs.Laws
import Verif.Props.Scoping
import Verif.Props.Combinators
import Verif.Props.Programs
import Verif.Props.Weighting
/-
C61: which rewritings of nests are sound.
-/
namespace Verif
open Spec MeasureTheory
open scoped ENNReal
variable {L : Lang}

/-- C61. Compose is associative: both ways of composing three objects (with the default loss and index) draw the same, and return the
same variables, log weight, output and loss, or both raise. -/
theorem C61_compose_assoc (i j i' j' : ObjId) (d e d' e' : Bool) (x y z : Node L) (c : PyVal L) (kw : Kw L) (w : World L) :
    Agree (fun o o' => SameResult o o' ∧ SameLoss o o')
      (eval (.compose (mkAttrs i none none .none d) (.compose (mkAttrs j none none .none e) x y) z) c kw w)
      (eval (.compose (mkAttrs i' none none .none d') x (.compose (mkAttrs j' none none .none e') y z)) c kw w) := by
  have hkw : ∀ i d, childKw (mkAttrs (L := L) i none none .none d) kw = kw := fun _ _ => rfl
  simp only [eval_compose_eq, hkw, Exec.bind_assoc']
  refine Agree.bind (Agree.refl _) ?_
  rintro oz _ w1 - - rfl
  refine Agree.bind (Agree.refl _) ?_
  rintro oy _ w2 - - rfl
  rcases compose_default j' e' kw oz oy with ⟨h1, h2⟩ | ⟨h1, oyz, h2, hu, hlw, ho, hl⟩
  · rw [h2]
    refine Agree.fail (fails_bind fun ox w3 _ => ?_) (fails_error _ _)
    rcases compose_default j e kw oy ox with ⟨h3, h4⟩ | ⟨h3, oxy, h4, hu', -⟩
    · rw [h4]
      exact fails_error _ _
    · rw [h4]
      rcases compose_default i d kw oz oxy with ⟨-, h5⟩ | ⟨h5, -⟩
      · show Fails ((Exec.lift _ : Exec L _) w3)
        rw [h5]
        exact fails_error _ _
      · obtain ⟨k, hk1, hk2⟩ := h1
        exact absurd ⟨k, hk1, (union_keys hu' k).2 (Or.inr hk2)⟩ h5
  · rw [h2]
    show Agree _ (Exec.bind _ _ w2) (Exec.bind (eval x oyz.output kw) _ w2)
    rw [ho]
    refine Agree.bind (Agree.refl _) ?_
    rintro ox _ w3 - - rfl
    rcases compose_default j e kw oy ox with ⟨h3, h4⟩ | ⟨h3, oxy, h4, hu', hlw', ho', hl'⟩
    · rw [h4]
      refine Agree.fail (fails_error _ _) ?_
      rcases compose_default i' d' kw oyz ox with ⟨-, h5⟩ | ⟨h5, -⟩
      · rw [h5]
        exact fails_error _ _
      · obtain ⟨k, hk1, hk2⟩ := h3
        exact absurd ⟨k, (union_keys hu k).2 (Or.inl hk1), hk2⟩ h5
    · rw [h4]
      refine Agree.lift ?_
      rcases compose_default i d kw oz oxy with ⟨⟨k, hk1, hk2⟩, h5⟩ | ⟨h5, o, h5', hu1, hlw1, ho1, hl1⟩
      · refine Or.inr ⟨⟨_, h5⟩, ?_⟩
        rcases compose_default i' d' kw oyz ox with ⟨-, h6⟩ | ⟨h6, -⟩
        · exact ⟨_, h6⟩
        · rcases (union_keys hu' k).1 hk2 with h | h
          · exact absurd ⟨k, (union_keys hu k).2 (Or.inr hk1), h⟩ h6
          · exact absurd ⟨k, hk1, h⟩ h1
      · rcases compose_default i' d' kw oyz ox with ⟨⟨k, hk1, hk2⟩, h6⟩ | ⟨h6, o', h6', hu2, hlw2, ho2, hl2⟩
        · exfalso
          rcases (union_keys hu k).1 hk1 with h | h
          · exact h3 ⟨k, h, hk2⟩
          · exact h5 ⟨k, h, (union_keys hu' k).2 (Or.inl hk2)⟩
        · refine Or.inl ⟨o, o', h5', h6', ⟨fun k => ?_, ?_, ?_⟩, ?_⟩
          · rw [union_get hu1, union_get hu', union_get hu2, union_get hu, Option.or_assoc]
          · rw [hlw1, hlw', hlw2, hlw, LW.add_assoc']
          · rw [ho1, ho', ho2]
          · rw [SameLoss, hl1, hl2, hl]
            rfl

/-- C61. A program that records nothing and returns its input is a unit: `Compose(identity, q)` is `q`. -/
theorem C61_compose_identity (i j : ObjId) (d : Bool) (s : ProgSpec L) (hs : IsIdentity s) (q : Node L) (c : PyVal L) (kw : Kw L) (w : World L)
    (hb : bindModel s.sig (receivedKwargs s.sig kw) = .ok ()) :
    Agree (fun o o' => SameResult o o' ∧ SameLoss o o') (eval (.compose (mkAttrs i none none .none d) (.prog j s) q) c kw w) (eval q c kw w) := by
  have hkw : ∀ i d, childKw (mkAttrs (L := L) i none none .none d) kw = kw := fun _ _ => rfl
  have hq : eval q c kw = Exec.bind (eval q c kw) Exec.pure := by
    rw [← Exec.bind_eq]
    exact (bind_pure _).symm
  rw [eval_compose_eq, hkw]
  conv => rhs; rw [hq]
  refine Agree.bind (Agree.refl _) ?_
  rintro o _ w1 - - rfl
  simp only [Exec.bind]
  rw [eval_prog_apply, hb, hs]
  simp only [runModel, Exec.pure, Comp.bind_ret]
  rcases compose_default i d kw o (Out.mk Dict.empty (logJoint Dict.empty (weightNodes (w1.cond j) Dict.empty)) o.output (.program s.name) none none none none []) with
    ⟨⟨k, -, hk⟩, -⟩ | ⟨-, o', h, hu, hlw, ho, hl⟩
  · cases hk
  · rw [h]
    refine Agree.ok ⟨⟨fun k => ?_, ?_, ?_⟩, ?_⟩
    · rw [union_get hu]
      rfl
    · rw [hlw]
      show o.logWeight.add .float0 = _
      cases o.logWeight <;> rfl
    · exact ho
    · rw [SameLoss, hl]
      rfl

/-- C61. On the other side it is a unit up to the loss: `Compose(q, identity)` is `q`, but the loss of `q` is lost (Compose takes the
loss of its first part only, C13). -/
theorem C61_compose_identity_right (i j : ObjId) (d : Bool) (s : ProgSpec L) (hs : IsIdentity s) (q : Node L) (c : PyVal L) (kw : Kw L) (w : World L)
    (hb : bindModel s.sig (receivedKwargs s.sig kw) = .ok ()) :
    Agree (fun o o' => SameResult o o' ∧ o.loss = some 0) (eval (.compose (mkAttrs i none none .none d) q (.prog j s)) c kw w) (eval q c kw w) := by
  have hkw : ∀ i d, childKw (mkAttrs (L := L) i none none .none d) kw = kw := fun _ _ => rfl
  have hq : eval q c kw = Exec.bind (eval q c kw) Exec.pure := by
    rw [← Exec.bind_eq]
    exact (bind_pure _).symm
  rw [eval_compose_eq, hkw]
  rw [Exec.bind, eval_prog_apply, hb, hs]
  simp only [runModel, Exec.pure, Comp.bind_ret]
  conv => rhs; rw [hq]
  refine Agree.bind (Agree.refl _) ?_
  rintro o _ w1 - - rfl
  rcases compose_default i d kw (Out.mk Dict.empty (logJoint Dict.empty (weightNodes (w.cond j) Dict.empty)) c (.program s.name) none none none none []) o with
    ⟨⟨k, hk, -⟩, -⟩ | ⟨-, o', h, hu, hlw, ho, hl⟩
  · cases hk
  · rw [h]
    refine Agree.ok ⟨⟨fun k => ?_, ?_, ?_⟩, ?_⟩
    · rw [union_get hu]
      cases o.trace.get? k <;> rfl
    · rw [hlw]
      show LW.add .float0 o.logWeight = _
      cases o.logWeight <;> rfl
    · exact ho
    · rw [hl]
      rfl

/-- C61. Without a conditioning trace, extending twice is extending by the composed kernels. -/
theorem C61_extend_twice (i j i' j' m n : ObjId) (d e d' e' : Bool) (p : Node L) (f g : ProgSpec L) (c : PyVal L) (kw : Kw L) (w : World L)
    (hp : WellScoped false p) (hw : ∀ i, w.cond i = none) :
    Agree (fun o o' => SameResult o o' ∧ SameLoss o o')
      (eval (.extend (mkAttrs i none none .none d) (.extend (mkAttrs j none none .none e) p (.prog m f)) (.prog n g)) c kw w)
      (eval (.extend (mkAttrs i' none none .none d') p (.compose (mkAttrs j' none none .none e') (.prog n g) (.prog m f))) c kw w) := by
  have hkw : ∀ i d, childKw (mkAttrs (L := L) i none none .none d) kw = kw := fun _ _ => rfl
  rw [C05_lexical _ c kw w (by rw [hw]; simp [WellScoped, hp]) fun i _ => hw i, C05_lexical _ c kw w (by rw [hw]; simp [WellScoped, hp]) fun i _ => hw i, hw, hw]
  have ex : ∀ (a : Attrs L) (p f : Node L) (c : PyVal L), evalP (.extend a p f) none c kw = (evalP p none c (childKw a kw)).bind fun po =>
      (evalP f none po.output (childKw a kw)).bind fun fo => Exec.lift (extendRest a kw none po fo) := fun _ _ _ _ => rfl
  have co : ∀ (a : Attrs L) (p f : Node L) (c : PyVal L), evalP (.compose a p f) none c kw = (evalP f none c (childKw a kw)).bind fun po =>
      (evalP p none po.output (childKw a kw)).bind fun fo => Exec.lift (composeRest a kw po fo) := fun _ _ _ _ => rfl
  simp only [ex, co, hkw, Exec.bind_assoc']
  refine Agree.bind (Agree.refl _) ?_
  rintro po _ w1 - - rfl
  refine Agree.bind (Agree.refl _) ?_
  rintro fo _ w2 hfr - rfl
  have hf := evalP_prog_float hfr
  rcases extend_default j e kw po fo with ⟨h1, h2⟩ | ⟨h1, h1k, pf, h2, hu, hlw, hlf, ho, hl⟩
  · rw [h2]
    refine Agree.fail (fails_error _ _) (fails_bind fun go w3 hgr => ?_)
    rcases compose_default j' e' kw fo go with ⟨-, h4⟩ | ⟨h4o, gf, h4, hu', hlw', -⟩
    · rw [h4]
      exact fails_error _ _
    · rw [h4]
      rcases extend_default i' d' kw po gf with ⟨-, h5⟩ | ⟨h5, h5k, -⟩
      · show Fails ((Exec.lift _ : Exec L _) w3)
        rw [h5]
        exact fails_error _ _
      · exfalso
        rcases h1 with ⟨k, hk1, hk2⟩ | h1
        · exact h5 ⟨k, hk1, (union_keys hu' k).2 (Or.inr hk2)⟩
        · exact h1 ((kernelOK_union hf (evalP_prog_float hgr) hu' h4o hlw').1 h5k).1
  · rw [h2]
    show Agree _ (Exec.bind (evalP (.prog n g) none pf.output kw) _ w2) _
    rw [ho]
    refine Agree.bind (Agree.refl _) ?_
    rintro go _ w3 hgr - rfl
    have hg := evalP_prog_float hgr
    rcases compose_default j' e' kw fo go with ⟨⟨k, hk1, hk2⟩, h4⟩ | ⟨h4o, gf, h4, hu', hlw', ho', hl'⟩
    · rw [h4]
      refine Agree.fail ?_ (fails_error _ _)
      rcases extend_default i d kw pf go with ⟨-, h5⟩ | ⟨h5, -⟩
      · rw [h5]
        exact fails_error _ _
      · exact absurd ⟨k, (union_keys hu k).2 (Or.inr hk1), hk2⟩ h5
    · rw [h4]
      refine Agree.lift ?_
      have hkk := kernelOK_union hf hg hu' h4o hlw'
      rcases extend_default i d kw pf go with ⟨h5, h5e⟩ | ⟨h5, h5k, o, h5e, hu1, hlw1, hlf1, ho1, hl1⟩
      · refine Or.inr ⟨⟨_, h5e⟩, ?_⟩
        rcases extend_default i' d' kw po gf with ⟨-, h6⟩ | ⟨h6, h6k, -⟩
        · exact ⟨_, h6⟩
        · exfalso
          rcases h5 with ⟨k, hk1, hk2⟩ | h5
          · rcases (union_keys hu k).1 hk1 with h | h
            · exact h6 ⟨k, h, (union_keys hu' k).2 (Or.inl hk2)⟩
            · exact h4o ⟨k, h, hk2⟩
          · exact h5 (hkk.1 h6k).2
      · rcases extend_default i' d' kw po gf with ⟨h6, -⟩ | ⟨h6, h6k, o', h6e, hu2, hlw2, hlf2, ho2, hl2⟩
        · exfalso
          rcases h6 with ⟨k, hk1, hk2⟩ | h6
          · rcases (union_keys hu' k).1 hk2 with h | h
            · exact h5 ⟨k, (union_keys hu k).2 (Or.inl hk1), h⟩
            · exact h1 ⟨k, hk1, h⟩
          · exact h6 (hkk.2 ⟨h1k, h5k⟩)
        · refine Or.inl ⟨o, o', h5e, h6e, ⟨fun k => ?_, ?_, ?_⟩, ?_⟩
          · rw [union_get hu1, union_get hu, union_get hu2, union_get hu', Option.or_assoc]
            congr 1
            cases hfk : fo.trace.get? k with
            | none => cases go.trace.get? k <;> rfl
            | some rv =>
              rw [get_none_of_not_mem (t := go.trace) fun hk => h4o ⟨k, Dict.mem_keys_iff.2 ⟨rv, hfk⟩, hk⟩]
              rfl
          · have hv : o.logWeight.val = o'.logWeight.val := by
              rw [hlw1, hlw, hlw2, sumLogProb_union hu', add_assoc, add_comm (sumLogProb fo.trace _)]
            have hz : o.logWeight = .float0 ↔ o'.logWeight = .float0 := by
              rw [hlf1, hlf, hlf2, hu', List.append_eq_nil_iff]
              exact ⟨fun h => ⟨h.1.1, h.2, h.1.2⟩, fun h => ⟨⟨h.1, h.2.2⟩, h.2.1⟩⟩
            exact LW.ext' hv hz
          · rw [ho1, ho2, ho']
          · rw [SameLoss, hl1, hl2, hl]
            rfl

/-- What a program proposed by itself weighs. -/
theorem self_proposal_aux {i k : ObjId} {s : ProgSpec L} {c : PyVal L} {kw : Kw L} {w w1 w2 w3 : World L} {qo po : Out L}
    (hs : ∀ c kws, Replayable (s.model c kws)) (hst : w2.store = w.store) (hk : w.cond k = none)
    (h : (eval (.prog k s) c kw).Runs w (.ok qo) w1) (h2 : (eval (.prog i s) c kw).Runs (w2.setCond i (some qo.trace)) (.ok po) w3) :
    qo.logWeight.val + po.logWeight.val - sumLogProb qo.trace (InDenominator po.trace) =
      sumLogProb qo.trace (fun _ rv => rv.prov == .observed) := by
  obtain ⟨o2, w2', e, h3, h4, -, -, -, h5⟩ := C03_replay k i s c kw w w2 w1 qo hs hst h
  rw [Exec.Runs, e] at h2
  cases h2
  have hd : sumLogProb qo.trace (InDenominator po.trace) = sumLogProb qo.trace (fun _ _ => true) := by
    refine sumLogProb_congr _ fun k rv hk => ?_
    have : k ∈ po.trace.keys := by
      rw [h3]
      exact Dict.mem_keys_iff.2 ⟨rv, hk⟩
    obtain ⟨rv', hk'⟩ := Dict.mem_keys_iff.1 this
    have := (h4 k rv rv' hk hk').2
    unfold InDenominator
    rw [hk']
    cases hp : rv.prov <;> simp_all
  rw [hd, h5, add_sub_cancel_right]
  exact C01_unconditioned_weight k s c kw w w1 qo hk h

/-- C61. A program proposed by itself: the weight is that of its observations alone, whatever was drawn (with `Compose(identity, ·)`
around the proposal, since Propose does not take a bare Program as its proposal, C11). -/
theorem C61_self_proposal (a : Attrs L) (nr : Bool) (i j k b : ObjId) (d : Bool) (s u : ProgSpec L) (hs : ∀ c kws, Replayable (s.model c kws))
    (hu : IsIdentity u) (c : PyVal L) (kw : Kw L) (w w' : World L) (o : Out L)
    (hst : ∀ o' w1, (eval (.prog k s) c (subKw a kw)).Runs w (.ok o') w1 → w1.store = w.store) (hk : w.cond k = none)
    (h : (eval (.propose a (fun t _ => .ok t) nr (.prog i s) (.compose (mkAttrs b none none .none d) (.prog j u) (.prog k s))) c kw).Runs w (.ok o) w') :
    ∃ x, o.px = some x ∧ o.logWeight = .tensor (L.detachW (sumLogProb x.proposalTrace (fun _ rv => rv.prov == .observed))) := by
  obtain ⟨qo, po, w1, w2, h1, h2, -, h4, x, hx, -, -, hxt, -⟩ := C09_importance_weight _ _ _ _ _ _ _ _ _ h
  refine ⟨x, hx, ?_⟩
  rw [h4, hxt]
  rw [eval_compose_Runs] at h1
  rcases h1 with ⟨e, h1, -⟩ | ⟨o1, w11, h1, ⟨e, h5, -⟩ | ⟨o2, h5, h6⟩⟩
  · cases h1
  · cases h5
  have hb : subKw (mkAttrs b none none .none d) (subKw a kw) = subKw a kw := rfl
  rw [hb] at h1 h5
  rw [eval_prog_Runs, hu] at h5
  obtain ⟨-, out, t, h5, rfl⟩ := h5
  simp only [runModel, Exec.Runs_pure] at h5
  obtain ⟨h5, rfl⟩ := h5
  obtain ⟨hut, -, hlw⟩ := composeRest_ok h6.symm
  simp only [Out.trace_mk, Out.logWeight_mk] at hut hlw
  have e1 : qo.trace = o1.trace := by
    cases hq : qo.trace with
    | mk l hl => cases hq1 : o1.trace with
      | mk l1 hl1 =>
        have : l = l1 := by
          have := hut
          rw [IsUnion, hq, hq1] at this
          exact this
        subst this
        rfl
  have e2 : qo.logWeight.val = o1.logWeight.val := by
    rw [hlw]
    exact add_zero _
  rw [e1] at h2 ⊢
  rw [e2, self_proposal_aux hs (hst _ _ h1) hk h1 h2]

/-- C61. Proposing twice: if the latent variables of the first target that the proposal provides are those that the second target
reuses, then the first target's densities cancel, and the weight is the one of a single step from the proposal to the second target
(on the variables of the first). -/
theorem C61_telescope (a1 a2 : Attrs L) (nr2 : Bool) (i1 i2 : ObjId) (s1 s2 : ProgSpec L) (q : Node L) (c : PyVal L) (kw : Kw L) (w w' : World L)
    (o : Out L) (hd : ∀ x, L.detachW x = x)
    (h : (eval (.propose a2 (fun t _ => .ok t) nr2 (.prog i2 s2) (.propose a1 (fun t _ => .ok t) true (.prog i1 s1) q)) c kw).Runs w (.ok o) w') :
    ∃ (qo po1 po2 : Out L) (w1 w2 w3 w4 : World L), (eval q c (subKw a1 (subKw a2 kw))).Runs w (.ok qo) w1 ∧
      (eval (.prog i1 s1) c (subKw a1 (subKw a2 kw))).Runs (w1.setCond i1 (some qo.trace)) (.ok po1) w2 ∧
      (eval (.prog i2 s2) c (subKw a2 kw)).Runs (w3.setCond i2 (some po1.trace)) (.ok po2) w4 ∧
      ((∀ k rv, po1.trace.get? k = some rv → rv.prov ≠ .observed →
          ((∃ rv', qo.trace.get? k = some rv' ∧ rv'.prov ≠ .observed) ↔ ∃ rv', po2.trace.get? k = some rv' ∧ rv'.prov ≠ .observed)) →
        o.logWeight = .tensor (qo.logWeight.val + po2.logWeight.val - sumLogProb qo.trace (InDenominator po1.trace))) := by
  obtain ⟨qo1, po2, w3, w4, h1, h2, -, h4, -⟩ := C09_importance_weight _ _ _ _ _ _ _ _ _ h
  obtain ⟨qo, po1, w1, w2, h5, h6, h7, h8⟩ := eval_propose_ok h1
  obtain ⟨-, -, -, -, -, -, -, h9, -⟩ := C09_importance_weight _ _ _ _ _ _ _ _ _ h1
  obtain ⟨qt, m, t, fwd, lv, x, e1, e2, e3, e4, e5, -, e6⟩ := proposeRest_ok h8
  cases e1
  cases e4
  obtain ⟨l, -, rfl⟩ := finish_ok e6
  rw [if_pos rfl] at e5
  subst e5
  refine ⟨qo, po1, po2, w1, w2, w3, w4, h5, h6, h2, fun hshare => ?_⟩
  rw [h4, hd]
  simp only [Out.setLoss_mk, Out.setSubs_mk, Out.logWeight_mk, Out.trace_mk, hd, LW.val_tensor]
  have hp1 := C02_conditioned_weight i1 s1 _ _ _ _ _ qo.trace (by simp [World.setCond, Node.id]) h6
  have hs : sumLogProb qo.trace (fun k _ => proposeNodes qo.trace po1.trace k) =
      sumLogProb qo.trace (InDenominator po1.trace) :=
    sumLogProb_congr _ fun k rv hk => proposeNodes_eq _ _ _ _ hk
  have hden : sumLogProb po1.trace (InDenominator po2.trace) = po1.logWeight.val := by
    rw [hp1]
    refine sumLogProb_congr _ fun k rv hk => ?_
    by_cases hp : rv.prov = .observed
    · simp [InDenominator, hp]
    · have hi := hshare k rv hk hp
      have hl : InDenominator po2.trace k rv = true ↔ ∃ rv', po2.trace.get? k = some rv' ∧ rv'.prov ≠ .observed := by
        unfold InDenominator
        cases hg : po2.trace.get? k <;> cases hr : rv.prov <;> simp_all
      have hr : (rv.prov == .observed || (match qo.trace.get? k with | some rv' => rv'.prov != .observed | none => false)) = true ↔
          ∃ rv', qo.trace.get? k = some rv' ∧ rv'.prov ≠ .observed := by
        cases hg : qo.trace.get? k <;> simp [hp]
      rw [Bool.eq_iff_iff, hl]
      exact hi.symm.trans hr.symm
  rw [e3, e2, hs, hden]
  congr 1
  abel

section
variable {V D Lo : Type} [AddCommGroup Lo] {lp : D → V → ℝ} [MeasurableSpace V] {μ : Measure V}

/-- C61, what agreement is good for: nothing that is computed from the results of calls can tell the two sides apart. -/
theorem C61_same_expectation {α : Type} {R : α → α → Prop} {m m' : Comp (PLang V D Lo lp) (Except Err α × World (PLang V D Lo lp))} (h : Agree R m m')
    (g g' : α → ℝ≥0∞) (hg : ∀ o o', R o o' → g o = g' o') :
    expect μ m (fun r => match r.1 with | .ok o => g o | .error _ => 0) = expect μ m' (fun r => match r.1 with | .ok o => g' o | .error _ => 0) := by
  have hz : ∀ (m : Comp (PLang V D Lo lp) (Except Err α × World (PLang V D Lo lp))), Fails m → ∀ g : α → ℝ≥0∞,
      expect μ m (fun r => match r.1 with | .ok o => g o | .error _ => 0) = 0 := by
    intro m hm g
    induction m with
    | ret r =>
      obtain ⟨e, he⟩ := hm r rfl
      rcases r with ⟨r, w⟩
      cases he
      rfl
    | draw d b k ih =>
      simp only [expect, ih _ fun r hr => hm r ⟨_, hr⟩, mul_zero, lintegral_zero]
    | rand k ih => exact ih () fun r hr => hm r ⟨_, hr⟩
  induction h with
  | ok h => exact hg _ _ h
  | fail h h' => rw [hz _ h, hz _ h']
  | draw h ih => simp only [expect, ih]
  | rand h ih => exact ih ()

end

/-- Two Extends as the target of a Propose, and … -/
noncomputable def Coin.nestedExtends : Node Coin.L := .propose (Coin.attrs 0) (fun t _ => .ok t) true
  (.extend (Coin.attrs 4) (.extend (Coin.attrs 5) (.prog 6 Coin.noop) (.prog 7 (Coin.flip "z" true))) (.prog 8 Coin.noop))
  (.compose (Coin.attrs 1) (.prog 2 Coin.noop) (.prog 3 (Coin.flip "z" false)))

/-- … one Extend with the composed kernels. -/
noncomputable def Coin.composedKernels : Node Coin.L := .propose (Coin.attrs 0) (fun t _ => .ok t) true
  (.extend (Coin.attrs 4) (.prog 6 Coin.noop) (.compose (Coin.attrs 5) (.prog 8 Coin.noop) (.prog 7 (Coin.flip "z" true))))
  (.compose (Coin.attrs 1) (.prog 2 Coin.noop) (.prog 3 (Coin.flip "z" false)))

set_option maxHeartbeats 1000000 in
/-- C61, the law of Extend is only for calls without a conditioning trace. As the target of a Propose the two differ: Compose does not
pass the conditioning trace on, so that its parts sample anew and count a density that the proposal's draw is then divided by. The
mean weight of the nested Extends is the normalising constant 1, that of Extend with the composed kernels 5/4. -/
theorem C61_compose_kernel_conditioned :
    expect Measure.count (eval Coin.nestedExtends .none {} Coin.w0) (fun r => match r.1 with
      | .ok o => dens o.logWeight.val
      | .error _ => 0) = 1 ∧
    expect Measure.count (eval Coin.composedKernels .none {} Coin.w0) (fun r => match r.1 with
      | .ok o => dens o.logWeight.val
      | .error _ => 0) = ENNReal.ofReal (5 / 4) := by
  constructor
  · refine Eq.trans (congrArg (expect Measure.count (eval Coin.nestedExtends .none {} Coin.w0)) (funext fun r => ?_))
      ((C29_normaliser (μ := Measure.count) (lp := Coin.lp) Coin.nestedExtends .none {} Coin.w0 ?_ (fun _ _ => rfl) ?_ ?_ ?_ (measNode_countable _)).trans ?_)
    · rcases r with ⟨e | o, w⟩ <;> rfl
    · simp [Coin.nestedExtends, WellScoped, below, Node.id, Coin.attrs, mkAttrs]
    · exact Coin.neverRaises_spec (by decide +kernel)
    · simp [Coin.nestedExtends, Whole]
    · have hN : ∀ d, Normalised Measure.count Coin.lp d := Coin.normalised
      simp [Fits, IsTarget, Covered, reorders_id, alwaysN, always, samplesN, samples, hN, Coin.nestedExtends, Coin.noop, Coin.flip,
        Env.lat, List.findSome?, Env.names]
    · show ∫⁻ v, dens (Coin.lp true v) * 1 ∂Measure.count = 1
      simp only [mul_one]
      exact (Coin.normalised true).2
  · have hr : ∀ z z', dens (Coin.lp true z' - Coin.lp false z) = ENNReal.ofReal (2 * Coin.prob true z') := by
      intro z z'
      rw [dens, Real.exp_sub, Coin.lp, Coin.lp, Real.exp_log (Coin.prob_pos _ _), Real.exp_log (Coin.prob_pos _ _)]
      congr 1
      simp only [Coin.prob]
      ring_nf
      simp
    have e : expect Measure.count (eval Coin.composedKernels .none {} Coin.w0) (fun r => match r.1 with
      | .ok o => dens o.logWeight.val
      | .error _ => 0) =
      ∫⁻ z, dens (Coin.lp false z) * ∫⁻ z', dens (Coin.lp true z') * dens (Coin.lp true z' - Coin.lp false z) ∂Measure.count ∂Measure.count := rfl
    rw [e]
    simp only [hr]
    rw [lintegral_mul_const _ (measurable_of_countable _), (Coin.normalised false).2, one_mul, Coin.lintegral_bool]
    simp only [Coin.dens_lp]
    rw [← ENNReal.ofReal_mul (Coin.prob_pos _ _).le, ← ENNReal.ofReal_mul (Coin.prob_pos _ _).le, ← ENNReal.ofReal_add (by norm_num [Coin.prob]) (by norm_num [Coin.prob])]
    congr 1
    norm_num [Coin.prob]

/-- The hypotheses can be met: an identity program, … -/
example : IsIdentity Coin.noop ∧ bindModel Coin.noop.sig (receivedKwargs Coin.noop.sig ({} : Kw Coin.L)) = .ok () :=
  ⟨fun _ _ => rfl, rfl⟩

/-- … a target for two Extends, … -/
example : WellScoped false (.prog 1 (Coin.flip "x" false)) ∧ ∀ i, Coin.w0.cond i = none := ⟨trivial, fun _ => rfl⟩

/-- A program that does nothing. -/
def Toy.idle : ProgSpec Toy.L where
  name := "Idle"
  sig := Toy.sig
  debugAttr := none
  model c _ := .ret c

/-- … a program that is proposed by itself, with an observation (x = 5, and y = 6 with distribution 3), … -/
example : (∀ c kws, Replayable (Toy.obsModel.model c kws)) ∧ ∃ o w', (eval (.propose (mkAttrs 0 none none .none false) (fun t _ => .ok t) true (.prog 1 Toy.obsModel)
    (.compose (mkAttrs 2 none none .none false) (.prog 3 Toy.idle) (.prog 4 Toy.obsModel))) .none {}).Runs Toy.w0 (.ok o) w' ∧ o.logWeight = .tensor (18, 0) := by
  constructor
  · intro c kws
    simp only [Toy.obsModel, Replayable]
    intro v
    split <;> simp [Replayable]
  · have h : ∃ r w', (eval (.propose (mkAttrs 0 none none .none false) (fun t _ => .ok t) true (.prog 1 Toy.obsModel)
        (.compose (mkAttrs 2 none none .none false) (.prog 3 Toy.idle) (.prog 4 Toy.obsModel))) .none {}).Runs Toy.w0 r w' ∧
        (match r with | .ok o => o.logWeight = .tensor (18, 0) | .error _ => False) :=
      ⟨_, _, ⟨(5, 0), rfl⟩, rfl⟩
    obtain ⟨r | o, w', h1, h2⟩ := h
    · exact h2.elim
    · exact ⟨o, w', h1, h2⟩

/-- … and two targets in a row. -/
example : (∀ x, Coin.L.detachW x = x) ∧ ∃ o w', (eval (.propose (Coin.attrs 0) (fun t _ => .ok t) true (.prog 1 (Coin.flip "x" true))
    (.propose (Coin.attrs 2) (fun t _ => .ok t) true (.prog 3 (Coin.flip "x" false))
      (.compose (Coin.attrs 4) (.prog 5 Coin.noop) (.prog 6 (Coin.flip "x" true))))) .none {}).Runs Coin.w0 (.ok o) w' :=
  ⟨fun _ => rfl, _, _, true, rfl⟩

end Verif
