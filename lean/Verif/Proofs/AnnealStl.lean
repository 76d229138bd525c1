import Verif.Proofs.AnnealChain
import Verif.Spec.Gradients
/-
vsmc when the transformation of the proposal's trace changes the forward kernel's log probability (stl_trace as a function of the parameters): the lemmas of `Proofs/Annealing` and
`Proofs/AnnealChain` with the transformed distribution in the weight.
-/
namespace Verif
variable {L : Lang}

/-- The transformation of the proposal's trace replaces the new variable's distribution `d` by `ψ d`. -/
def TransfTo (ψ : L.D → L.D) (k : Nat) (a b : String) (transf : Option (Trace L → Kw L → Except Err (Trace L))) : Prop :=
  ∀ (h : b ≠ a) (d : L.D) (v : L.V) (rep : Bool) (ra : RV L) (kw : Kw L), kw.ix = .int k → ∃ qt,
    (transf.getD fun t _ => .ok t) (tr2 b (RV.mk' d v .sampled rep) a ra h) kw = .ok qt ∧
      ∀ nodes : String → Bool, nodes a = true → nodes b = true →
        logJoint qt nodes = .tensor (L.logProb (ψ d) v + ra.logProb)

theorem TransfTo_none (k : Nat) (a b : String) : TransfTo (L := L) id k a b none := TransfOk_none k a b

theorem TransfTo_stl (detachD : L.D → L.D) (weq : L.W → L.W → Bool) (hw : ∀ d v, weq (L.logProb d v) (L.logProb (detachD d) v) = true) (k : Nat) :
    TransfTo detachD k (gname k) (gname (k + 1)) (some (stlTrace detachD weq)) := by
  intro h d v rep ra kw hix
  refine ⟨tr2 (gname k) ra (gname (k + 1)) (RV.mk' (detachD d) v .sampled rep) h.symm, ?_, ?_⟩
  · show stlTrace detachD weq _ kw = _
    simp only [stlTrace, hix, gname_succ]
    have h1 : pyStrIn (gname k) (gname (k + 1)) = false := by
      rw [Bool.eq_false_iff]; intro h; exact not_prefix_succ k ((gname_in_iff _ _).mp h)
    have h2 : pyStrIn (gname (k + 1)) (gname (k + 1)) = true := (gname_in_iff _ _).mpr List.prefix_rfl
    rw [copytraces_single]
    have h3 : Dict.filterKeys (tr2 (gname (k + 1)) (RV.mk' d v .sampled rep) (gname k) ra h)
        (fun j => !pyStrIn j (gname (k + 1))) = tr1 (gname k) ra := by
      apply Dict.ext'
      show [(gname (k + 1), RV.mk' d v .sampled rep), (gname k, ra)].filter (fun e => !pyStrIn e.1 (gname (k + 1))) = [(gname k, ra)]
      simp [h1, h2]
    simp only [h3, tr2_get, if_true, bind, Except.bind]
    have h4 : evalDetached detachD weq (RV.mk' d v .sampled rep) = .ok (RV.mk' (detachD d) v .sampled rep) := by
      simp only [evalDetached, RV.mk', hw, if_true]
    rw [h4]
    show Except.ok ((tr1 (gname k) ra).insert (gname (k + 1)) _) = _
    congr 1
    apply Dict.ext'
    show insertL [(gname k, ra)] (gname (k + 1)) _ = _
    simp [insertL, h.symm, tr2]
  · intro nodes ha hb
    rw [logJoint_tr2 _ _ _ _ _ _ ha hb]
    show LW.tensor (ra.logProb + L.logProb (detachD d) v) = _
    rw [add_comm]

theorem proposeRest_to (i : ObjId) (k : Nat) (lossFn : Out L → Except Err L.Lo) (transf : Option (Trace L → Kw L → Except Err (Trace L)))
    (a b : String) (ψ : L.D → L.D) (ht : TransfTo ψ k a b transf) (hl : ∀ o, IsStep k a b o → ∃ l, lossFn o = .ok l) (h : b ≠ a) (p f fwd q : Node L) (kw : Kw L) (o1 o2 po : Out L) (lwq : LW L.W)
    (d : L.D) (v : L.V) (rep : Bool) (ra : RV L) (ho : ra.prov ≠ .observed) (g : L.V → L.W) (ra' : RV L)
    (ho' : ra'.prov ≠ .observed) (lp : L.W) (oq : PyVal L) (ixq : Option (PyVal L)) (lq : Option L.Lo)
    (h1 : po.trace = tr2 b (RV.mkImproper g v .reused) a ra' h) (h2 : po.marginal = some ([b], outDict b v))
    (h3 : po.logWeight = .tensor lp) :
    let qo := Out.mk (tr2 b (RV.mk' d v .sampled rep) a ra h) lwq oq .compose ixq lq none none [("q1_out", o1), ("q2_out", o2)]
    ∃ o, proposeRest (mkAttrs (i + 2) (some (addLoss lossFn)) none (.int k) true) (transf.getD fun t _ => .ok t) false
        (mkExtend i p f none none .none false) (mkCompose (i + 1) fwd q none none .none true) kw qo po = .ok o ∧
      o.trace = tr1 b (RV.mkImproper g (L.detachV v) .reused) ∧
      o.output = outDict b (L.detachV v) ∧
      o.logWeight = .tensor (L.detachW (lwq.val + (lp - (L.logProb (ψ d) v + ra.logProb)))) ∧
      o.type = .propose ∧ o.ix = some (.int k) ∧ o.subs = [("q_out", qo), ("p_out", po)] ∧
      (∃ l, lossFn o.bare = .ok l ∧ o.loss = some (l + lq.getD 0)) ∧
      ∃ px, o.px = some px ∧ px.proposalTrace = qo.trace ∧ px.targetTrace = po.trace ∧
        px.lv = .tensor (lp - (L.logProb (ψ d) v + ra.logProb)) ∧ px.lw = incomingLw lwq := by
  intro qo
  obtain ⟨qt, e1, e2⟩ := ht h d v rep ra { childKw (mkAttrs (i + 2) (some (addLoss lossFn)) none (.int k) true) kw with shared := [] } rfl
  have n1 : proposeNodes qo.trace po.trace a = true := by
    rw [h1]; simp [proposeNodes, tauAddrs, RV.isTau, ho', Dict.contains, qo, h]
  have n2 : proposeNodes qo.trace po.trace b = true := by
    rw [h1]; simp [proposeNodes, tauAddrs, RV.isTau, Dict.contains, qo, RV.mkImproper]
  have hl1 := e2 _ n1 n2
  unfold proposeRest
  simp only [marginalize_step i p f po a b ra' (RV.mkImproper g v .reused) h (outDict b v) h1 h2, copytrace1_ok]
  have e1' : (transf.getD fun t _ => .ok t) qo.trace
    { childKw (mkAttrs (i + 2) (some (addLoss lossFn)) none (.int k) true) kw with shared := [] } = .ok qt := e1
  rw [e1']
  simp only [bind, Except.bind, hl1, h3, LW.sub]
  have hr : rerunDetached (tr1 b (RV.mkImproper g v .reused)) = .ok (tr1 b (RV.mkImproper g (L.detachV v) .reused)) := rfl
  have hlw : qo.logWeight.add (.tensor (lp - (L.logProb (ψ d) v + ra.logProb))) =
      .tensor (lwq.val + (lp - (L.logProb (ψ d) v + ra.logProb))) := by
    show LW.add lwq _ = _
    cases lwq <;> simp [LW.add]
  simp only [Bool.false_eq_true, if_false, hr, hlw, detachLW]
  have hfw : forwardTrace (mkCompose (i + 1) fwd q none none .none true) qo = .ok (some o2.trace) := rfl
  have hstep : IsStep k a b (Out.mk (tr1 b (RV.mkImproper g (L.detachV v) .reused))
      (.tensor (L.detachW (lwq.val + (lp - (L.logProb (ψ d) v + ra.logProb))))) (detachOutput (outDict b v)) .propose
      (some (pickIx (mkAttrs (i + 2) (some (addLoss lossFn)) none (.int k) true).ix kw.ix)) none none
      (some { nodes := qo.trace.keys.filter (proposeNodes qo.trace po.trace), lv := .tensor (lp - (L.logProb (ψ d) v + ra.logProb)),
              lw := incomingLw qo.logWeight, proposalTrace := qo.trace, targetTrace := po.trace,
              forwardTrace := some o2.trace }) []) := by
    refine ⟨rfl, _, rfl, ⟨_, rfl⟩, ⟨ra, ?_⟩, ⟨RV.mk' d v .sampled rep, ?_⟩, ⟨ra', ?_⟩, ⟨RV.mkImproper g v .reused, g, ?_, rfl⟩⟩
    · show (tr2 b _ a ra h).get? a = _
      simp [h]
    · show (tr2 b _ a ra h).get? b = _
      simp
    · rw [h1]; simp [h]
    · rw [h1]; simp
  obtain ⟨l, hll⟩ := hl _ hstep
  rw [hfw]
  have hfold : ∀ o' : Out L, lossFn o' = .ok l → foldLoss (mkAttrs (i + 2) (some (addLoss lossFn)) none (.int k) true) o' qo =
      .ok (o'.setLoss (l + lq.getD 0)) := by
    intro o' ho'
    show (match addLoss lossFn o' (lq.getD 0) with | .ok l => Except.ok (o'.setLoss l) | .error e => .error e) = _
    rw [addLoss, ho']
  simp only [hfold _ hll]
  refine ⟨_, rfl, ?_⟩
  have hd : (kw.debug || (mkAttrs (i + 2) (some (addLoss lossFn)) none (PyVal.int (k : Int)) true).debug) = true := by
    simp [mkAttrs]
  rw [if_pos hd]
  exact ⟨rfl, rfl, rfl, rfl, rfl, rfl, ⟨l, hll, rfl⟩, ⟨_, rfl, rfl, rfl, rfl, rfl⟩⟩

/-- What a step returns. -/
structure StepTo (ψ : L.D → L.D) (lossFn : Out L → Except Err L.Lo) (k : Nat) (a b : String) (g : L.V → L.W) (q : Out L) (ra : RV L) (v : L.V) (d r : L.D) (o : Out L) : Prop where
  trace : o.trace = tr1 b (RV.mkImproper g (L.detachV v) .reused)
  output : o.output = outDict b (L.detachV v)
  logWeight : o.logWeight = .tensor (L.detachW (q.logWeight.val +
    ((g v + L.logProb r ra.value) - (L.logProb (ψ d) v + ra.logProb))))
  ix : o.ix = some (.int k)
  loss : ∃ l, lossFn o.bare = .ok l ∧ o.loss = some (l + q.loss.getD 0)
  px : ∃ px, o.px = some px ∧ px.lv = .tensor ((g v + L.logProb r ra.value) - (L.logProb (ψ d) v + ra.logProb)) ∧
    px.lw = incomingLw q.logWeight ∧ px.proposalTrace.get? a = some ra ∧
    px.targetTrace.get? b = some (RV.mkImproper g v .reused)

theorem step_eval_to {α : Type} (i : ObjId) (k : Nat) (lossFn : Out L → Except Err L.Lo)
    (transf : Option (Trace L → Kw L → Except Err (Trace L))) (a b : String) (ψ : L.D → L.D) (ht : TransfTo ψ k a b transf) (hl : ∀ o, IsStep k a b o → ∃ l, lossFn o = .ok l) (h : b ≠ a)
    (fid rid pid : ObjId) (hp : pid ≠ i) (hr : rid ≠ i) (cls : String) (g : L.V → L.W) (net rnet : L.V → L.D)
    (rep rep' : Bool) (q : Node L) (c : PyVal L) (kw : Kw L) (w : World L) (hk : KwOk kw) (hw : ∀ j, w.cond j = none)
    (m : Comp L α) (F : α → Out L) (ra : α → RV L)
    (hq : eval q c { kw with ix := .int k } w = m.bind fun x => .ret (.ok (F x), w))
    (hF : ∀ x, (F x).trace = tr1 a (ra x) ∧ (ra x).prov ≠ .observed ∧ (F x).output = outDict a (ra x).value) :
    ∃ (n : Node L) (G : α → L.V → Out L), vsmcPropose i k lossFn transf (.prog fid (kernelProg a b net rep))
        (.prog rid (kernelProg b a rnet rep')) (.prog pid (densityProg cls b g)) q = .ok n ∧
      eval n c kw w = (m.bind fun x => .draw (net (ra x).value) rep fun v => .ret (.ok (G x v), w)) ∧
      ∀ x v, StepTo ψ lossFn k a b g (F x) (ra x) v (net (ra x).value) (rnet v) (G x v) := by
  have hk' : KwOk ({ kw with ix := .int k } : Kw L) := hk
  -- the three outcomes inside a step
  let o2 : α → L.V → Out L := fun x v => Out.mk (tr1 b (RV.mk' (net (ra x).value) v .sampled rep)) .float0 (outDict b v)
    (.program "ConditionalMultivariateNormal") none none none none []
  let qo : α → L.V → Out L := fun x v => Out.mk (tr2 b (RV.mk' (net (ra x).value) v .sampled rep) a (ra x) h)
    ((F x).logWeight.add (o2 x v).logWeight) (o2 x v).output .compose (some (.int k)) (some ((F x).loss.getD 0)) none none
    [("q1_out", F x), ("q2_out", o2 x v)]
  let pp : α → L.V → Out L := fun x v => Out.mk (tr1 b (RV.mkImproper g v .reused)) (.tensor (g v)) (outDict b v)
    (.program cls) none none none none []
  let pf : α → L.V → Out L := fun x v => Out.mk (tr1 a (RV.mk' (rnet v) (ra x).value .reused rep'))
    (.tensor (L.logProb (rnet v) (ra x).value)) (outDict a (ra x).value) (.program "ConditionalMultivariateNormal")
    none none none none []
  let po : α → L.V → Out L := fun x v => Out.mk (tr2 b (RV.mkImproper g v .reused) a (RV.mk' (rnet v) (ra x).value .reused rep') h)
    (.tensor (g v + L.logProb (rnet v) (ra x).value)) (outDict a (ra x).value) .extend (some (.int k))
    (some 0) (some ([b], outDict b v)) none (if kw.debug then [("p_out", pp x v), ("f_out", pf x v)] else [])
  have hfin : ∀ x v, ∃ o, proposeRest (mkAttrs (i + 2) (some (addLoss lossFn)) none (.int k) true)
      (transf.getD fun t _ => .ok t) false
      (mkExtend i (.prog pid (densityProg cls b g)) (.prog rid (kernelProg b a rnet rep')) none none .none false)
      (mkCompose (i + 1) (.prog fid (kernelProg a b net rep)) q none none .none true) kw (qo x v) (po x v) = .ok o ∧
      StepTo ψ lossFn k a b g (F x) (ra x) v (net (ra x).value) (rnet v) o := by
    intro x v
    obtain ⟨o, h1, h2, h3, h4, h5, h6, h7, h8, px, h9, h10, h11, h12, h13⟩ :=
      proposeRest_to i k lossFn transf a b ψ ht hl h (.prog pid (densityProg cls b g)) (.prog rid (kernelProg b a rnet rep'))
        (.prog fid (kernelProg a b net rep)) q kw (F x) (o2 x v) (po x v) ((F x).logWeight.add (o2 x v).logWeight)
        (net (ra x).value) v rep (ra x) (hF x).2.1 g (RV.mk' (rnet v) (ra x).value .reused rep') (by simp [RV.mk'])
        (g v + L.logProb (rnet v) (ra x).value) (o2 x v).output (some (.int k)) (some ((F x).loss.getD 0)) rfl rfl rfl
    have hadd : (F x).logWeight.add (o2 x v).logWeight = (F x).logWeight := by
      show (F x).logWeight.add .float0 = _
      cases (F x).logWeight <;> rfl
    refine ⟨o, h1, h2, h3, ?_, h6, h8, ⟨px, h9, h12, ?_, ?_, ?_⟩⟩
    · rw [h4, hadd]
    · rw [h13, hadd]
    · rw [h10]; simp [h]
    · rw [h11]; simp [po]
  choose G hG hG' using hfin
  refine ⟨_, G, rfl, ?_, hG'⟩
  -- the proposal
  have hcomp : eval (mkCompose (i + 1) (.prog fid (kernelProg a b net rep)) q none none .none true) c { kw with ix := .int k } w =
      m.bind fun x => .draw (net (ra x).value) rep fun v => .ret (.ok (qo x v), w) := by
    simp only [mkCompose, eval_compose_eq, Exec.bind]
    have e : childKw (mkAttrs (i + 1) none none PyVal.none true) ({ kw with ix := .int k } : Kw L) = { kw with ix := .int k } := rfl
    rw [e, hq, Comp.bind_assoc]
    congr 1
    funext x
    simp only [Comp.bind_ret]
    rw [eval_kernel fid a b net rep _ _ w hk' (hw fid) (ra x).value (by rw [(hF x).2.2]; exact kernelInput_outDict a _)]
    simp only [Comp.bind_draw, Comp.bind_ret]
    congr 1
    funext v
    show Exec.lift _ w = _
    rw [composeRest_step (i + 1) _ (F x) (o2 x v) a b (ra x) _ h (hF x).1 rfl]
    rfl
  -- the target
  have hext : ∀ x v, eval (mkExtend i (.prog pid (densityProg cls b g)) (.prog rid (kernelProg b a rnet rep')) none none .none false)
      c { kw with ix := .int k } (w.setCond i (some (qo x v).trace)) = .ret (.ok (po x v), w.setCond i (some (qo x v).trace)) := by
    intro x v
    have e : childKw (mkAttrs i none none PyVal.none false) ({ kw with ix := .int k } : Kw L) = { kw with ix := .int k } := rfl
    have hgb : (qo x v).trace.get? b = some (RV.mk' (net (ra x).value) v .sampled rep) := by simp [qo]
    have hga : (qo x v).trace.get? a = some (ra x) := by simp [qo, h]
    have ha : (mkAttrs (L := L) i none none PyVal.none false).id = i := rfl
    simp only [mkExtend, eval_extend_eq, ha, Exec.bind, Exec.getCond, Comp.bind_ret, Exec.withSub_eq, e,
      World.setCond_cond, if_true, Node.id, hp.symm, if_false]
    rw [eval_density_cond pid cls b g c _ _ hk' (qo x v).trace (by simp) _ hgb (by simp [RV.mk'])]
    simp only [Comp.bind_ret]
    have hv : (RV.mk' (net (ra x).value) v .sampled rep : RV L).value = v := rfl
    simp only [hv, Out.output_mk]
    rw [eval_kernel_cond rid b a rnet rep' _ _ _ hk' (qo x v).trace (by simp) _ hga (hF x).2.1 v
      (kernelInput_outDict b v)]
    simp only [Comp.bind_ret, Exec.pure, World.setCond_cond, hp.symm, hr.symm, if_false, if_true]
    show Exec.lift (extendRest _ _ _ (pp x v) (pf x v)) _ = _
    rw [extendRest_step i _ _ (pp x v) (pf x v) a b _ _ h rfl rfl (by simp [RV.mk'])]
    show Comp.ret _ = _
    congr 2
    apply World.ext'
    · intro j
      simp only [World.setCond_cond, hw]
      split
      · rename_i h1; subst h1; simp [hp]
      · split
        · rename_i h1; subst h1; simp [hr]
        · rfl
    · rfl
  show eval (.propose _ _ _ _ _) c kw w = _
  simp only [eval_propose_eq, Exec.bind]
  have e : childKw (mkAttrs (i + 2) (some (addLoss lossFn)) none (.int k) true) kw = { kw with ix := .int k } := rfl
  rw [e, hcomp, Comp.bind_assoc]
  congr 1
  funext x
  simp only [Comp.bind_draw, Comp.bind_ret]
  congr 1
  funext v
  show Comp.bind (Exec.withSub i _ _ w) _ = _
  rw [Exec.withSub_eq, hext x v]
  simp only [Comp.bind_ret]
  show Exec.lift _ _ = _
  rw [hG x v]
  show Comp.ret _ = _
  congr 2
  apply World.ext'
  · intro j; simp [hw]
  · rfl

theorem weightTo_congr (ψ : L.D → L.D) (M : AnnealModel L) {z z' : Nat → L.V} {K : Nat} (h : ∀ j ≤ K, z j = z' j) : M.weightTo ψ z K = M.weightTo ψ z' K := by
  induction K with
  | zero => rfl
  | succ K ih =>
    simp only [AnnealModel.weightTo, AnnealModel.incrementTo, ih fun j hj => h j (by omega), h (K + 1) le_rfl,
      point_congr (h K (by omega))]

/-- The log weight as the code has it: the Python float 0.0 for a single program. -/
def AnnealModel.lwTo (ψ : L.D → L.D) (M : AnnealModel L) (z : Nat → L.V) : Nat → LW L.W
  | 0 => .float0
  | k + 1 => .tensor (M.weightTo ψ z (k + 1))

theorem AnnealModel.lwTo_val (ψ : L.D → L.D) (M : AnnealModel L) (z : Nat → L.V) (k : Nat) : (M.lwTo ψ z k).val = M.weightTo ψ z k := by cases k <;> rfl

theorem AnnealModel.incomingTo_lw (ψ : L.D → L.D) (M : AnnealModel L) (z : Nat → L.V) (k : Nat) : incomingLw (M.lwTo ψ z k) = M.incomingTo ψ z k := by
  cases k <;> rfl

theorem incomingTo_congr (ψ : L.D → L.D) (M : AnnealModel L) {z z' : Nat → L.V} {k : Nat} (h : ∀ j ≤ k, z j = z' j) : M.incomingTo ψ z k = M.incomingTo ψ z' k := by
  cases k with
  | zero => rfl
  | succ k => simp only [AnnealModel.incomingTo, weightTo_congr ψ M h]

theorem StepSeen.congr {ψ : L.D → L.D} {M : AnnealModel L} {z z' : Nat → L.V} {k : Nat} {o : Out L} (h : ∀ j ≤ k + 1, z j = z' j) (s : StepSeen ψ M z k o) :
    StepSeen ψ M z' k o := by
  obtain ⟨so1, px, prop, targ, s1, s2, s3, s4, s5, s6, s7, s8⟩ := s
  have h1 := h (k + 1) le_rfl
  have h0 : AnnealModel.point z k = AnnealModel.point z' k := point_congr (h k (by omega))
  refine ⟨so1, px, prop, targ, s1, ?_, ?_, s4, ?_, s6, s7, ?_⟩
  · rw [s2]; simp only [AnnealModel.incrementTo, h1, h0]
  · rw [s3, incomingTo_congr ψ M fun j hj => h j (by omega)]
  · rw [s5, h0]
  · rw [s8, h1]

theorem chain_to (fresh : ObjId) (n : Nat) (M : AnnealModel L) (I : AnnealIds) (hid : I.Below fresh) (lossFn : Out L → Except Err L.Lo) (hl : LossOk lossFn)
    (transf : Option (Trace L → Kw L → Except Err (Trace L))) (ψ : L.D → L.D) (ht : ∀ k, TransfTo ψ k (gname k) (gname (k + 1)) transf) (K : Nat) :
    ∃ nd : Node L, ((List.range K).map fun k => ((M.forward I k, M.reverse I k, M.target I k), k)).foldlM
        (vsmcStep fresh n lossFn transf none) (M.initial I) = .ok nd ∧
      ∀ (c : PyVal L) (kw : Kw L) (w : World L), KwOk kw → (∀ j, w.cond j = none) →
        ∃ F : (Nat → L.V) → Out L, eval nd c kw w = (M.chain K).bind (fun z => .ret (.ok (F z), w)) ∧
          ∀ z, ∃ ra : RV L, (F z).trace = tr1 (gname K) ra ∧ ra.prov ≠ .observed ∧ ra.value = AnnealModel.point z K ∧
            ra.logProb = M.density K (AnnealModel.point z K) ∧ (F z).output = outDict (gname K) (AnnealModel.point z K) ∧
            (F z).logWeight = M.lwTo ψ z K ∧ LossTo ψ lossFn M z K (F z).loss := by
  induction K with
  | zero =>
    refine ⟨_, rfl, fun c kw w hk hw => ⟨fun z => Out.mk (tr1 (gname 0) (RV.mk' M.d0 (z 0) .sampled M.rep0)) .float0
      (outDict (gname 0) (z 0)) (.program M.cls0) none none none none [], ?_, fun z => ⟨_, rfl, ?_, rfl, rfl, rfl, rfl, ⟨fun _ => 0, rfl, fun k hk => by omega⟩⟩⟩⟩
    · show eval (.prog I.initial (distributionProg M.cls0 (gname 0) M.d0 M.rep0)) c kw w = _
      rw [eval_distribution _ _ _ _ _ _ _ _ hk (hw _)]
      rfl
    · simp [RV.mk']
  | succ K ih =>
    obtain ⟨nd, h1, h2⟩ := ih
    have hne : gname (K + 1) ≠ gname K := fun h => by have := gname_inj h; omega
    -- the object does not depend on the arguments of the call
    obtain ⟨nd₁, hnd⟩ : ∃ x, vsmcPropose (fresh + 4 * K) K lossFn transf (M.forward I K) (M.reverse I K)
      (M.target I K) nd = .ok x := ⟨_, rfl⟩
    refine ⟨nd₁, ?_, ?_⟩
    · rw [List.range_succ, List.map_append, List.foldlM_append, h1]
      simp only [List.map_cons, List.map_nil, List.foldlM_cons, List.foldlM_nil, vsmcStep, hnd, bind, Except.bind, pure, Except.pure]
    intro c kw w hk hw
    obtain ⟨F, hF, hF'⟩ := h2 c { kw with ix := .int K } w hk hw
    choose ra hr1 hr2 hr3 hr4 hr5 hr6 hr7 using hF'
    obtain ⟨nd', G, e1, e2, e3⟩ := step_eval_to (fresh + 4 * K) K lossFn transf (gname K) (gname (K + 1)) ψ (ht K) (hl K) hne (I.forward K)
      (I.reverse K) (I.target K) (Nat.ne_of_lt (Nat.lt_of_lt_of_le (hid K).2.2 (Nat.le_add_right _ _))) (Nat.ne_of_lt (Nat.lt_of_lt_of_le (hid K).2.1 (Nat.le_add_right _ _))) (M.cls K) (M.g K) (M.f K) (M.r K)
      M.rep (M.rep') nd c kw w hk hw (M.chain K) F ra hF (fun z => ⟨hr1 z, hr2 z, by rw [hr5, hr3]⟩)
    have e1' : vsmcPropose (fresh + 4 * K) K lossFn transf (M.forward I K) (M.reverse I K) (M.target I K) nd =
      .ok nd' := e1
    rw [hnd] at e1'
    cases e1'
    have hp : ∀ z : Nat → L.V, AnnealModel.point (trunc K z) K = AnnealModel.point z K := fun z => point_congr (by simp [trunc])
    refine ⟨fun z => G (trunc K z) (z (K + 1)), ?_, ?_⟩
    · rw [e2, chain_trunc]
      simp only [AnnealModel.chain, Comp.bind_assoc, Comp.bind_draw, Comp.bind_ret]
      congr 1; funext z
      rw [hr3, hp]
      congr 1; funext v
      rw [trunc_upd]
      simp
    · intro z
      have hs := e3 (trunc K z) (z (K + 1))
      have htz : ∀ j ≤ K, trunc K z j = z j := fun j hj => by simp [trunc, hj]
      have hlw : (G (trunc K z) (z (K + 1))).logWeight = .tensor (M.weightTo ψ z (K + 1)) := by
        rw [hs.logWeight, hr6, AnnealModel.lwTo_val, hr3, hr4, hp, weightTo_congr ψ M htz]
        simp only [AnnealModel.weightTo, AnnealModel.incrementTo, AnnealModel.density]
        rw [add_comm (L.logProb (ψ (M.f K _)) _)]
      obtain ⟨px, p1, p2, p3, p4, p5⟩ := hs.px
      have hloss : LossTo ψ lossFn M z (K + 1) (G (trunc K z) (z (K + 1))).loss := by
        obtain ⟨l, hl1, hl2⟩ := hs.loss
        obtain ⟨ls, q1, q2⟩ := hr7 (trunc K z)
        refine ⟨fun k => if k = K then l else ls k, ?_, ?_⟩
        · rw [hl2, q1, if_neg (Nat.succ_ne_zero K), Finset.sum_range_succ, if_pos rfl]
          have hsum : (∑ x ∈ Finset.range K, if x = K then l else ls x) = ∑ x ∈ Finset.range K, ls x :=
            Finset.sum_congr rfl fun x hx => if_neg (Nat.ne_of_lt (Finset.mem_range.mp hx))
          rw [hsum, add_comm]
          congr 2
          by_cases hK : K = 0
          · subst hK; simp
          · rw [if_neg hK]; rfl
        · intro k hk
          by_cases hkK : k = K
          · subst hkK
            refine ⟨(G (trunc k z) (z (k + 1))).bare, ⟨hs.ix, px, _, _, p1, ?_, ?_, p4, ?_, p5, rfl, rfl⟩, by simp only [if_pos]; exact hl1⟩
            · rw [p2, hr3, hr4, hp]
              simp only [AnnealModel.incrementTo, AnnealModel.density]
              rw [add_comm (L.logProb (ψ (M.f k _)) _)]
            · rw [p3, hr6, AnnealModel.incomingTo_lw]
              exact incomingTo_congr ψ M htz
            · rw [hr4, hp]
          · obtain ⟨o, so1, so2⟩ := q2 k (by omega)
            exact ⟨o, so1.congr fun j hj => htz j (by omega), by simp only [if_neg hkK]; exact so2⟩
      exact ⟨_, hs.trace, by simp [RV.mkImproper], rfl, rfl, hs.output, hlw, hloss⟩

end Verif
