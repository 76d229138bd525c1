import Verif.Spec.Annealing
import Mathlib.Tactic.Abel
import Verif.Model.Annealing
import Verif.Proofs.Program
import Verif.Proofs.Combinators
/-
One step of vsmc, computed exactly.
-/
namespace Verif
variable {L : Lang}
open Spec

/-- A trace with one entry. -/
def tr1 (a : String) (r : RV L) : Trace L := ⟨[(a, r)], by simp⟩

/-- A trace with two entries. -/
def tr2 (a : String) (r : RV L) (b : String) (s : RV L) (h : a ≠ b) : Trace L := ⟨[(a, r), (b, s)], by simp [h]⟩

theorem insert_empty (a : String) (r : RV L) : (Dict.empty : Trace L).insert a r = tr1 a r := rfl

@[simp] theorem tr1_get (a : String) (r : RV L) (k : String) : (tr1 a r).get? k = if a = k then some r else none := rfl
@[simp] theorem tr2_get (a b : String) (r s : RV L) (h : a ≠ b) (k : String) :
    (tr2 a r b s h).get? k = if a = k then some r else if b = k then some s else none := rfl

theorem logJoint_tr1 (a : String) (r : RV L) (nodes : String → Bool) :
    logJoint (tr1 a r) nodes = if nodes a then .tensor r.logProb else .float0 := by
  show (List.filter (fun e => nodes e.1) [(a, r)]).foldl _ _ = _
  cases h : nodes a <;> simp [h, LW.add]

theorem logJoint_tr2 (a b : String) (r s : RV L) (h : a ≠ b) (nodes : String → Bool) (ha : nodes a = true)
    (hb : nodes b = true) : logJoint (tr2 a r b s h) nodes = .tensor (r.logProb + s.logProb) := by
  show (List.filter (fun e => nodes e.1) [(a, r), (b, s)]).foldl _ _ = _
  simp [ha, hb, LW.add]

theorem weightNodes_none (a : String) (r : RV L) (hr : r.prov ≠ .observed) :
    logJoint (tr1 a r) (weightNodes none (tr1 a r)) = .float0 := by
  rw [logJoint_tr1, if_neg]
  simp [weightNodes, tauAddrs, RV.isTau, hr, Dict.contains]


theorem bindModel_ok {s : ArgSpec} {kw : Kw L} (h : KwOk kw) (hs : s.args.take 3 = ["self", "trace", "c"]) :
    bindModel s (receivedKwargs s kw) = .ok () := by
  have hl : 3 ≤ s.args.length := by
    have := congrArg List.length hs
    simp only [List.length_take, List.length_cons, List.length_nil] at this
    omega
  have h1 : ¬ s.args.length < 3 := by omega
  unfold bindModel
  simp only [h1, decide_false, Bool.false_and, Bool.false_eq_true, if_false, hs]
  rw [if_neg]
  simp only [List.any_eq_true, not_exists, not_and, Bool.not_eq_true]
  intro e he
  unfold receivedKwargs offeredKwargs at he
  have he' := (List.mem_filter.mp he).1
  simp only [List.cons_append, List.nil_append, List.mem_cons] at he'
  have hne : e.1 ≠ "self" ∧ e.1 ≠ "trace" ∧ e.1 ≠ "c" := by
    rcases he' with rfl | rfl | rfl | rfl | rfl | he'
    · simp
    · simp
    · simp
    · simp
    · simp
    · exact h e he'
  simp [hne.1, hne.2.1, hne.2.2]

theorem eval_distribution (i : ObjId) (cls name : String) (d : L.D) (rep : Bool) (c : PyVal L) (kw : Kw L) (w : World L)
    (hk : KwOk kw) (hw : w.cond i = none) :
    eval (.prog i (distributionProg cls name d rep)) c kw w =
      .draw d rep fun v => .ret (.ok (Out.mk (tr1 name (RV.mk' d v .sampled rep)) .float0 (outDict name v) (.program cls)
        none none none none []), w) := by
  rw [eval_prog_apply, bindModel_ok hk (by rfl), hw]
  simp only [distributionProg, distributionModel, maybeSample, Option.getD_some, runModel, Option.bind_none, insert_empty, Comp.bind_draw]
  congr 1
  funext v
  show Comp.ret (Except.ok (Out.mk (tr1 name (RV.mk' d v .sampled rep)) (logJoint (tr1 name _) _) _ _ _ _ _ _ _), w) = _
  rw [weightNodes_none _ _ (by simp [RV.mk'])]

theorem eval_kernel (i : ObjId) (a b : String) (net : L.V → L.D) (rep : Bool) (c : PyVal L) (kw : Kw L) (w : World L)
    (hk : KwOk kw) (hw : w.cond i = none) (x : L.V) (hc : kernelInput c a = .ok x) :
    eval (.prog i (kernelProg a b net rep)) c kw w =
      .draw (net x) rep fun v => .ret (.ok (Out.mk (tr1 b (RV.mk' (net x) v .sampled rep)) .float0 (outDict b v)
        (.program "ConditionalMultivariateNormal") none none none none []), w) := by
  rw [eval_prog_apply, bindModel_ok hk (by rfl), hw]
  simp only [kernelProg, kernelModel, hc, runModel, variableValue, insert_empty, Comp.bind_draw]
  show Comp.draw _ _ _ = _
  congr 1
  funext v
  show Comp.ret (Except.ok (Out.mk (tr1 b (RV.mk' (net x) v .sampled rep)) (logJoint (tr1 b _) _) _ _ _ _ _ _ _), w) = _
  rw [weightNodes_none _ _ (by simp [RV.mk'])]

theorem weightNodes_tr1 (t : Trace L) (a : String) (r rv : RV L) (hr : r.prov ≠ .observed) (h : t.get? a = some rv)
    (ho : rv.prov ≠ .observed) : logJoint (tr1 a r) (weightNodes (some t) (tr1 a r)) = .tensor r.logProb := by
  rw [logJoint_tr1, if_pos]
  simp [weightNodes, tauAddrs, h, RV.isTau, hr, ho, Dict.contains]

theorem eval_kernel_cond (i : ObjId) (a b : String) (net : L.V → L.D) (rep : Bool) (c : PyVal L) (kw : Kw L) (w : World L)
    (hk : KwOk kw) (t : Trace L) (hw : w.cond i = some t) (rv : RV L) (ht : t.get? b = some rv) (ho : rv.prov ≠ .observed)
    (x : L.V) (hc : kernelInput c a = .ok x) :
    eval (.prog i (kernelProg a b net rep)) c kw w =
      .ret (.ok (Out.mk (tr1 b (RV.mk' (net x) rv.value .reused rep)) (.tensor (L.logProb (net x) rv.value))
        (outDict b rv.value) (.program "ConditionalMultivariateNormal") none none none none []), w) := by
  rw [eval_prog_apply, bindModel_ok hk (by rfl), hw]
  have hwn := weightNodes_tr1 t b (RV.mk' (net x) rv.value .reused rep) rv (by simp [RV.mk']) ht ho
  simp only [kernelProg, kernelModel, hc, runModel, variableValue, ht, Option.map_some, insert_empty]
  show Comp.ret (Except.ok (Out.mk (tr1 b (RV.mk' (net x) rv.value .reused rep)) (logJoint (tr1 b _) _) _ _ _ _ _ _ _), w) = _
  rw [hwn]
  rfl

theorem eval_density_cond (i : ObjId) (cls name : String) (f : L.V → L.W) (c : PyVal L) (kw : Kw L) (w : World L)
    (hk : KwOk kw) (t : Trace L) (hw : w.cond i = some t) (rv : RV L) (ht : t.get? name = some rv)
    (ho : rv.prov ≠ .observed) :
    eval (.prog i (densityProg cls name f)) c kw w =
      .ret (.ok (Out.mk (tr1 name (RV.mkImproper f rv.value .reused)) (.tensor (f rv.value)) (outDict name rv.value)
        (.program cls) none none none none []), w) := by
  rw [eval_prog_apply, bindModel_ok hk (by rfl), hw]
  have hwn := weightNodes_tr1 t name (RV.mkImproper f rv.value .reused) rv (by simp [RV.mkImproper]) ht ho
  simp only [densityProg, densityModel, runModel, Option.bind_some, ht, insert_empty]
  show Comp.ret (Except.ok (Out.mk (tr1 name (RV.mkImproper f rv.value .reused)) (logJoint (tr1 name _) _) _ _ _ _ _ _ _), w) = _
  rw [hwn]
  rfl

theorem copy_two (a b : String) (r s : RV L) (h : a ≠ b) :
    copytraces .lastWriteWins (fun _ => false) [tr1 a r, tr1 b s] = .ok (tr2 a r b s h) ∧
      copytraces .firstWriteWins (fun _ => false) [tr1 a r, tr1 b s] = .ok (tr2 a r b s h) := by
  constructor <;>
  · simp only [copytraces, List.foldlM_cons, List.foldlM_nil, tr1, copyStep, bind, Except.bind, Bool.false_eq_true, if_false,
      Dict.contains, Dict.get?_empty, Option.isSome_none, pure, Except.pure, Dict.get?_insert, h]
    simp only [Ne.symm h, h, if_false, Option.isSome_none, Bool.false_eq_true]
    congr 1
    apply Dict.ext'
    simp [Dict.insert, insertL, Dict.empty, tr2, h]

theorem disjoint_tr1 (a b : String) (r s : RV L) (h : a ≠ b) : disjointKeys (tr1 a r) (tr1 b s) = true := by
  show ([a].all fun k => !(tr1 b s).contains k) = true
  simp [Dict.contains, Ne.symm h]

theorem composeRest_step (i : ObjId) (kw : Kw L) (o1 o2 : Out L) (a b : String) (ra rb : RV L) (h : b ≠ a)
    (h1 : o1.trace = tr1 a ra) (h2 : o2.trace = tr1 b rb) :
    composeRest (mkAttrs i none none .none true) kw o1 o2 =
      .ok (Out.mk (tr2 b rb a ra h) (o1.logWeight.add o2.logWeight) o2.output .compose (some kw.ix)
        (some (o1.loss.getD 0)) none none [("q1_out", o1), ("q2_out", o2)]) := by
  unfold composeRest
  rw [h1, h2, (copy_two b a rb ra h).1, disjoint_tr1 b a rb ra h]
  simp only [mkAttrs, Bool.or_true, if_true]
  rfl

theorem extendRest_step (i : ObjId) (kw : Kw L) (t : Trace L) (po fo : Out L) (a b : String) (ra rb : RV L) (h : b ≠ a)
    (h1 : po.trace = tr1 b rb) (h2 : fo.trace = tr1 a ra) (ho : ra.prov ≠ .observed) :
    extendRest (mkAttrs i none none .none false) kw (some t) po fo =
      .ok (Out.mk (tr2 b rb a ra h) (po.logWeight.add (.tensor ra.logProb)) fo.output .extend (some kw.ix)
        (some (po.loss.getD 0)) (some ([b], po.output)) none
        (if kw.debug then [("p_out", po), ("f_out", fo)] else [])) := by
  unfold extendRest extendCheckF
  have hb : (ra.prov == Prov.observed) = false := by simpa using ho
  have ht : tauAddrs (tr1 a ra) a = true := by simp [tauAddrs, RV.isTau, ho]
  rw [h1, h2, (copy_two b a rb ra h).2, disjoint_tr1 a b ra rb h.symm, logJoint_tr1, if_pos ht]
  have he : (tr1 a ra).entries.any (fun e => e.2.prov == Prov.observed) = false := by
    show ([(a, ra)].any _) = false
    simp [hb]
  simp only [he, mkAttrs, Bool.or_false]
  cases kw.debug <;> rfl

/-- What the transformation of the proposal's trace must preserve: the log probabilities of both variables, when the new one
comes from a torch distribution. -/
def TransfOk (k : Nat) (a b : String) (transf : Option (Trace L → Kw L → Except Err (Trace L))) : Prop :=
  ∀ (h : b ≠ a) (d : L.D) (v : L.V) (rep : Bool) (ra : RV L) (kw : Kw L), kw.ix = .int k → ∃ qt,
    (transf.getD fun t _ => .ok t) (tr2 b (RV.mk' d v .sampled rep) a ra h) kw = .ok qt ∧
      ∀ nodes : String → Bool, nodes a = true → nodes b = true →
        logJoint qt nodes = .tensor (L.logProb d v + ra.logProb)

theorem TransfOk_none (k : Nat) (a b : String) : TransfOk (L := L) k a b none := by
  intro h d v rep ra kw _
  exact ⟨_, rfl, fun nodes ha hb => by rw [logJoint_tr2 _ _ _ _ _ _ hb ha]; rfl⟩

theorem marginalize_step (i : ObjId) (p f : Node L) (po : Out L) (a b : String) (ra rb : RV L) (h : b ≠ a) (x : PyVal L)
    (h1 : po.trace = tr2 b rb a ra h) (h2 : po.marginal = some ([b], x)) :
    marginalize (mkExtend i p f none none .none false) po = .ok (x, tr1 b rb) := by
  unfold marginalize
  simp only [mkExtend, Node.isExtend, if_true, h2]
  rw [copytraces_single, h1]
  have : Dict.filterKeys (tr2 b rb a ra h)
      (fun k => !((tr2 b rb a ra h).contains k && !List.contains [b] k)) = tr1 b rb := by
    apply Dict.ext'
    show [(b, rb), (a, ra)].filter (fun e => !((tr2 b rb a ra h).contains e.1 && !List.contains [b] e.1)) = [(b, rb)]
    simp [Dict.contains, h, h.symm]
  simp only [this]
  rfl

theorem proposeRest_step (i : ObjId) (k : Nat) (lossFn : Out L → Except Err L.Lo) (transf : Option (Trace L → Kw L → Except Err (Trace L)))
    (a b : String) (ht : TransfOk k a b transf) (hl : ∀ o, IsStep k a b o → ∃ l, lossFn o = .ok l) (h : b ≠ a) (p f fwd q : Node L) (kw : Kw L) (o1 o2 po : Out L) (lwq : LW L.W)
    (d : L.D) (v : L.V) (rep : Bool) (ra : RV L) (ho : ra.prov ≠ .observed) (g : L.V → L.W) (ra' : RV L)
    (ho' : ra'.prov ≠ .observed) (lp : L.W) (oq : PyVal L) (ixq : Option (PyVal L)) (lq : Option L.Lo)
    (h1 : po.trace = tr2 b (RV.mkImproper g v .reused) a ra' h) (h2 : po.marginal = some ([b], outDict b v))
    (h3 : po.logWeight = .tensor lp) :
    let qo := Out.mk (tr2 b (RV.mk' d v .sampled rep) a ra h) lwq oq .compose ixq lq none none [("q1_out", o1), ("q2_out", o2)]
    ∃ o, proposeRest (mkAttrs (i + 2) (some (addLoss lossFn)) none (.int k) true) (transf.getD fun t _ => .ok t) false
        (mkExtend i p f none none .none false) (mkCompose (i + 1) fwd q none none .none true) kw qo po = .ok o ∧
      o.trace = tr1 b (RV.mkImproper g (L.detachV v) .reused) ∧
      o.output = outDict b (L.detachV v) ∧
      o.logWeight = .tensor (L.detachW (lwq.val + (lp - (L.logProb d v + ra.logProb)))) ∧
      o.type = .propose ∧ o.ix = some (.int k) ∧ o.subs = [("q_out", qo), ("p_out", po)] ∧
      (∃ l, lossFn o.bare = .ok l ∧ o.loss = some (l + lq.getD 0)) ∧
      ∃ px, o.px = some px ∧ px.proposalTrace = qo.trace ∧ px.targetTrace = po.trace ∧
        px.lv = .tensor (lp - (L.logProb d v + ra.logProb)) ∧ px.lw = incomingLw lwq := by
  intro qo
  obtain ⟨qt, e1, e2⟩ := ht h d v rep ra { childKw (mkAttrs (i + 2) (some (addLoss lossFn)) none (.int k) true) kw with shared := [] } rfl
  have n1 : proposeNodes qo.trace po.trace a = true := by
    rw [h1]; simp [proposeNodes, tauAddrs, RV.isTau, ho', Dict.contains, qo, h]
  have n2 : proposeNodes qo.trace po.trace b = true := by
    rw [h1]; simp [proposeNodes, tauAddrs, RV.isTau, Dict.contains, qo, RV.mkImproper]
  have hl1 := e2 _ n1 n2
  unfold proposeRest
  simp only [marginalize_step i p f po a b ra' (RV.mkImproper g v .reused) h (outDict b v) h1 h2, copytrace1_ok]
  have e1' : (transf.getD fun t _ => .ok t) qo.trace
    { childKw (mkAttrs (i + 2) (some (addLoss lossFn)) none (.int k) true) kw with shared := [] } = .ok qt := e1
  rw [e1']
  simp only [bind, Except.bind, hl1, h3, LW.sub]
  have hr : rerunDetached (tr1 b (RV.mkImproper g v .reused)) = .ok (tr1 b (RV.mkImproper g (L.detachV v) .reused)) := rfl
  have hlw : qo.logWeight.add (.tensor (lp - (L.logProb d v + ra.logProb))) =
      .tensor (lwq.val + (lp - (L.logProb d v + ra.logProb))) := by
    show LW.add lwq _ = _
    cases lwq <;> simp [LW.add]
  simp only [Bool.false_eq_true, if_false, hr, hlw, detachLW]
  have hfw : forwardTrace (mkCompose (i + 1) fwd q none none .none true) qo = .ok (some o2.trace) := rfl
  have hstep : IsStep k a b (Out.mk (tr1 b (RV.mkImproper g (L.detachV v) .reused))
      (.tensor (L.detachW (lwq.val + (lp - (L.logProb d v + ra.logProb))))) (detachOutput (outDict b v)) .propose
      (some (pickIx (mkAttrs (i + 2) (some (addLoss lossFn)) none (.int k) true).ix kw.ix)) none none
      (some { nodes := qo.trace.keys.filter (proposeNodes qo.trace po.trace), lv := .tensor (lp - (L.logProb d v + ra.logProb)),
              lw := incomingLw qo.logWeight, proposalTrace := qo.trace, targetTrace := po.trace,
              forwardTrace := some o2.trace }) []) := by
    refine ⟨rfl, _, rfl, ⟨_, rfl⟩, ⟨ra, ?_⟩, ⟨RV.mk' d v .sampled rep, ?_⟩, ⟨ra', ?_⟩, ⟨RV.mkImproper g v .reused, g, ?_, rfl⟩⟩
    · show (tr2 b _ a ra h).get? a = _
      simp [h]
    · show (tr2 b _ a ra h).get? b = _
      simp
    · rw [h1]; simp [h]
    · rw [h1]; simp
  obtain ⟨l, hll⟩ := hl _ hstep
  rw [hfw]
  have hfold : ∀ o' : Out L, lossFn o' = .ok l → foldLoss (mkAttrs (i + 2) (some (addLoss lossFn)) none (.int k) true) o' qo =
      .ok (o'.setLoss (l + lq.getD 0)) := by
    intro o' ho'
    show (match addLoss lossFn o' (lq.getD 0) with | .ok l => Except.ok (o'.setLoss l) | .error e => .error e) = _
    rw [addLoss, ho']
  simp only [hfold _ hll]
  refine ⟨_, rfl, ?_⟩
  have hd : (kw.debug || (mkAttrs (i + 2) (some (addLoss lossFn)) none (PyVal.int (k : Int)) true).debug) = true := by
    simp [mkAttrs]
  rw [if_pos hd]
  exact ⟨rfl, rfl, rfl, rfl, rfl, rfl, ⟨l, hll, rfl⟩, ⟨_, rfl, rfl, rfl, rfl, rfl⟩⟩

theorem eval_compose_eq (a : Attrs L) (q2 q1 : Node L) (c : PyVal L) (kw : Kw L) :
    eval (.compose a q2 q1) c kw = Exec.bind (eval q1 c (childKw a kw)) fun o1 =>
      Exec.bind (eval q2 o1.output (childKw a kw)) fun o2 => Exec.lift (composeRest a kw o1 o2) := by
  simp only [eval, dispatchKw_node]; rfl

theorem eval_extend_eq (a : Attrs L) (p f : Node L) (c : PyVal L) (kw : Kw L) :
    eval (.extend a p f) c kw = Exec.bind (Exec.getCond a.id) fun cond =>
      Exec.bind (Exec.withSub p.id cond (Exec.bind (Exec.getCond a.id) fun cond' =>
        Exec.withSub f.id cond' (Exec.bind (eval p c (childKw a kw)) fun po =>
          Exec.bind (eval f po.output (childKw a kw)) fun fo => Exec.pure (po, fo)))) fun x =>
      Exec.bind (Exec.getCond a.id) fun cond'' => Exec.lift (extendRest a kw cond'' x.1 x.2) := by
  simp only [eval, dispatchKw_node]; rfl

theorem eval_propose_eq (a : Attrs L) (tr : Trace L → Kw L → Except Err (Trace L)) (nr : Bool) (p q : Node L) (c : PyVal L)
    (kw : Kw L) :
    eval (.propose a tr nr p q) c kw = Exec.bind (eval q c (childKw a kw)) fun qo =>
      Exec.bind (Exec.withSub p.id (some qo.trace) (eval p c (childKw a kw))) fun po =>
        Exec.lift (proposeRest a tr nr p q kw qo po) := by
  simp only [eval, dispatchKw_node]; rfl

/-- What a step returns: the facts used by the next one and by `get_stats`. -/
structure StepResult (lossFn : Out L → Except Err L.Lo) (k : Nat) (a b : String) (g : L.V → L.W) (q : Out L) (ra : RV L) (v : L.V) (d r : L.D) (o : Out L) : Prop where
  trace : o.trace = tr1 b (RV.mkImproper g (L.detachV v) .reused)
  output : o.output = outDict b (L.detachV v)
  logWeight : o.logWeight = .tensor (L.detachW (q.logWeight.val +
    ((g v + L.logProb r ra.value) - (L.logProb d v + ra.logProb))))
  type : o.type = .propose
  ix : o.ix = some (.int k)
  loss : ∃ l, lossFn o.bare = .ok l ∧ o.loss = some (l + q.loss.getD 0)
  px : ∃ px, o.px = some px ∧ px.lv = .tensor ((g v + L.logProb r ra.value) - (L.logProb d v + ra.logProb)) ∧
    px.lw = incomingLw q.logWeight ∧ px.proposalTrace.get? a = some ra ∧
    px.targetTrace.get? b = some (RV.mkImproper g v .reused) ∧
    ∃ rep, px.proposalTrace.get? b = some (RV.mk' d v .sampled rep)
  subs : ∃ qo po, o.subs = [("q_out", qo), ("p_out", po)] ∧ qo.type = .compose ∧
    ∃ q2, qo.subs = [("q1_out", q), ("q2_out", q2)] ∧ ∃ n, q2.type = .program n

theorem kernelInput_outDict (a : String) (v : L.V) : kernelInput (outDict a v) a = .ok v := by
  simp [kernelInput, outDict, getL]

theorem step_eval {α : Type} (i : ObjId) (k : Nat) (lossFn : Out L → Except Err L.Lo)
    (transf : Option (Trace L → Kw L → Except Err (Trace L))) (a b : String) (ht : TransfOk k a b transf) (hl : ∀ o, IsStep k a b o → ∃ l, lossFn o = .ok l) (h : b ≠ a)
    (fid rid pid : ObjId) (hp : pid ≠ i) (hr : rid ≠ i) (cls : String) (g : L.V → L.W) (net rnet : L.V → L.D)
    (rep rep' : Bool) (q : Node L) (c : PyVal L) (kw : Kw L) (w : World L) (hk : KwOk kw) (hw : ∀ j, w.cond j = none)
    (m : Comp L α) (F : α → Out L) (ra : α → RV L)
    (hq : eval q c { kw with ix := .int k } w = m.bind fun x => .ret (.ok (F x), w))
    (hF : ∀ x, (F x).trace = tr1 a (ra x) ∧ (ra x).prov ≠ .observed ∧ (F x).output = outDict a (ra x).value) :
    ∃ (n : Node L) (G : α → L.V → Out L), vsmcPropose i k lossFn transf (.prog fid (kernelProg a b net rep))
        (.prog rid (kernelProg b a rnet rep')) (.prog pid (densityProg cls b g)) q = .ok n ∧
      eval n c kw w = (m.bind fun x => .draw (net (ra x).value) rep fun v => .ret (.ok (G x v), w)) ∧
      ∀ x v, StepResult lossFn k a b g (F x) (ra x) v (net (ra x).value) (rnet v) (G x v) := by
  have hk' : KwOk ({ kw with ix := .int k } : Kw L) := hk
  -- the three outcomes inside a step
  let o2 : α → L.V → Out L := fun x v => Out.mk (tr1 b (RV.mk' (net (ra x).value) v .sampled rep)) .float0 (outDict b v)
    (.program "ConditionalMultivariateNormal") none none none none []
  let qo : α → L.V → Out L := fun x v => Out.mk (tr2 b (RV.mk' (net (ra x).value) v .sampled rep) a (ra x) h)
    ((F x).logWeight.add (o2 x v).logWeight) (o2 x v).output .compose (some (.int k)) (some ((F x).loss.getD 0)) none none
    [("q1_out", F x), ("q2_out", o2 x v)]
  let pp : α → L.V → Out L := fun x v => Out.mk (tr1 b (RV.mkImproper g v .reused)) (.tensor (g v)) (outDict b v)
    (.program cls) none none none none []
  let pf : α → L.V → Out L := fun x v => Out.mk (tr1 a (RV.mk' (rnet v) (ra x).value .reused rep'))
    (.tensor (L.logProb (rnet v) (ra x).value)) (outDict a (ra x).value) (.program "ConditionalMultivariateNormal")
    none none none none []
  let po : α → L.V → Out L := fun x v => Out.mk (tr2 b (RV.mkImproper g v .reused) a (RV.mk' (rnet v) (ra x).value .reused rep') h)
    (.tensor (g v + L.logProb (rnet v) (ra x).value)) (outDict a (ra x).value) .extend (some (.int k))
    (some 0) (some ([b], outDict b v)) none (if kw.debug then [("p_out", pp x v), ("f_out", pf x v)] else [])
  have hfin : ∀ x v, ∃ o, proposeRest (mkAttrs (i + 2) (some (addLoss lossFn)) none (.int k) true)
      (transf.getD fun t _ => .ok t) false
      (mkExtend i (.prog pid (densityProg cls b g)) (.prog rid (kernelProg b a rnet rep')) none none .none false)
      (mkCompose (i + 1) (.prog fid (kernelProg a b net rep)) q none none .none true) kw (qo x v) (po x v) = .ok o ∧
      StepResult lossFn k a b g (F x) (ra x) v (net (ra x).value) (rnet v) o := by
    intro x v
    obtain ⟨o, h1, h2, h3, h4, h5, h6, h7, h8, px, h9, h10, h11, h12, h13⟩ :=
      proposeRest_step i k lossFn transf a b ht hl h (.prog pid (densityProg cls b g)) (.prog rid (kernelProg b a rnet rep'))
        (.prog fid (kernelProg a b net rep)) q kw (F x) (o2 x v) (po x v) ((F x).logWeight.add (o2 x v).logWeight)
        (net (ra x).value) v rep (ra x) (hF x).2.1 g (RV.mk' (rnet v) (ra x).value .reused rep') (by simp [RV.mk'])
        (g v + L.logProb (rnet v) (ra x).value) (o2 x v).output (some (.int k)) (some ((F x).loss.getD 0)) rfl rfl rfl
    have hadd : (F x).logWeight.add (o2 x v).logWeight = (F x).logWeight := by
      show (F x).logWeight.add .float0 = _
      cases (F x).logWeight <;> rfl
    refine ⟨o, h1, h2, h3, ?_, h5, h6, h8, ⟨px, h9, h12, ?_, ?_, ?_, rep, ?_⟩, ⟨_, _, h7, rfl, _, rfl, _, rfl⟩⟩
    · rw [h4, hadd]
    · rw [h13, hadd]
    · rw [h10]; simp [h]
    · rw [h11]; simp [po]
    · rw [h10]; simp
  choose G hG hG' using hfin
  refine ⟨_, G, rfl, ?_, hG'⟩
  -- the proposal
  have hcomp : eval (mkCompose (i + 1) (.prog fid (kernelProg a b net rep)) q none none .none true) c { kw with ix := .int k } w =
      m.bind fun x => .draw (net (ra x).value) rep fun v => .ret (.ok (qo x v), w) := by
    simp only [mkCompose, eval_compose_eq, Exec.bind]
    have e : childKw (mkAttrs (i + 1) none none PyVal.none true) ({ kw with ix := .int k } : Kw L) = { kw with ix := .int k } := rfl
    rw [e, hq, Comp.bind_assoc]
    congr 1
    funext x
    simp only [Comp.bind_ret]
    rw [eval_kernel fid a b net rep _ _ w hk' (hw fid) (ra x).value (by rw [(hF x).2.2]; exact kernelInput_outDict a _)]
    simp only [Comp.bind_draw, Comp.bind_ret]
    congr 1
    funext v
    show Exec.lift _ w = _
    rw [composeRest_step (i + 1) _ (F x) (o2 x v) a b (ra x) _ h (hF x).1 rfl]
    rfl
  -- the target
  have hext : ∀ x v, eval (mkExtend i (.prog pid (densityProg cls b g)) (.prog rid (kernelProg b a rnet rep')) none none .none false)
      c { kw with ix := .int k } (w.setCond i (some (qo x v).trace)) = .ret (.ok (po x v), w.setCond i (some (qo x v).trace)) := by
    intro x v
    have e : childKw (mkAttrs i none none PyVal.none false) ({ kw with ix := .int k } : Kw L) = { kw with ix := .int k } := rfl
    have hgb : (qo x v).trace.get? b = some (RV.mk' (net (ra x).value) v .sampled rep) := by simp [qo]
    have hga : (qo x v).trace.get? a = some (ra x) := by simp [qo, h]
    have ha : (mkAttrs (L := L) i none none PyVal.none false).id = i := rfl
    simp only [mkExtend, eval_extend_eq, ha, Exec.bind, Exec.getCond, Comp.bind_ret, Exec.withSub_eq, e,
      World.setCond_cond, if_true, Node.id, hp.symm, if_false]
    rw [eval_density_cond pid cls b g c _ _ hk' (qo x v).trace (by simp) _ hgb (by simp [RV.mk'])]
    simp only [Comp.bind_ret]
    have hv : (RV.mk' (net (ra x).value) v .sampled rep : RV L).value = v := rfl
    simp only [hv, Out.output_mk]
    rw [eval_kernel_cond rid b a rnet rep' _ _ _ hk' (qo x v).trace (by simp) _ hga (hF x).2.1 v
      (kernelInput_outDict b v)]
    simp only [Comp.bind_ret, Exec.pure, World.setCond_cond, hp.symm, hr.symm, if_false, if_true]
    show Exec.lift (extendRest _ _ _ (pp x v) (pf x v)) _ = _
    rw [extendRest_step i _ _ (pp x v) (pf x v) a b _ _ h rfl rfl (by simp [RV.mk'])]
    show Comp.ret _ = _
    congr 2
    apply World.ext'
    · intro j
      simp only [World.setCond_cond, hw]
      split
      · rename_i h1; subst h1; simp [hp]
      · split
        · rename_i h1; subst h1; simp [hr]
        · rfl
    · rfl
  show eval (.propose _ _ _ _ _) c kw w = _
  simp only [eval_propose_eq, Exec.bind]
  have e : childKw (mkAttrs (i + 2) (some (addLoss lossFn)) none (.int k) true) kw = { kw with ix := .int k } := rfl
  rw [e, hcomp, Comp.bind_assoc]
  congr 1
  funext x
  simp only [Comp.bind_draw, Comp.bind_ret]
  congr 1
  funext v
  show Comp.bind (Exec.withSub i _ _ w) _ = _
  rw [Exec.withSub_eq, hext x v]
  simp only [Comp.bind_ret]
  show Exec.lift _ _ = _
  rw [hG x v]
  show Comp.ret _ = _
  congr 2
  apply World.ext'
  · intro j; simp [hw]
  · rfl

theorem traverse_propose {α : Type} (fn : Out L → Except Err α) (out q : Out L) (a : α) (memo : List α)
    (h : out.type = .propose) (h1 : fn out = .ok a) (h2 : subOut out "q_out" = some q) :
    traverseProposals fn out memo = traverseProposals fn q (a :: memo) := by
  rw [traverseProposals]
  split <;> rename_i h' <;> rw [h] at h' <;> try (cases h'; done)
  rw [h1]
  simp only
  split
  · rename_i h3; rw [h2] at h3; cases h3
  · rename_i q' h3; rw [h2] at h3; cases h3; rfl

theorem traverse_compose {α : Type} (fn : Out L → Except Err α) (out q1 q2 : Out L) (n : String) (memo : List α)
    (h : out.type = .compose) (h1 : subOut out "q1_out" = some q1) (h2 : subOut out "q2_out" = some q2)
    (h3 : q2.type = .program n) :
    traverseProposals fn out memo = if isInfType q1.type = true then traverseProposals fn q1 memo else .ok memo := by
  rw [traverseProposals]
  split <;> rename_i h' <;> rw [h] at h' <;> try (cases h'; done)
  split
  · rename_i h4; rw [h1] at h4; cases h4
  · rename_i q1' h4
    rw [h1] at h4; cases h4
    split
    · rename_i h5; rw [h2] at h5; cases h5
    · rename_i q2' h5
      rw [h2] at h5; cases h5
      have : isInfType q2.type = false := by rw [h3]; rfl
      rw [this]
      cases isInfType q1.type <;> rfl

theorem traverse_resample {α : Type} (fn : Out L → Except Err α) (out q : Out L) (memo : List α)
    (h : out.type = .resample) (h2 : subOut out "q_out" = some q) :
    traverseProposals fn out memo = traverseProposals fn q memo := by
  rw [traverseProposals]
  split <;> rename_i h' <;> rw [h] at h' <;> try (cases h'; done)
  split
  · rename_i h3; rw [h2] at h3; cases h3
  · rename_i q' h3; rw [h2] at h3; cases h3; rfl

theorem traverse_resample_none {α : Type} (fn : Out L → Except Err α) (out : Out L) (memo : List α)
    (h : out.type = .resample) (h2 : subOut out "q_out" = none) :
    traverseProposals fn out memo = .error .attribute := by
  rw [traverseProposals]
  split <;> rename_i h' <;> rw [h] at h' <;> try (cases h'; done)
  split
  · rfl
  · rename_i q' h3; rw [h2] at h3; cases h3

end Verif
