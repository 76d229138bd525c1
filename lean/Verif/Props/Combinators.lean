import Verif.Proofs.Combinators
import Verif.Props.Traces
/-
C07-C12: Compose, Extend and Propose.
-/
namespace Verif
open Spec

namespace Toy
/-- Attributes of a default combinator object. -/
def at' (i : ObjId) : Attrs L := mkAttrs i none none .none false
/-- `Compose(z, x)` -/
def zx : Node L := .compose (at' 4) (.prog 2 (latent "z" 1)) (.prog 5 (latent "x" 1))
/-- `Compose(x, x)` -/
def xx : Node L := .compose (at' 4) (.prog 2 (latent "x" 1)) (.prog 5 (latent "x" 1))
/-- `Extend(x, z)` -/
def ext : Node L := .extend (at' 6) (.prog 1 (latent "x" 2)) (.prog 7 (latent "z" 3))
/-- `Propose(Extend(x, z), Compose(z, x))` -/
def prop : Node L := .propose (at' 3) (fun t _ => .ok t) true ext zx
end Toy

variable {L : Lang}

theorem composeResult_unique {a : Attrs L} {kw : Kw L} {o1 o2 : Out L} {r r' : Except Err (Out L)}
    (h : ComposeResult a kw o1 o2 r) (h' : ComposeResult a kw o1 o2 r') : r = r' := by
  rcases h with ⟨h1, rfl⟩ | ⟨h1, t, lw, h2, h3, h4, rfl⟩ <;> rcases h' with ⟨h1', rfl⟩ | ⟨h1', t', lw', h2', h3', h4', rfl⟩
  · rfl
  · exact absurd h1 h1'
  · exact absurd h1' h1
  · have e1 : t = t' := Dict.ext' (h2.trans h2'.symm)
    have e2 : lw = lw' := LW.ext_val (h3.trans h3'.symm) (h4.trans h4'.symm)
    rw [e1, e2]

theorem extendResult_unique {a : Attrs L} {kw : Kw L} {cond : Option (Trace L)} {po fo : Out L}
    {r r' : Except Err (Out L)} (h : ExtendResult a kw cond po fo r) (h' : ExtendResult a kw cond po fo r') : r = r' := by
  rcases h with ⟨h1, rfl⟩ | ⟨h1, h1a, t, lw, h2, h3, h4, rfl⟩ <;>
    rcases h' with ⟨h1', rfl⟩ | ⟨h1', h1a', t', lw', h2', h3', h4', rfl⟩
  · rfl
  · rcases h1 with h1 | h1
    · exact absurd h1 h1'
    · exact absurd h1a' h1
  · rcases h1' with h1' | h1'
    · exact absurd h1' h1
    · exact absurd h1a h1'
  · have e1 : t = t' := Dict.ext' (h2.trans h2'.symm)
    have e2 : lw = lw' := LW.ext_val (h3.trans h3'.symm) (h4.trans h4'.symm)
    rw [e1, e2]

/-- C07. How a Compose runs: q1 on the input, then q2 on q1's output, both with the caller's arguments; if either raises
so does the Compose; if their traces share an address it raises; otherwise its log weight is the sum of theirs, its
output is q2's, its trace is the disjoint union of both (every variable unchanged), and only the loss function can
still raise. -/
theorem C07_compose (a : Attrs L) (q2 q1 : Node L) (c : PyVal L) (kw : Kw L) (w w' : World L)
    (r : Except Err (Out L)) :
    (eval (.compose a q2 q1) c kw).Runs w r w' ↔
      (∃ e, r = .error e ∧ (eval q1 c (subKw a kw)).Runs w (.error e) w') ∨
      ∃ o1 w1, (eval q1 c (subKw a kw)).Runs w (.ok o1) w1 ∧
        ((∃ e, r = .error e ∧ (eval q2 o1.output (subKw a kw)).Runs w1 (.error e) w') ∨
         ∃ o2, (eval q2 o1.output (subKw a kw)).Runs w1 (.ok o2) w' ∧ ComposeResult a kw o1 o2 r) := by
  rw [eval_compose_Runs]
  have key : ∀ o1 o2, r = composeRest a kw o1 o2 ↔ ComposeResult a kw o1 o2 r := fun o1 o2 =>
    ⟨fun h => h ▸ composeRest_spec a kw o1 o2, fun h => composeResult_unique h (composeRest_spec a kw o1 o2)⟩
  simp only [key]

/-- C07, a Compose that returns, field by field. -/
theorem C07_compose_ok (a : Attrs L) (q2 q1 : Node L) (c : PyVal L) (kw : Kw L) (w w' : World L) (o : Out L)
    (h : (eval (.compose a q2 q1) c kw).Runs w (.ok o) w') :
    ∃ o1 o2 w1, (eval q1 c (subKw a kw)).Runs w (.ok o1) w1 ∧ (eval q2 o1.output (subKw a kw)).Runs w1 (.ok o2) w' ∧
      o.logWeight.val = o1.logWeight.val + o2.logWeight.val ∧ o.output = o2.output ∧
      (∀ k, ¬ (k ∈ o1.trace.keys ∧ k ∈ o2.trace.keys)) ∧
      o.trace.entries = o2.trace.entries ++ o1.trace.entries := by
  rw [C07_compose] at h
  rcases h with ⟨e, h, -⟩ | ⟨o1, w1, h1, ⟨e, h, -⟩ | ⟨o2, h2, h3⟩⟩
  · cases h
  · cases h
  rcases h3 with ⟨-, h⟩ | ⟨h4, t, lw, h5, h6, -, h7⟩
  · cases h
  obtain ⟨l, -, rfl⟩ := finish_ok h7.symm
  exact ⟨o1, o2, w1, h1, h2, h6, rfl, fun k hk => h4 ⟨k, hk⟩, h5⟩

/-- C07: a Compose that returns and one that raises because of the shared address. -/
example : (∃ o w', (eval Toy.zx .none {}).Runs Toy.w0 (.ok o) w' ∧ o.trace.keys = ["z", "x"]) ∧
    ∃ w', (eval Toy.xx .none {}).Runs Toy.w0 (.error .assertion) w' := by
  constructor
  · have h : ∃ r w', (eval Toy.zx .none {}).Runs Toy.w0 r w' ∧
        (match r with | .ok o => o.trace.keys = ["z", "x"] | .error _ => False) :=
      ⟨_, _, ⟨(5, 0), (7, 0), rfl⟩, rfl⟩
    obtain ⟨r | o, w', h1, h2⟩ := h
    · exact h2.elim
    · exact ⟨o, w', h1, h2⟩
  · exact ⟨_, (5, 0), (6, 0), rfl⟩

/-- C08. How an Extend runs (for an object that is not below itself): p on the input and f on p's output, both holding
the Extend's conditioning trace; an exception in either propagates; if the traces share an address, or f's result has an
OBSERVED variable, or (without conditioning trace) a REUSED one or a non-zero weight, it raises; otherwise its log
weight is p's plus the sum of all log_probs of f's trace, its output is f's, its trace is the disjoint union, and p's
addresses and output are the marginal. -/
theorem C08_extend (a : Attrs L) (p f : Node L) (c : PyVal L) (kw : Kw L) (w w' : World L) (r : Except Err (Out L))
    (ha : a.id ∉ below (.extend a p f)) :
    (eval (.extend a p f) c kw).Runs w r w' ↔
      ∃ w2, w' = (w2.setCond f.id none).setCond p.id none ∧
      ((∃ e, r = .error e ∧
        (eval p c (subKw a kw)).Runs ((w.setCond p.id (w.cond a.id)).setCond f.id (w.cond a.id)) (.error e) w2) ∨
      ∃ po w1, (eval p c (subKw a kw)).Runs ((w.setCond p.id (w.cond a.id)).setCond f.id (w.cond a.id)) (.ok po) w1 ∧
        ((∃ e, r = .error e ∧ (eval f po.output (subKw a kw)).Runs w1 (.error e) w2) ∨
         ∃ fo, (eval f po.output (subKw a kw)).Runs w1 (.ok fo) w2 ∧ ExtendResult a kw (w.cond a.id) po fo r)) := by
  rw [eval_extend_Runs _ _ _ _ _ _ _ _ ha]
  have key : ∀ po fo, r = extendRest a kw (w.cond a.id) po fo ↔ ExtendResult a kw (w.cond a.id) po fo r := fun po fo =>
    ⟨fun h => h ▸ extendRest_spec a kw _ po fo, fun h => extendResult_unique h (extendRest_spec a kw _ po fo)⟩
  simp only [key]

/-- C08, an Extend that returns, field by field. -/
theorem C08_extend_ok (a : Attrs L) (p f : Node L) (c : PyVal L) (kw : Kw L) (w w' : World L) (o : Out L)
    (ha : a.id ∉ below (.extend a p f)) (h : (eval (.extend a p f) c kw).Runs w (.ok o) w') :
    ∃ po fo w1 w2,
      (eval p c (subKw a kw)).Runs ((w.setCond p.id (w.cond a.id)).setCond f.id (w.cond a.id)) (.ok po) w1 ∧
      (eval f po.output (subKw a kw)).Runs w1 (.ok fo) w2 ∧
      o.logWeight.val = po.logWeight.val + sumLogProb fo.trace (fun _ _ => true) ∧ o.output = fo.output ∧
      (∀ k, ¬ (k ∈ po.trace.keys ∧ k ∈ fo.trace.keys)) ∧ o.trace.entries = po.trace.entries ++ fo.trace.entries ∧
      (∀ k rv, fo.trace.get? k = some rv → rv.prov ≠ .observed ∧ (w.cond a.id = none → rv.prov ≠ .reused)) ∧
      o.marginal = some (po.trace.keys, po.output) := by
  rw [C08_extend _ _ _ _ _ _ _ _ ha] at h
  obtain ⟨w2, -, ⟨e, h, -⟩ | ⟨po, w1, h1, ⟨e, h, -⟩ | ⟨fo, h2, h3⟩⟩⟩ := h
  · cases h
  · cases h
  rcases h3 with ⟨-, h⟩ | ⟨h4, hk, t, lw, h5, h6, -, h7⟩
  · cases h
  obtain ⟨l, -, rfl⟩ := finish_ok h7.symm
  exact ⟨po, fo, w1, w2, h1, h2, h6, rfl, fun k hk => h4 ⟨k, hk⟩, h5, hk.1, rfl⟩

/-- C08: an Extend that returns, and one whose kernel observes. -/
example : Toy.ext.id ∉ below Toy.ext ∧
    (∃ o w', (eval Toy.ext .none {}).Runs Toy.w0 (.ok o) w' ∧ o.logWeight = .tensor (21, 0)) ∧
    ∃ w', (eval (.extend (Toy.at' 6) (.prog 1 (Toy.latent "z" 2)) (.prog 7 Toy.obsModel)) .none {}).Runs Toy.w0
      (.error .assertion) w' := by
  refine ⟨by simp [Toy.ext, below, Node.id, Toy.at', mkAttrs], ?_, ?_⟩
  · have h : ∃ r w', (eval Toy.ext .none {}).Runs Toy.w0 r w' ∧
        (match r with | .ok o => o.logWeight = .tensor (21, 0) | .error _ => False) :=
      ⟨_, _, ⟨(5, 0), (7, 0), rfl⟩, rfl⟩
    obtain ⟨r | o, w', h1, h2⟩ := h
    · exact h2.elim
    · exact ⟨o, w', h1, h2⟩
  · exact ⟨_, (5, 0), (6, 0), rfl⟩

theorem eval_propose_ok {a : Attrs L} {tr : Trace L → Kw L → Except Err (Trace L)} {nr : Bool} {p q : Node L}
    {c : PyVal L} {kw : Kw L} {w w' : World L} {o : Out L}
    (h : (eval (.propose a tr nr p q) c kw).Runs w (.ok o) w') :
    ∃ qo po w1 w2, (eval q c (subKw a kw)).Runs w (.ok qo) w1 ∧
      (eval p c (subKw a kw)).Runs (w1.setCond p.id (some qo.trace)) (.ok po) w2 ∧ w' = w2.setCond p.id none ∧
      proposeRest a tr nr p q kw qo po = .ok o := by
  rw [eval_propose_Runs] at h
  rcases h with ⟨e, h, -⟩ | ⟨qo, w1, w2, h1, h2, ⟨e, h, -⟩ | ⟨po, h3, h4⟩⟩
  · cases h
  · cases h
  · exact ⟨qo, po, w1, w2, h1, h3, h2, h4.symm⟩

/-- C09. A Propose that returns: q ran on the input, p ran on the same input conditioned on q's trace, and the log weight
is (the detached) q.log_weight + p.log_weight - the sum of q's log_probs over the addresses that are OBSERVED in q or
latent in both. The incremental weight `lv` is the same without q.log_weight and not detached; `nodes` are these
addresses; the full proposal and target traces are kept. -/
theorem C09_importance_weight (a : Attrs L) (nr : Bool) (p q : Node L) (c : PyVal L) (kw : Kw L) (w w' : World L)
    (o : Out L) (h : (eval (.propose a (fun t _ => .ok t) nr p q) c kw).Runs w (.ok o) w') :
    ∃ qo po w1 w2, (eval q c (subKw a kw)).Runs w (.ok qo) w1 ∧
      (eval p c (subKw a kw)).Runs (w1.setCond p.id (some qo.trace)) (.ok po) w2 ∧ w' = w2.setCond p.id none ∧
      o.logWeight = .tensor (L.detachW
        (qo.logWeight.val + po.logWeight.val - sumLogProb qo.trace (InDenominator po.trace))) ∧
      ∃ x, o.px = some x ∧ x.lv.val = po.logWeight.val - sumLogProb qo.trace (InDenominator po.trace) ∧
        x.lw = (match qo.logWeight with | .float0 => 0 | .tensor v => L.detachW v) ∧
        x.proposalTrace = qo.trace ∧ x.targetTrace = po.trace ∧
        ∀ k, k ∈ x.nodes ↔ ∃ rv, qo.trace.get? k = some rv ∧ InDenominator po.trace k rv = true := by
  obtain ⟨qo, po, w1, w2, h1, h2, h3, h4⟩ := eval_propose_ok h
  obtain ⟨qt, m, t, fwd, lv, x, e1, e2, e3, -, -, -, e4⟩ := proposeRest_ok h4
  cases e1
  obtain ⟨l, -, rfl⟩ := finish_ok e4
  have hs : sumLogProb qo.trace (fun k _ => proposeNodes qo.trace po.trace k) =
      sumLogProb qo.trace (InDenominator po.trace) :=
    sumLogProb_congr _ fun k rv hk => proposeNodes_eq _ _ _ _ hk
  rw [hs] at e2
  refine ⟨qo, po, w1, w2, h1, h2, h3, ?_, _, rfl, e2, ?_, rfl, rfl, ?_⟩
  · simp only [Out.setLoss_mk, Out.setSubs_mk, Out.logWeight_mk, e3, e2, add_sub_assoc]
  · simp only [incomingLw]; cases qo.logWeight <;> rfl
  · intro k
    simp only [List.mem_filter]
    constructor
    · rintro ⟨hk, hn⟩
      obtain ⟨rv, hrv⟩ := Dict.mem_keys_iff.1 hk
      exact ⟨rv, hrv, by rw [← proposeNodes_eq _ _ _ _ hrv]; exact hn⟩
    · rintro ⟨rv, hrv, hn⟩
      exact ⟨Dict.mem_keys_iff.2 ⟨rv, hrv⟩, by rw [proposeNodes_eq _ _ _ _ hrv]; exact hn⟩

/-- C09, with a user-supplied transformation of the proposal's trace: the log_probs are summed over the transformed
trace, the addresses still come from the untransformed one. -/
theorem C09_transformed (a : Attrs L) (tr : Trace L → Kw L → Except Err (Trace L)) (nr : Bool) (p q : Node L)
    (c : PyVal L) (kw : Kw L) (w w' : World L) (o : Out L)
    (h : (eval (.propose a tr nr p q) c kw).Runs w (.ok o) w') :
    ∃ qo po w1 w2 qt, (eval q c (subKw a kw)).Runs w (.ok qo) w1 ∧
      (eval p c (subKw a kw)).Runs (w1.setCond p.id (some qo.trace)) (.ok po) w2 ∧
      tr qo.trace { subKw a kw with shared := [] } = .ok qt ∧
      o.logWeight = .tensor (L.detachW (qo.logWeight.val + po.logWeight.val -
        sumLogProb qt (fun k _ => match qo.trace.get? k with | some rv => InDenominator po.trace k rv | none => false))) := by
  obtain ⟨qo, po, w1, w2, h1, h2, -, h4⟩ := eval_propose_ok h
  obtain ⟨qt, m, t, fwd, lv, x, e1, e2, e3, -, -, -, e4⟩ := proposeRest_ok h4
  obtain ⟨l, -, rfl⟩ := finish_ok e4
  refine ⟨qo, po, w1, w2, qt, h1, h2, e1, ?_⟩
  simp only [Out.setLoss_mk, Out.setSubs_mk, Out.logWeight_mk, e3, e2, add_sub_assoc]
  have : (fun (k : String) (_ : RV L) => proposeNodes qo.trace po.trace k) =
      (fun k _ => match qo.trace.get? k with | some rv => InDenominator po.trace k rv | none => false) := by
    funext k _
    cases hk : qo.trace.get? k with
    | none => simp [proposeNodes, Dict.contains, hk]
    | some rv => exact proposeNodes_eq _ _ _ _ hk
  rw [this]

/-- C09: a run of `Propose(Extend(x, z), Compose(z, x))`, in which z and x are reused and weighed. -/
example : ∃ o w', (eval Toy.prop .none {}).Runs Toy.w0 (.ok o) w' ∧ o.logWeight = .tensor (19, 0) ∧
    o.trace.keys = ["x"] := by
  have h : ∃ r w', (eval Toy.prop .none {}).Runs Toy.w0 r w' ∧
      (match r with | .ok o => o.logWeight = .tensor (19, 0) ∧ o.trace.keys = ["x"] | .error _ => False) :=
    ⟨_, _, ⟨(5, 1), (7, 1), rfl⟩, rfl, rfl⟩
  obtain ⟨r | o, w', h1, h2⟩ := h
  · exact h2.elim
  · exact ⟨o, w', h1, h2⟩

/-- What detaching an output should do: a tensor is detached, in a dict every tensor stored directly under a key is, and
everything else is passed on unchanged. -/
def Spec.Detached (m o : PyVal L) : Prop :=
  match m with
  | .tensor v => o = .tensor (L.detachV v)
  | .dict kvs => ∃ kvs', o = .dict kvs' ∧ keysL kvs' = keysL kvs ∧
      ∀ i (h : i < kvs.length) (h' : i < kvs'.length),
        (∀ v, kvs[i].2 = .tensor v → kvs'[i].2 = .tensor (L.detachV v)) ∧
        ((∀ v, kvs[i].2 ≠ .tensor v) → kvs'[i].2 = kvs[i].2)
  | x => o = x

theorem detached_detachOutput (m : PyVal L) : Detached m (detachOutput m) := by
  cases m with
  | dict kvs =>
    refine ⟨_, rfl, ?_, ?_⟩
    · simp [keysL, Function.comp_def]
    · intro i h h'
      simp only [List.getElem_map]
      cases kvs[i].2 <;> simp
  | _ => rfl

/-- The trace that Propose should return for the target's (marginal) trace `t`: that trace, or with `_no_reruns=False`
every variable of it rerun with its value detached. -/
def Spec.Returned (noReruns : Bool) (t o : Trace L) : Prop :=
  if noReruns then o = t else List.Forall₂ (fun e e' => e'.1 = e.1 ∧ Rerun e.2 e'.2) t.entries o.entries

theorem returned_of {nr : Bool} {t o : Trace L} (h : if nr then o = t else rerunDetached t = .ok o) : Returned nr t o := by
  unfold Returned
  cases nr with
  | true => simpa using h
  | false =>
    simp only [Bool.false_eq_true, if_false] at h ⊢
    by_cases hk : ∃ e ∈ t.entries, e.2.kind = .other
    · rw [(C40_rerun t).2 hk] at h; cases h
    · simp only [not_exists, not_and] at hk
      obtain ⟨r, h1, h2⟩ := (C40_rerun t).1 hk
      rw [h1] at h; cases h; exact h2

/-- C10. Propose(Extend(p, f), q) returns p's part only: its trace is the trace of p's run inside the Extend (none of
f's addresses), and its output is p's output, detached. -/
theorem C10_marginalises (a b : Attrs L) (tr : Trace L → Kw L → Except Err (Trace L)) (nr : Bool) (p f q : Node L)
    (c : PyVal L) (kw : Kw L) (w w' : World L) (o : Out L) (hb : b.id ∉ below (.extend b p f))
    (h : (eval (.propose a tr nr (.extend b p f) q) c kw).Runs w (.ok o) w') :
    ∃ qo w1 po w3 w2, (eval q c (subKw a kw)).Runs w (.ok qo) w1 ∧
      (eval p c (subKw b (subKw a kw))).Runs w3 (.ok po) w2 ∧ w3.cond p.id = some qo.trace ∧
      Returned nr po.trace o.trace ∧ Detached po.output o.output := by
  obtain ⟨qo, eo, w1, w2, h1, h2, h3, h4⟩ := eval_propose_ok h
  obtain ⟨qt, m, t, fwd, lv, x, -, -, -, e1, e2, -, e4⟩ := proposeRest_ok h4
  obtain ⟨po, fo, w3, w4, h5, h6, -, -, h7, h8, -, h9⟩ := C08_extend_ok _ _ _ _ _ _ _ _ hb h2
  obtain ⟨l, -, rfl⟩ := finish_ok e4
  simp only [marginalize, Node.isExtend, if_true, h9, copytraces_single] at e1
  cases e1
  refine ⟨qo, w1, po, _, _, h1, h5, ?_, ?_, detached_detachOutput _⟩
  · simp only [World.setCond_cond, Node.id]
    split <;> simp
  have ht : eo.trace.filterKeys (fun k => !(eo.trace.contains k && !po.trace.keys.contains k)) = po.trace := by
    apply Dict.ext'
    simp only [Dict.filterKeys, h8, List.filter_append]
    have e1 : po.trace.entries.filter (fun e => !(eo.trace.contains e.1 && !po.trace.keys.contains e.1)) =
        po.trace.entries := by
      rw [List.filter_eq_self]
      intro e he
      have : e.1 ∈ po.trace.keys := Dict.mem_keys_of_mem (v := e.2) he
      simp [this]
    have e2 : fo.trace.entries.filter (fun e => !(eo.trace.contains e.1 && !po.trace.keys.contains e.1)) = [] := by
      rw [List.filter_eq_nil_iff]
      intro e he
      have h1 : e.1 ∈ fo.trace.keys := Dict.mem_keys_of_mem (v := e.2) he
      have h2 : e.1 ∉ po.trace.keys := fun hh => h7 _ ⟨hh, h1⟩
      have h3 : eo.trace.contains e.1 = true := by
        rw [Dict.contains_iff]
        have : (e.1, e.2) ∈ eo.trace.entries := by rw [h8]; exact List.mem_append_right _ he
        exact Dict.mem_keys_of_mem this
      simp [h2, h3]
    rw [e1, e2, List.append_nil]
  dsimp only at e2
  rw [ht] at e2
  exact returned_of e2

/-- C10. When the target is not an Extend, the trace is the whole target trace and the output its output. -/
theorem C10_plain_target (a : Attrs L) (tr : Trace L → Kw L → Except Err (Trace L)) (nr : Bool) (p q : Node L)
    (c : PyVal L) (kw : Kw L) (w w' : World L) (o : Out L) (hp : ∀ b p' f, p ≠ .extend b p' f)
    (h : (eval (.propose a tr nr p q) c kw).Runs w (.ok o) w') :
    ∃ qo w1 po w2, (eval q c (subKw a kw)).Runs w (.ok qo) w1 ∧
      (eval p c (subKw a kw)).Runs (w1.setCond p.id (some qo.trace)) (.ok po) w2 ∧
      Returned nr po.trace o.trace ∧ Detached po.output o.output := by
  obtain ⟨qo, po, w1, w2, h1, h2, h3, h4⟩ := eval_propose_ok h
  obtain ⟨qt, m, t, fwd, lv, x, -, -, -, e1, e2, -, e4⟩ := proposeRest_ok h4
  obtain ⟨l, -, rfl⟩ := finish_ok e4
  have : p.isExtend = false := by
    cases p with
    | extend b p' f => exact absurd rfl (hp b p' f)
    | _ => rfl
  simp only [marginalize, this] at e1
  cases e1
  exact ⟨qo, w1, po, _, h1, h2, returned_of e2, detached_detachOutput _⟩

/-- C10: `Toy.prop` above is such a call; the target and its kernel are different objects. -/
example : (Toy.at' 6).id ∉ below Toy.ext := by simp [Toy.ext, below, Node.id, Toy.at', mkAttrs]

/-- C11. The constructor accepts every proposal (it only rejects a Compose target). -/
theorem C11_constructor (i : ObjId) (p q : Node L) (lossFn loss0 ix transf debug nr) :
    (∃ n, mkPropose i p q lossFn loss0 ix transf debug nr = .ok n) ↔ ∀ a q2 q1, p ≠ .compose a q2 q1 := by
  unfold mkPropose
  cases p <;> simp [Node.isCompose]

/-- C11. A Propose whose proposal is a plain Program, which has no `_debug` attribute, never returns. -/
theorem C11_plain_program_proposal (a : Attrs L) (tr : Trace L → Kw L → Except Err (Trace L)) (nr : Bool) (p : Node L)
    (i : ObjId) (s : ProgSpec L) (hs : s.debugAttr = none) (c : PyVal L) (kw : Kw L) (w w' : World L) (o : Out L) :
    ¬ (eval (.propose a tr nr p (.prog i s)) c kw).Runs w (.ok o) w' := by
  intro h
  obtain ⟨qo, po, w1, w2, h1, h2, h3, h4⟩ := eval_propose_ok h
  obtain ⟨qt, m, t, fwd, lv, x, -, -, -, -, -, e3, -⟩ := proposeRest_ok h4
  simp [forwardTrace, Node.debugAttr, hs] at e3

/-- The class recorded in a result. -/
def Spec.typeOf : Node L → OutTy
  | .prog _ s => .program s.name
  | .resample .. => .resample
  | .extend .. => .extend
  | .compose .. => .compose
  | .propose .. => .propose

theorem finish_type {a : Attrs L} {kw : Kw L} {out sub : Out L} {subs : List (String × Out L)} {o : Out L}
    (h : finish a kw out sub subs = .ok o) : o.type = out.type := by
  obtain ⟨l, -, rfl⟩ := finish_ok h
  cases out; rfl

theorem eval_type (n : Node L) (c : PyVal L) (kw : Kw L) (w w' : World L) (o : Out L)
    (h : (eval n c kw).Runs w (.ok o) w') : o.type = typeOf n := by
  cases n with
  | prog i s =>
    rw [eval_prog_Runs] at h
    obtain ⟨-, _, _, -, rfl⟩ := h
    rfl
  | resample a r q =>
    unfold eval resampleRest at h
    simp only [Exec.Runs_bind_ok, Exec.Runs_lift, Exec.Runs_pure] at h
    obtain ⟨qo, w1, h1, ⟨t, lw⟩, w2, h2, c2, w3, ⟨h3, -⟩, u, w4, -, o', w5, ⟨h5, -⟩, h6, -⟩ := h
    cases h6
    have := foldLoss_finish a kw (Out.mk t lw c2 .resample (some (pickIx a.ix kw.ix)) none none none []) qo
      [("q_out", qo)] rfl
    rw [← h5] at this
    exact finish_type this.symm
  | compose a q2 q1 =>
    rw [C07_compose] at h
    rcases h with ⟨e, h, -⟩ | ⟨o1, w1, h1, ⟨e, h, -⟩ | ⟨o2, h2, h3⟩⟩
    · cases h
    · cases h
    rcases h3 with ⟨-, h⟩ | ⟨h4, t, lw, h5, h6, -, h7⟩
    · cases h
    exact finish_type h7.symm
  | extend a p f =>
    unfold eval at h
    simp only [Exec.Runs_bind_ok, Exec.Runs_lift] at h
    obtain ⟨_, _, -, ⟨po, fo⟩, w2, -, cond, w3, -, h, -⟩ := h
    have := extendRest_spec a kw cond po fo
    rw [← h] at this
    rcases this with ⟨-, h⟩ | ⟨-, -, _, _, -, -, -, h⟩
    · cases h
    exact finish_type h.symm
  | propose a tr nr p q =>
    obtain ⟨qo, po, w1, w2, h1, h2, h3, h4⟩ := eval_propose_ok h
    obtain ⟨qt, m, t, fwd, lv, x, -, -, -, -, -, -, e3⟩ := proposeRest_ok h4
    exact finish_type e3

/-- C11. With a proposal that has the attribute (every combinator, or a Program to which it was added), whatever the
proposal returned, the read does not fail: it gives q2's trace for a debugging Compose and None otherwise. -/
theorem C11_debug_read_succeeds (q : Node L) (b : Bool) (hq : q.debugAttr = some b) (c : PyVal L) (kw : Kw L)
    (w w' : World L) (qo : Out L) (h : (eval q c kw).Runs w (.ok qo) w') :
    ∃ fwd, forwardTrace q qo = .ok fwd ∧ (fwd.isSome = true ↔ b = true ∧ ∃ a q2 q1, q = .compose a q2 q1) := by
  have ht := eval_type q c kw w w' qo h
  cases b with
  | false => exact ⟨none, by simp [forwardTrace, hq], by simp⟩
  | true =>
    cases q with
    | compose a q2 q1 =>
      rw [C07_compose] at h
      rcases h with ⟨e, h, -⟩ | ⟨o1, w1, h1, ⟨e, h, -⟩ | ⟨o2, h2, h3⟩⟩
      · cases h
      · cases h
      rcases h3 with ⟨-, h⟩ | ⟨h4, t, lw, h5, h6, -, h7⟩
      · cases h
      obtain ⟨l, -, rfl⟩ := finish_ok h7.symm
      have ha : a.debug = true := by simpa [Node.debugAttr] using hq
      refine ⟨some o2.trace, ?_, by simp⟩
      simp [forwardTrace, Node.debugAttr, ha, getL]
    | _ =>
      refine ⟨none, ?_, by simp⟩
      simp [forwardTrace, hq, ht, typeOf]

/-- C11: a Program without the attribute as the proposal, in a run that reaches the read and raises. -/
example : (Toy.latent "x" 1).debugAttr = none ∧
    ∃ w', (eval (.propose (Toy.at' 3) (fun t _ => .ok t) true (.prog 1 (Toy.latent "x" 2)) (.prog 2 (Toy.latent "x" 1)))
      .none {}).Runs Toy.w0 (.error .attribute) w' := ⟨rfl, _, (5, 0), rfl⟩

/-- C12. What Propose passes on: the log weight is a detached tensor; the output is the (marginal) output of the target,
detached one dict level deep; the incremental weight `lv` is the undetached difference. -/
theorem C12_detached (a : Attrs L) (tr : Trace L → Kw L → Except Err (Trace L)) (nr : Bool) (p q : Node L)
    (c : PyVal L) (kw : Kw L) (w w' : World L) (o : Out L)
    (h : (eval (.propose a tr nr p q) c kw).Runs w (.ok o) w') :
    ∃ qo po w1 w2 lv m, (eval q c (subKw a kw)).Runs w (.ok qo) w1 ∧ (eval p c (subKw a kw)).Runs
        (w1.setCond p.id (some qo.trace)) (.ok po) w2 ∧
      o.logWeight = .tensor (L.detachW (qo.logWeight.val + lv)) ∧
      (∃ x, o.px = some x ∧ x.lv.val = lv) ∧
      (m = po.output ∨ ∃ ks, po.marginal = some (ks, m)) ∧ Detached m o.output := by
  obtain ⟨qo, po, w1, w2, h1, h2, -, h4⟩ := eval_propose_ok h
  obtain ⟨qt, m, t, fwd, lv, x, e1, e2, e3, e5, -, -, e4⟩ := proposeRest_ok h4
  obtain ⟨l, -, rfl⟩ := finish_ok e4
  refine ⟨qo, po, w1, w2, lv.val, m.1, h1, h2, by simp [e3], ⟨_, rfl, rfl⟩, ?_, detached_detachOutput _⟩
  unfold marginalize at e5
  split at e5
  · split at e5
    · rename_i keys mo hm
      rw [copytraces_single] at e5
      cases e5
      exact Or.inr ⟨keys, hm⟩
    · cases e5
  · cases e5; exact Or.inl rfl

/-- C12. A dict nested in the output, and so every tensor in it, is passed on undetached. -/
theorem C12_nested_not_detached (k : String) (kvs : List (String × PyVal L)) (o : PyVal L)
    (h : Detached (.dict [(k, .dict kvs)]) o) : o = .dict [(k, .dict kvs)] := by
  obtain ⟨kvs', rfl, h1, h2⟩ := h
  match kvs', h1 with
  | [(k', v')], h1 =>
    have := (h2 0 (by simp) (by simp)).2 (by simp)
    simp [keysL] at h1 this
    rw [h1, this]

/-- C12: in a run of `Toy.prop` whose draws carry tangents, the weight (with tangent) and the output are detached. -/
example : ∃ o w', (eval Toy.prop .none {}).Runs Toy.w0 (.ok o) w' ∧ o.output = .dict [("x", .tensor (5, 0))] ∧
    ∃ x, o.px = some x ∧ x.lv = .tensor (19, 3) := by
  have h : ∃ r w', (eval Toy.prop .none {}).Runs Toy.w0 r w' ∧
      (match r with
        | .ok o => o.output = .dict [("x", .tensor (5, 0))] ∧ ∃ x, o.px = some x ∧ x.lv = .tensor (19, 3)
        | .error _ => False) :=
    ⟨_, _, ⟨(5, 1), (7, 1), rfl⟩, rfl, _, rfl, rfl⟩
  obtain ⟨r | o, w', h1, h2⟩ := h
  · exact h2.elim
  · exact ⟨o, w', h1, h2⟩

end Verif
