import Verif.Proofs.Scope
import Verif.Spec.Combinators
/-
Inversion of the combinators' `__call__`s.
-/
namespace Verif
open Spec
variable {L : Lang}

theorem LW.add_eq_float0 {W : Type} [AddCommGroup W] {a b : LW W} : a.add b = .float0 ↔ a = .float0 ∧ b = .float0 := by
  cases a <;> cases b <;> simp [LW.add]

theorem LW.ext_val {W : Type} [AddCommGroup W] {a b : LW W} (h : a.val = b.val) (hf : a = .float0 ↔ b = .float0) :
    a = b := by
  cases a <;> cases b <;> simp_all

theorem pickIx_eq (own passed : PyVal L) : pickIx own passed = nearest own passed := by
  cases own <;> rfl

theorem childKw_eq (a : Attrs L) (kw : Kw L) : childKw a kw = subKw a kw := by
  simp [childKw, subKw, pickIx_eq]

theorem disjointKeys_eq_true {a b : Trace L} : disjointKeys a b = true ↔ ¬ Overlap b a := by
  simp only [disjointKeys, List.all_eq_true, Bool.not_eq_true', Dict.contains_eq_false, Overlap, not_exists, not_and]
  constructor
  · intro h k h1 h2; exact h k h2 h1
  · intro h k h1 h2; exact h k h2 h1

theorem foldLoss_finish (a : Attrs L) (kw : Kw L) (out sub : Out L) (subs : List (String × Out L))
    (h : out.subs = []) :
    (do let o ← foldLoss a out sub
        return if kw.debug || a.debug then o.setSubs subs else o) = finish a kw out sub subs := by
  obtain ⟨t, lw, o, ty, ix, l, m, px, ss⟩ := out
  simp only [Out.subs_mk] at h
  subst h
  unfold foldLoss finish
  have : sub.loss.getD a.loss0 = (match sub.loss with | some l => l | none => a.loss0) := by
    cases sub.loss <;> rfl
  rw [this]
  cases a.lossFn _ _ with
  | error e => rfl
  | ok l' =>
    cases h1 : kw.debug <;> cases h2 : a.debug <;> rfl

theorem finish_ok {a : Attrs L} {kw : Kw L} {out sub : Out L} {subs : List (String × Out L)} {o : Out L}
    (h : finish a kw out sub subs = .ok o) :
    ∃ l, a.lossFn out (match sub.loss with | some l => l | none => a.loss0) = .ok l ∧
      o = (out.setLoss l).setSubs (if kw.debug = true ∨ a.debug = true then subs else []) := by
  unfold finish at h
  split at h
  · cases h
  · rename_i l hl
    exact ⟨l, hl, by simpa using h.symm⟩

theorem copy_two_last (a b : Trace L) (h : ¬ Overlap b a) :
    ∃ t, copytraces .lastWriteWins (fun _ => false) [a, b] = .ok t ∧ IsUnion t a b := by
  have hn : (keysL (a.entries ++ b.entries)).Nodup := by
    rw [keysL_append, List.nodup_append]
    exact ⟨a.nodup, b.nodup, fun x hx y hy e => h ⟨x, e ▸ hy, hx⟩⟩
  obtain ⟨r, h1, h2, h3⟩ := copy_last (fun _ => false) (allEntries [a, b]) Dict.empty
  refine ⟨r, ?_, ?_⟩
  · unfold copytraces; rw [copytraces_flat, h1]
  · have e : r = ⟨a.entries ++ b.entries, hn⟩ := by
      apply Dict.ext_get?
      · rw [h2]
        simp only [Dict.keys_empty, List.nil_append, Bool.not_false, List.filter_true, allEntries, List.flatMap_cons,
          List.flatMap_nil, List.append_nil]
        exact eraseDups_of_nodup hn
      · intro k
        rw [h3]
        simp only [Bool.false_eq_true, if_false, allEntries, List.flatMap_cons, List.flatMap_nil, List.append_nil,
          lastOf, firstOf_eq_getL, Dict.get?_empty, Option.or_none]
        show _ = getL (a.entries ++ b.entries) k
        have hr : (keysL (a.entries ++ b.entries).reverse).Nodup := by
          rw [keysL, List.map_reverse]
          exact List.pairwise_reverse.2 (List.Pairwise.imp Ne.symm hn)
        cases hg : getL (a.entries ++ b.entries) k with
        | none =>
          rw [getL_eq_none] at hg ⊢
          simpa [keysL, and_comm] using hg
        | some v => exact mem_getL hr (by rw [List.mem_reverse]; exact getL_mem hg)
    rw [IsUnion, e]

theorem copy_two_first (a b : Trace L) (h : ¬ Overlap b a) :
    ∃ t, copytraces .firstWriteWins (fun _ => false) [a, b] = .ok t ∧ IsUnion t a b := by
  have hn : (keysL (a.entries ++ b.entries)).Nodup := by
    rw [keysL_append, List.nodup_append]
    exact ⟨a.nodup, b.nodup, fun x hx y hy e => h ⟨x, e ▸ hy, hx⟩⟩
  obtain ⟨r, h1, h2, h3⟩ := copy_first (fun _ => false) (allEntries [a, b]) Dict.empty
  refine ⟨r, ?_, ?_⟩
  · unfold copytraces; rw [copytraces_flat, h1]
  · have e : r = ⟨a.entries ++ b.entries, hn⟩ := by
      apply Dict.ext_get?
      · rw [h2]
        simp only [Dict.keys_empty, List.nil_append, Bool.not_false, List.filter_true, allEntries, List.flatMap_cons,
          List.flatMap_nil, List.append_nil]
        exact eraseDups_of_nodup hn
      · intro k
        rw [h3]
        simp only [Bool.false_eq_true, if_false, allEntries, List.flatMap_cons, List.flatMap_nil, List.append_nil,
          firstOf_eq_getL, Dict.get?_empty, Option.none_or]
        rfl
    rw [IsUnion, e]

theorem composeRest_spec (a : Attrs L) (kw : Kw L) (o1 o2 : Out L) :
    ComposeResult a kw o1 o2 (composeRest a kw o1 o2) := by
  by_cases h : Overlap o1.trace o2.trace
  · refine Or.inl ⟨h, ?_⟩
    have hd : disjointKeys o2.trace o1.trace = false := by
      rw [Bool.eq_false_iff]; intro hd; exact (disjointKeys_eq_true.1 hd) h
    unfold composeRest copytraces
    rw [copytraces_flat]
    obtain ⟨r, h1, -⟩ := copy_last (fun _ => false) (allEntries [o2.trace, o1.trace]) (Dict.empty : Trace L)
    rw [h1, hd]; rfl
  · refine Or.inr ⟨h, ?_⟩
    obtain ⟨t, h1, h2⟩ := copy_two_last o2.trace o1.trace h
    refine ⟨t, o1.logWeight.add o2.logWeight, h2, by simp, LW.add_eq_float0, ?_⟩
    rw [← foldLoss_finish _ _ _ _ _ rfl]
    unfold composeRest
    rw [h1, disjointKeys_eq_true.2 h, pickIx_eq]
    rfl

theorem any_false_iff (t : Trace L) (f : RV L → Bool) :
    t.entries.any (fun e => f e.2) = false ↔ ∀ k rv, t.get? k = some rv → f rv = false := by
  rw [List.any_eq_false]
  constructor
  · intro h k rv hk
    simpa using h (k, rv) (Dict.get?_eq_some.1 hk)
  · intro h e he
    simpa using h e.1 e.2 (Dict.get?_eq_some.2 he)

theorem extendCheckF_spec (cond : Option (Trace L)) (fo : Out L) :
    (KernelOK cond fo ∧ extendCheckF cond fo = .ok ()) ∨ (¬ KernelOK cond fo ∧ extendCheckF cond fo = .error .assertion) := by
  unfold extendCheckF
  cases cond with
  | none =>
    dsimp only
    have hw : zeroWeight fo.logWeight = true ↔
        (fo.logWeight = .float0 ∨ ∃ w, fo.logWeight = .tensor w ∧ L.isZero w = true) := by
      cases fo.logWeight <;> simp [zeroWeight]
    have ha : fo.trace.entries.any (fun e => e.2.prov == .observed || e.2.prov == .reused) = false ↔
        ∀ k rv, fo.trace.get? k = some rv → rv.prov ≠ .observed ∧ rv.prov ≠ .reused := by
      rw [any_false_iff (f := fun rv => rv.prov == .observed || rv.prov == .reused)]
      simp
    revert hw
    generalize zeroWeight fo.logWeight = z
    intro hw
    cases z with
    | false => exact Or.inr ⟨fun hk => by simpa using hw.2 (hk.2 rfl), rfl⟩
    | true =>
      rw [if_neg (by simp)]
      split
      · rename_i h2
        refine Or.inr ⟨fun hk => ?_, rfl⟩
        rw [ha.2 (fun k rv hg => ⟨(hk.1 k rv hg).1, (hk.1 k rv hg).2 rfl⟩)] at h2
        cases h2
      · rename_i h2
        refine Or.inl ⟨⟨fun k rv hg => ?_, fun _ => hw.1 rfl⟩, rfl⟩
        have := ha.1 (by simpa using h2) k rv hg
        exact ⟨this.1, fun _ => this.2⟩
  | some c =>
    dsimp only
    have ha : fo.trace.entries.any (fun e => e.2.prov == .observed) = false ↔
        ∀ k rv, fo.trace.get? k = some rv → rv.prov ≠ .observed := by
      rw [any_false_iff (f := fun rv => rv.prov == .observed)]
      simp
    split
    · rename_i h
      refine Or.inr ⟨fun hk => ?_, rfl⟩
      rw [ha.2 (fun k rv hg => (hk.1 k rv hg).1)] at h
      cases h
    · rename_i h
      refine Or.inl ⟨⟨fun k rv hg => ⟨ha.1 (by simpa using h) k rv hg, fun e => by cases e⟩, fun e => by cases e⟩, rfl⟩

theorem extendRest_spec (a : Attrs L) (kw : Kw L) (cond : Option (Trace L)) (po fo : Out L) :
    ExtendResult a kw cond po fo (extendRest a kw cond po fo) := by
  rcases extendCheckF_spec cond fo with ⟨hk, hc⟩ | ⟨hk, hc⟩
  · by_cases h : Overlap po.trace fo.trace
    · refine Or.inl ⟨Or.inl h, ?_⟩
      have hd : disjointKeys fo.trace po.trace = false := by
        rw [Bool.eq_false_iff]; intro hd; exact (disjointKeys_eq_true.1 hd) h
      unfold extendRest
      rw [hc, hd]; rfl
    · refine Or.inr ⟨h, hk, ?_⟩
      have h' : ¬ Overlap fo.trace po.trace := fun ⟨k, h1, h2⟩ => h ⟨k, h2, h1⟩
      obtain ⟨t, h1, h2⟩ := copy_two_first po.trace fo.trace h'
      refine ⟨t, po.logWeight.add (logJoint fo.trace (tauAddrs fo.trace)), h2, ?_, ?_, ?_⟩
      · rw [LW.val_add, logJoint_val]
        congr 1
        apply sumLogProb_congr
        intro k rv hg
        rw [tauAddrs_of_get hg]
        have := (hk.1 k rv hg).1
        simp [RV.isTau, this]
      · rw [LW.add_eq_float0, logJoint_eq_float0]
        refine and_congr_right fun _ => ⟨fun h => ?_, fun h k hk => ?_⟩
        · cases he : fo.trace.entries with
          | nil => rfl
          | cons e l =>
            exfalso
            have hm : (e.1, e.2) ∈ fo.trace.entries := by rw [he]; exact List.mem_cons_self
            have hg := Dict.get?_eq_some.2 hm
            have h1 := h e.1 (Dict.mem_keys_of_mem hm)
            rw [tauAddrs_of_get hg] at h1
            have := (hk.1 _ _ hg).1
            simp [RV.isTau, this] at h1
        · simp [Dict.keys, h] at hk
      · rw [← foldLoss_finish _ _ _ _ _ rfl]
        unfold extendRest
        rw [hc, h1, disjointKeys_eq_true.2 h, pickIx_eq]
        rfl
  · refine Or.inl ⟨Or.inr hk, ?_⟩
    unfold extendRest
    rw [hc]; rfl

/-- Running a Compose. -/
theorem eval_compose_Runs (a : Attrs L) (q2 q1 : Node L) (c : PyVal L) (kw : Kw L) (w w' : World L)
    (r : Except Err (Out L)) :
    (eval (.compose a q2 q1) c kw).Runs w r w' ↔
      (∃ e, r = .error e ∧ (eval q1 c (subKw a kw)).Runs w (.error e) w') ∨
      ∃ o1 w1, (eval q1 c (subKw a kw)).Runs w (.ok o1) w1 ∧
        ((∃ e, r = .error e ∧ (eval q2 o1.output (subKw a kw)).Runs w1 (.error e) w') ∨
         ∃ o2, (eval q2 o1.output (subKw a kw)).Runs w1 (.ok o2) w' ∧ r = composeRest a kw o1 o2) := by
  conv_lhs => unfold eval
  simp only [Exec.Runs_bind, Exec.Runs_lift, dispatchKw_node, childKw_eq]
  constructor
  · rintro (h | ⟨o1, w1, h1, h2 | ⟨o2, w2, h2, h3, rfl⟩⟩)
    · exact Or.inl h
    · exact Or.inr ⟨o1, w1, h1, Or.inl h2⟩
    · exact Or.inr ⟨o1, w1, h1, Or.inr ⟨o2, h2, h3⟩⟩
  · rintro (h | ⟨o1, w1, h1, h2 | ⟨o2, h2, h3⟩⟩)
    · exact Or.inl h
    · exact Or.inr ⟨o1, w1, h1, Or.inl h2⟩
    · exact Or.inr ⟨o1, w1, h1, Or.inr ⟨o2, w', h2, h3, rfl⟩⟩

/-- Running an Extend that is not below itself. -/
theorem eval_extend_Runs (a : Attrs L) (p f : Node L) (c : PyVal L) (kw : Kw L) (w w' : World L)
    (r : Except Err (Out L)) (ha : a.id ∉ below (.extend a p f)) :
    (eval (.extend a p f) c kw).Runs w r w' ↔
      ∃ w2, w' = (w2.setCond f.id none).setCond p.id none ∧
      ((∃ e, r = .error e ∧
        (eval p c (subKw a kw)).Runs ((w.setCond p.id (w.cond a.id)).setCond f.id (w.cond a.id)) (.error e) w2) ∨
      ∃ po w1, (eval p c (subKw a kw)).Runs ((w.setCond p.id (w.cond a.id)).setCond f.id (w.cond a.id)) (.ok po) w1 ∧
        ((∃ e, r = .error e ∧ (eval f po.output (subKw a kw)).Runs w1 (.error e) w2) ∨
         ∃ fo, (eval f po.output (subKw a kw)).Runs w1 (.ok fo) w2 ∧ r = extendRest a kw (w.cond a.id) po fo)) := by
  simp only [below, List.mem_cons, List.mem_append, not_or] at ha
  obtain ⟨hp, hf, hbp, hbf⟩ := ha
  have hcp : ∀ {c : PyVal L} {kw : Kw L} {w w' : World L} {r}, (eval p c kw).Runs w r w' → w'.cond a.id = w.cond a.id :=
    fun h => (eval_slots p _ _ _ _ _ h).2 _ hbp
  have hcf : ∀ {c : PyVal L} {kw : Kw L} {w w' : World L} {r}, (eval f c kw).Runs w r w' → w'.cond a.id = w.cond a.id :=
    fun h => (eval_slots f _ _ _ _ _ h).2 _ hbf
  conv_lhs => unfold eval
  simp only [Exec.Runs_bind, Exec.Runs_lift, Exec.Runs_getCond, Exec.Runs_withSub, Exec.Runs_pure, dispatchKw_node,
    childKw_eq, World.setCond_cond, if_neg hp]
  constructor
  · rintro (⟨e, -, h, -⟩ | ⟨cond, w1, ⟨h, rfl⟩, h'⟩)
    · cases h
    cases h
    rcases h' with ⟨e, rfl, w2, h, rfl⟩ | ⟨x, w2, ⟨w3, h, rfl⟩, h2⟩
    · rcases h with ⟨e, -, h, -⟩ | ⟨cond, w3, ⟨h, rfl⟩, w4, h', rfl⟩
      · cases h
      cases h
      refine ⟨w4, rfl, ?_⟩
      rcases h' with ⟨e', h0, h⟩ | ⟨po, w5, h1, ⟨e', h0, h⟩ | ⟨fo, w6, h2, h3, h4⟩⟩
      · cases h0; exact Or.inl ⟨e, rfl, h⟩
      · cases h0; exact Or.inr ⟨po, w5, h1, Or.inl ⟨e, rfl, h⟩⟩
      · cases h3
    · rcases h with ⟨e, -, h, -⟩ | ⟨cond, w4, ⟨h, rfl⟩, w5, h', rfl⟩
      · cases h
      cases h
      refine ⟨w5, ?_, ?_⟩
      · rcases h2 with ⟨e, -, h, -⟩ | ⟨cond, w6, ⟨-, rfl⟩, -, rfl⟩
        · cases h
        · rfl
      · rcases h' with ⟨e', h0, h⟩ | ⟨po, w6, h1, ⟨e', h0, h⟩ | ⟨fo, w7, h3, h4, rfl⟩⟩
        · cases h0
        · cases h0
        · cases h4
          refine Or.inr ⟨po, w6, h1, Or.inr ⟨fo, h3, ?_⟩⟩
          rcases h2 with ⟨e, -, h, -⟩ | ⟨cond, w8, ⟨h5, rfl⟩, h6, -⟩
          · cases h
          · cases h5
            simp only [if_neg hf, hcf h3, hcp h1, World.setCond_cond, if_neg hp] at h6
            exact h6
  · rintro ⟨w2, rfl, ⟨e, rfl, h⟩ | ⟨po, w1, h1, ⟨e, rfl, h⟩ | ⟨fo, h2, rfl⟩⟩⟩
    · exact Or.inr ⟨_, _, ⟨rfl, rfl⟩, Or.inl ⟨e, rfl, _, Or.inr ⟨_, _, ⟨rfl, rfl⟩, w2, Or.inl ⟨e, rfl, h⟩, rfl⟩, rfl⟩⟩
    · exact Or.inr ⟨_, _, ⟨rfl, rfl⟩, Or.inl ⟨e, rfl, _, Or.inr ⟨_, _, ⟨rfl, rfl⟩, w2,
        Or.inr ⟨po, w1, h1, Or.inl ⟨e, rfl, h⟩⟩, rfl⟩, rfl⟩⟩
    · refine Or.inr ⟨_, _, ⟨rfl, rfl⟩, Or.inr ⟨(po, fo), _, ⟨_, Or.inr ⟨_, _, ⟨rfl, rfl⟩, w2,
        Or.inr ⟨po, w1, h1, Or.inr ⟨fo, w2, h2, rfl, rfl⟩⟩, rfl⟩, rfl⟩, Or.inr ⟨_, _, ⟨rfl, rfl⟩, ?_, rfl⟩⟩⟩
      simp only [if_neg hf, hcf h2, hcp h1, World.setCond_cond, if_neg hp]

/-- Running a Propose. -/
theorem eval_propose_Runs (a : Attrs L) (tr : Trace L → Kw L → Except Err (Trace L)) (nr : Bool) (p q : Node L)
    (c : PyVal L) (kw : Kw L) (w w' : World L) (r : Except Err (Out L)) :
    (eval (.propose a tr nr p q) c kw).Runs w r w' ↔
      (∃ e, r = .error e ∧ (eval q c (subKw a kw)).Runs w (.error e) w') ∨
      ∃ qo w1 w2, (eval q c (subKw a kw)).Runs w (.ok qo) w1 ∧ w' = w2.setCond p.id none ∧
        ((∃ e, r = .error e ∧ (eval p c (subKw a kw)).Runs (w1.setCond p.id (some qo.trace)) (.error e) w2) ∨
         ∃ po, (eval p c (subKw a kw)).Runs (w1.setCond p.id (some qo.trace)) (.ok po) w2 ∧
          r = proposeRest a tr nr p q kw qo po) := by
  conv_lhs => unfold eval
  simp only [Exec.Runs_bind, Exec.Runs_lift, Exec.Runs_withSub, dispatchKw_node, childKw_eq]
  constructor
  · rintro (h | ⟨qo, w1, h1, ⟨e, rfl, w2, h2, rfl⟩ | ⟨po, w2, ⟨w3, h2, rfl⟩, h3, rfl⟩⟩)
    · exact Or.inl h
    · exact Or.inr ⟨qo, w1, w2, h1, rfl, Or.inl ⟨e, rfl, h2⟩⟩
    · exact Or.inr ⟨qo, w1, w3, h1, rfl, Or.inr ⟨po, h2, h3⟩⟩
  · rintro (h | ⟨qo, w1, w2, h1, rfl, ⟨e, rfl, h2⟩ | ⟨po, h2, h3⟩⟩)
    · exact Or.inl h
    · exact Or.inr ⟨qo, w1, h1, Or.inl ⟨e, rfl, w2, h2, rfl⟩⟩
    · exact Or.inr ⟨qo, w1, h1, Or.inr ⟨po, _, ⟨w2, h2, rfl⟩, h3, rfl⟩⟩

theorem Except.bind_ok_iff {α β : Type} {x : Except Err α} {f : α → Except Err β} {b : β} :
    (x >>= f) = .ok b ↔ ∃ a, x = .ok a ∧ f a = .ok b := by
  cases x with
  | error e => exact ⟨fun h => (by cases h), fun ⟨a, h, _⟩ => (by cases h)⟩
  | ok a => exact ⟨fun h => ⟨a, rfl, h⟩, fun ⟨a', h, h'⟩ => (by cases h; exact h')⟩

theorem proposeNodes_eq (q p : Trace L) (k : String) (rv : RV L) (h : q.get? k = some rv) :
    proposeNodes q p k = InDenominator p k rv := by
  unfold proposeNodes InDenominator
  rw [Dict.contains, h, tauAddrs_of_get h]
  cases hp : rv.prov <;> cases hg : p.get? k <;> simp [tauAddrs, RV.isTau, hp, hg]

/-- The result of a Propose that returns. -/
theorem proposeRest_ok {a : Attrs L} {tr : Trace L → Kw L → Except Err (Trace L)} {nr : Bool} {p q : Node L} {kw : Kw L}
    {qo po o : Out L} (h : proposeRest a tr nr p q kw qo po = .ok o) :
    ∃ qt m t fwd lv x,
      tr qo.trace { subKw a kw with shared := [] } = .ok qt ∧
      lv.val = po.logWeight.val - sumLogProb qt (fun k _ => proposeNodes qo.trace po.trace k) ∧
      x = qo.logWeight.val + lv.val ∧
      marginalize p po = .ok m ∧
      (if nr then t = m.2 else rerunDetached m.2 = .ok t) ∧
      forwardTrace q qo = .ok fwd ∧
      finish a kw (Out.mk t (.tensor (L.detachW x)) (detachOutput m.1) .propose (some (nearest a.ix kw.ix)) none none
        (some { nodes := qo.trace.keys.filter (proposeNodes qo.trace po.trace), lv := lv,
                lw := incomingLw qo.logWeight, proposalTrace := qo.trace, targetTrace := po.trace,
                forwardTrace := fwd }) []) qo [("q_out", qo), ("p_out", po)] = .ok o := by
  unfold proposeRest at h
  simp only [Except.bind_ok_iff, copytrace1_ok, childKw_eq, pickIx_eq] at h
  obtain ⟨qt, h1, ⟨mo, mt⟩, h2, t, h3, lw, h4, _, h5, _, h6, fwd, h7, h8⟩ := h
  cases h5
  cases h6
  refine ⟨qt, (mo, mt), t, fwd, po.logWeight.sub (logJoint qt (proposeNodes qo.trace po.trace)),
    qo.logWeight.val + (po.logWeight.sub (logJoint qt (proposeNodes qo.trace po.trace))).val, h1, ?_, rfl, h2, ?_, h7, ?_⟩
  · rw [LW.val_sub, logJoint_val]
  · cases nr with
    | true => rw [if_pos rfl] at h3 ⊢; cases h3; rfl
    | false => rw [if_neg (by simp)] at h3 ⊢; exact h3
  · rw [← foldLoss_finish _ _ _ _ _ rfl]
    have : lw = .tensor (L.detachW
        (qo.logWeight.val + (po.logWeight.sub (logJoint qt (proposeNodes qo.trace po.trace))).val)) := by
      rw [← LW.val_add]
      revert h4
      generalize qo.logWeight.add (po.logWeight.sub (logJoint qt (proposeNodes qo.trace po.trace))) = y
      intro h4
      cases y with
      | float0 => cases h4
      | tensor y => cases h4; rfl
    rw [← this]
    rw [← Except.bind_ok_iff (x := foldLoss _ _ _)] at h8
    exact h8

end Verif
