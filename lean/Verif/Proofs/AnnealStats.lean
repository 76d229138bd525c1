import Verif.Proofs.Annealing
import Verif.Props.Combinators
import Verif.Props.Nests
/-
What a run of vsmc's nest leaves behind for get_stats.
-/
namespace Verif
open Spec
variable {L : Lang}

theorem prog_type {n : Node L} (hn : IsProg n) {c : PyVal L} {kw : Kw L} {w w' : World L} {o : Out L}
    (h : (eval n c kw).Runs w (.ok o) w') : (∃ m, o.type = .program m) ∧ o.loss = none := by
  obtain ⟨i, s, rfl⟩ := hn
  rw [eval_prog_Runs] at h
  obtain ⟨-, _, _, -, rfl⟩ := h
  exact ⟨⟨_, rfl⟩, rfl⟩

theorem statRow_entries {o : Out L} {r : StatRow L} (h : statRow o = .ok r) : r.out = o ∧ RowEntries r := by
  unfold statRow at h
  split at h
  · rename_i lw l px a1 a2 a3
    simp only [Except.ok.injEq] at h
    subst h
    cases hl : o.logWeight with
    | float0 => rw [hl] at a1; cases a1
    | tensor x =>
      rw [hl] at a1
      cases a1
      exact ⟨rfl, px, x, a3, hl, rfl, a2, rfl, rfl⟩
  · cases h

/-- A run of one step's Propose: a Propose result with index k whose proposal started from a run of `q`. -/
theorem step_run {i : ObjId} {k : Nat} {lossFn : Out L → Except Err L.Lo}
    {transf : Option (Trace L → Kw L → Except Err (Trace L))} {fwd rev p q n : Node L} (hf : IsProg fwd)
    (h : vsmcPropose i k lossFn transf fwd rev p q = .ok n) {c : PyVal L} {kw : Kw L} {w w' : World L} {o : Out L}
    (hr : (eval n c kw).Runs w (.ok o) w') :
    ∃ qo q1 q2 m r w1, (eval q c { kw with ix := .int k }).Runs w (.ok q1) w1 ∧ o.type = .propose ∧ o.ix = some (.int k) ∧
      statRow o = .ok r ∧ r.out = o ∧ subOut o "q_out" = some qo ∧ qo.type = .compose ∧ subOut qo "q1_out" = some q1 ∧
      subOut qo "q2_out" = some q2 ∧ q2.type = .program m ∧
      ∃ l, lossFn o.bare = .ok l ∧ o.loss = some (l + q1.loss.getD 0) ∧ r.loss = l + q1.loss.getD 0 := by
  simp only [vsmcPropose, mkPropose, mkExtend, Node.isCompose, if_false, Except.ok.injEq, Bool.false_eq_true] at h
  subst h
  obtain ⟨qo, po, w1, w2, h1, -, -, h2⟩ := eval_propose_ok hr
  obtain ⟨qt, m, t, fw, lv, x, -, -, -, -, -, -, h3⟩ := proposeRest_ok h2
  obtain ⟨l, hl, h4⟩ := finish_ok h3
  simp only [mkCompose] at h1
  rw [eval_compose_Runs] at h1
  rcases h1 with ⟨e, he, -⟩ | ⟨o1, w3, h5, ⟨e, he, -⟩ | ⟨o2, h6, h7⟩⟩
  · cases he
  · cases he
  obtain ⟨⟨m2, hm2⟩, -⟩ := prog_type hf h6
  have h8 := composeRest_spec (mkAttrs (i + 1) none none PyVal.none true) (subKw (mkAttrs (i + 2) (some (addLoss lossFn)) none (.int k) true) kw) o1 o2
  rw [← h7] at h8
  rcases h8 with ⟨-, he⟩ | ⟨-, t', lw', -, -, -, h9⟩
  · cases he
  obtain ⟨l', hl', h10⟩ := finish_ok h9.symm
  have hk : subKw (mkAttrs (i + 1) none none PyVal.none true) (subKw (mkAttrs (i + 2) (some (addLoss lossFn)) none (.int k) true) kw) =
    { kw with ix := .int k } := rfl
  rw [hk] at h5
  have d1 : (mkAttrs (i + 2) (some (addLoss lossFn)) none (.int k) true).debug = true := rfl
  have d2 : (mkAttrs (L := L) (i + 1) none none PyVal.none true).debug = true := rfl
  rw [if_pos (Or.inr d1)] at h4
  rw [if_pos (Or.inr d2)] at h10
  subst h4 h10
  have hq1 : l' = o1.loss.getD 0 := by
    simp only [mkAttrs, Option.getD_none, idLoss, Except.ok.injEq] at hl'
    rw [← hl']
    cases o1.loss <;> rfl
  simp only [mkAttrs, Option.getD_some, addLoss] at hl
  split at hl
  · rename_i l0 hl0
    simp only [Out.setSubs_mk, Out.setLoss_mk, Out.loss_mk, hq1, Except.ok.injEq] at hl
    subst hl
    exact ⟨_, o1, o2, m2, _, w3, h5, rfl, rfl, rfl, rfl, rfl, rfl, rfl, rfl, hm2, l0, hl0, rfl, rfl⟩
  · cases hl

/-- A run of a Resample added by vsmc. -/
theorem resample_run {i : ObjId} {r : ResamplerFn L} {q : Node L} {c : PyVal L} {kw : Kw L} {w w' : World L} {o : Out L}
    (hr : (eval (mkResample i r q none .none false) c kw).Runs w (.ok o) w') :
    ∃ qo w1, (eval q c kw).Runs w (.ok qo) w1 ∧ o.type = .resample ∧
      (subOut o "q_out" = if kw.debug = true then some qo else none) ∧ o.loss = some (qo.loss.getD 0) := by
  obtain ⟨qo, w1, t, lw, c2, h1, -, -, -, -, h2⟩ := eval_resample_ok hr
  obtain ⟨l, hl, h3⟩ := finish_ok h2
  subst h3
  have hq1 : l = qo.loss.getD 0 := by
    simp only [mkAttrs, Option.getD_none, idLoss, Except.ok.injEq] at hl
    rw [← hl]
    cases qo.loss <;> rfl
  refine ⟨qo, w1, h1, rfl, ?_, by rw [hq1]; rfl⟩
  have d1 : (mkAttrs (L := L) i none none PyVal.none false).debug = false := rfl
  rw [d1]
  cases kw.debug <;> rfl

/-- What the traversal returns on the result of the first `j` steps. -/
def Stats (lossFn : Out L → Except Err L.Lo) (j : Nat) (out : Out L) : Prop :=
  if j = 0 then (∃ m, out.type = .program m) ∧ out.loss = none
  else isInfType out.type = true ∧ ∃ rows, rows.length = j ∧ RowsOf out rows ∧ LossesOf lossFn out rows ∧
    ∀ memo, traverseProposals statRow out memo = .ok (rows ++ memo)

theorem stats_vsmc (fresh : ObjId) (n : Nat) (lossFn : Out L → Except Err L.Lo)
    (transf : Option (Trace L → Kw L → Except Err (Trace L))) (resample : Option (ResamplerFn L)) (q : Node L) (hq : IsProg q)
    (l : List (Node L × Node L × Node L)) (hf : ∀ e ∈ l, IsProg e.1) (nd : Node L)
    (h : l.zipIdx.foldlM (vsmcStep fresh n lossFn transf resample) q = .ok nd)
    (c : PyVal L) (kw : Kw L) (hkw : resample = none ∨ kw.debug = true) (w w' : World L) (out : Out L)
    (hr : (eval nd c kw).Runs w (.ok out) w') : Stats lossFn l.length out := by
  induction l using List.reverseRecOn generalizing nd kw w w' out with
  | nil =>
    cases h
    exact prog_type hq hr
  | append_singleton l x ih =>
    rw [List.zipIdx_append, List.foldlM_append] at h
    cases h1 : l.zipIdx.foldlM (vsmcStep fresh n lossFn transf resample) q with
    | error e => rw [h1] at h; cases h
    | ok nd0 =>
    rw [h1] at h
    simp only [List.zipIdx_cons, List.zipIdx_nil, List.foldlM_cons, List.foldlM_nil, bind, Except.bind, vsmcStep,
      Nat.zero_add] at h
    cases h2 : vsmcPropose (fresh + 4 * l.length) l.length lossFn transf x.1 x.2.1 x.2.2 nd0 with
    | error e => rw [h2] at h; cases h
    | ok nd1 =>
    rw [h2] at h
    -- the Propose itself
    have key : ∀ (kw : Kw L) (w w' : World L) (o : Out L), (resample = none ∨ kw.debug = true) →
        (eval nd1 c kw).Runs w (.ok o) w' → o.type = .propose ∧ Stats lossFn (l.length + 1) o := by
      intro kw w w' o hkw hr
      obtain ⟨qo, q1, q2, m, r, w1, e1, e2, e3, e4, e5, e6, e7, e8, e9, e10, ll, e11, e12, e13⟩ := step_run (hf x (by simp)) h2 hr
      refine ⟨e2, ?_⟩
      have hi := ih (fun e he => hf e (by simp [he])) nd0 h1 { kw with ix := .int l.length } hkw w w1 q1 e1
      have hT : ∀ memo, traverseProposals statRow o memo =
          if isInfType q1.type = true then traverseProposals statRow q1 (r :: memo) else .ok (r :: memo) := by
        intro memo
        rw [traverse_propose statRow o qo r memo e2 e4 e6, traverse_compose statRow qo q1 q2 m _ e7 e8 e9 e10]
      unfold Stats at hi ⊢
      rw [if_neg (by omega)]
      refine ⟨by rw [e2]; rfl, ?_⟩
      by_cases hl : l.length = 0
      · rw [if_pos hl] at hi
        obtain ⟨⟨m', hm'⟩, hno⟩ := hi
        rw [hno] at e12 e13
        refine ⟨[r], by simp [hl], ⟨?_, ?_, ?_⟩, ⟨?_, ?_, ?_⟩, ?_⟩
        · intro i r' hr'
          cases i with
          | zero =>
            simp only [List.getElem?_cons_zero, Option.some.injEq] at hr'
            subst hr'
            rw [e5, e3, hl]
            exact ⟨rfl, e2, (statRow_entries e4).2⟩
          | succ i => simp at hr'
        · intro i r1 r2 _ h2; simp at h2
        · intro r' hr'
          simp only [List.getLast?_singleton, Option.some.injEq] at hr'
          subst hr'; exact Or.inl e5.symm
        · intro r' hr'
          simp only [List.getElem?_cons_zero, Option.some.injEq] at hr'
          subst hr'
          rw [e5]
          exact ⟨ll, e11, by rw [e13]; simp⟩
        · intro i r1 r2 _ h2; simp at h2
        · intro r' hr'
          simp only [List.getLast?_singleton, Option.some.injEq] at hr'
          subst hr'; rw [e12, e13]
        · intro memo
          rw [hT, hm']
          rfl
      · rw [if_neg hl] at hi
        obtain ⟨ht, rows, hlen, hrows, hloss, htr⟩ := hi
        refine ⟨rows ++ [r], by simp [hlen], ⟨?_, ?_, ?_⟩, ⟨?_, ?_, ?_⟩, ?_⟩
        · intro i r' hr'
          rw [List.getElem?_append] at hr'
          split at hr'
          · exact hrows.row i r' hr'
          · rename_i hge
            have : i = l.length := by
              have := List.getElem?_eq_some_iff.mp hr'
              obtain ⟨h, -⟩ := this
              simp at h
              omega
            subst this
            simp only [hlen, Nat.sub_self, List.getElem?_cons_zero, Option.some.injEq] at hr'
            subst hr'
            rw [e5]
            exact ⟨e3, e2, (statRow_entries e4).2⟩
        · intro i r1 r2 a1 a2
          by_cases hlt : i + 1 < rows.length
          · rw [List.getElem?_append_left (by omega)] at a1
            rw [List.getElem?_append_left hlt] at a2
            exact hrows.link i r1 r2 a1 a2
          · have hi' : i + 1 = rows.length := by
              obtain ⟨h, -⟩ := List.getElem?_eq_some_iff.mp a2
              simp at h
              omega
            rw [List.getElem?_append_left (by omega)] at a1
            rw [List.getElem?_append_right (by omega)] at a2
            simp only [hi', Nat.sub_self, List.getElem?_cons_zero, Option.some.injEq] at a2
            subst a2
            rw [e5]
            refine ⟨qo, q1, e6, e8, hrows.last r1 ?_⟩
            rw [List.getLast?_eq_getElem?, ← hi', Nat.add_sub_cancel]
            exact a1
        · intro r' hr'
          simp only [List.getLast?_append, List.getLast?_singleton, Option.some_or, Option.some.injEq] at hr'
          subst hr'; exact Or.inl e5.symm
        · intro r' hr'
          rw [List.getElem?_append_left (by omega)] at hr'
          exact hloss.first r' hr'
        · intro i r1 r2 a1 a2
          by_cases hlt : i + 1 < rows.length
          · rw [List.getElem?_append_left (by omega)] at a1
            rw [List.getElem?_append_left hlt] at a2
            exact hloss.next i r1 r2 a1 a2
          · have hi' : i + 1 = rows.length := by
              obtain ⟨h, -⟩ := List.getElem?_eq_some_iff.mp a2
              simp at h
              omega
            rw [List.getElem?_append_left (by omega)] at a1
            rw [List.getElem?_append_right (by omega)] at a2
            simp only [hi', Nat.sub_self, List.getElem?_cons_zero, Option.some.injEq] at a2
            subst a2
            rw [e5]
            have hq : q1.loss = some r1.loss := hloss.last r1 (by
              rw [List.getLast?_eq_getElem?, ← hi', Nat.add_sub_cancel]
              exact a1)
            exact ⟨ll, e11, by rw [e13, hq]; rfl⟩
        · intro r' hr'
          simp only [List.getLast?_append, List.getLast?_singleton, Option.some_or, Option.some.injEq] at hr'
          subst hr'; rw [e12, e13]
        · intro memo
          rw [hT, if_pos ht, htr]
          simp
    have hlen : (l ++ [x]).length = l.length + 1 := by simp
    rw [hlen]
    cases resample with
    | none =>
      cases h
      exact (key kw w w' out (Or.inl rfl) hr).2
    | some rs =>
      have hd : kw.debug = true := by simpa using hkw
      simp only [Except.pure, pure, Except.ok.injEq] at h
      split at h
      · subst h
        obtain ⟨qo, w1, f1, f2, f3, f4⟩ := resample_run hr
        rw [if_pos hd] at f3
        obtain ⟨g1, g2⟩ := key kw w w1 qo (Or.inr hd) f1
        unfold Stats at g2 ⊢
        rw [if_neg (by omega)] at g2 ⊢
        obtain ⟨-, rows, a1, a2, a4, a3⟩ := g2
        refine ⟨by rw [f2]; rfl, rows, a1, ⟨a2.row, a2.link, ?_⟩, ⟨a4.first, a4.next, ?_⟩, ?_⟩
        · intro r' hr'
          rcases a2.last r' hr' with h | ⟨h, -⟩
          · exact Or.inr ⟨f2, h ▸ f3⟩
          · rw [g1] at h; cases h
        · intro r' hr'
          rw [f4, a4.last r' hr']; rfl
        · intro memo
          rw [traverse_resample statRow out qo memo f2 f3, a3]
      · subst h
        exact (key kw w w' out (Or.inr hd) hr).2

theorem foldlM_snoc_ok {α β : Type} (f : β → α → Except Err β) (l : List α) (x : α) (b r : β) :
    (l ++ [x]).foldlM f b = .ok r ↔ ∃ m, l.foldlM f b = .ok m ∧ f m x = .ok r := by
  rw [List.foldlM_append]
  cases h : l.foldlM f b with
  | error e => simp [bind, Except.bind]
  | ok m =>
    simp only [bind, Except.bind, List.foldlM_cons, List.foldlM_nil, pure, Except.pure, Except.ok.injEq, exists_eq_left']
    cases f m x <;> simp

/-- Without call-level debugging the inner Resample results carry no `q_out`. -/
theorem stats_nodebug (fresh : ObjId) (n : Nat) (lossFn : Out L → Except Err L.Lo)
    (transf : Option (Trace L → Kw L → Except Err (Trace L))) (rs : ResamplerFn L) (q : Node L)
    (l : List (Node L × Node L × Node L)) (y x : Node L × Node L × Node L) (hf : IsProg x.1) (hn : l.length + 2 ≤ n) (nd : Node L)
    (h : (l ++ [y] ++ [x]).zipIdx.foldlM (vsmcStep fresh n lossFn transf (some rs)) q = .ok nd)
    (c : PyVal L) (kw : Kw L) (hkw : kw.debug = false) (w w' : World L) (out : Out L)
    (hr : (eval nd c kw).Runs w (.ok out) w') (memo : List (StatRow L)) :
    traverseProposals statRow out memo = .error .attribute := by
  rw [List.zipIdx_append] at h
  simp only [List.zipIdx_cons, List.zipIdx_nil] at h
  rw [foldlM_snoc_ok] at h
  obtain ⟨nd0, h0, h⟩ := h
  rw [List.zipIdx_append] at h0
  simp only [List.zipIdx_cons, List.zipIdx_nil] at h0
  rw [foldlM_snoc_ok] at h0
  obtain ⟨nd00, -, h0⟩ := h0
  simp only [vsmcStep, List.length_append, List.length_singleton, Nat.zero_add] at h h0
  cases hp : vsmcPropose (fresh + 4 * l.length) l.length lossFn transf y.1 y.2.1 y.2.2 nd00 with
  | error e => rw [hp] at h0; cases h0
  | ok nd1 =>
  rw [hp] at h0
  simp only [Except.ok.injEq] at h0
  rw [if_pos (by omega)] at h0
  subst h0
  split at h
  · cases h
  rename_i nd2 hp2
  have key : ∀ (kw : Kw L) (w w' : World L) (o : Out L) (memo : List (StatRow L)), kw.debug = false →
      (eval nd2 c kw).Runs w (.ok o) w' → traverseProposals statRow o memo = .error .attribute := by
    intro kw w w' o memo hkw hr
    obtain ⟨qo, q1, q2, m, r, w1, e1, e2, e3, e4, e5, e6, e7, e8, e9, e10, -⟩ := step_run hf hp2 hr
    obtain ⟨_, _, -, f2, f3, -⟩ := resample_run e1
    rw [traverse_propose statRow o qo r memo e2 e4 e6, traverse_compose statRow qo q1 q2 m _ e7 e8 e9 e10, f2]
    simp only [isInfType, if_true]
    refine traverse_resample_none _ _ _ f2 ?_
    rw [f3]
    simp [hkw]
  simp only [Except.ok.injEq] at h
  split at h
  · subst h
    obtain ⟨qo, w1, f1, f2, f3, -⟩ := resample_run hr
    exact traverse_resample_none _ _ _ f2 (by rw [f3]; simp [hkw])
  · subst h
    exact key kw w w' out memo hkw hr

theorem mapM_snoc {α β : Type} (f : α → Except Err β) (l : List α) (x : α) (bs : List β) (b : β) (h : l.mapM f = .ok bs)
    (hx : f x = .ok b) : (l ++ [x]).mapM f = .ok (bs ++ [b]) := by
  rw [List.mapM_append, h]
  simp [hx, bind, Except.bind, pure, Except.pure]

/-- Running sums of losses. -/
theorem losses_sum {lossFn : Out L → Except Err L.Lo} {out : Out L} {rows : List (StatRow L)} (h : LossesOf lossFn out rows)
    (hne : rows ≠ []) : ∃ ls, rows.mapM (fun r => lossFn r.out.bare) = .ok ls ∧ out.loss = some ls.sum := by
  have key : ∀ k (l : List (StatRow L)), l.length = k + 1 → l <+: rows →
      ∃ ls r, l.mapM (fun r => lossFn r.out.bare) = .ok ls ∧ rows[k]? = some r ∧ r.loss = ls.sum := by
    intro k
    induction k with
    | zero =>
      intro l hl hp
      obtain ⟨r, rfl⟩ := List.length_eq_one_iff.mp hl
      obtain ⟨t, rfl⟩ := hp
      obtain ⟨x, hx1, hx2⟩ := h.first r rfl
      refine ⟨[x], r, ?_, rfl, by simp [hx2]⟩
      simp [hx1, bind, Except.bind, pure, Except.pure]
    | succ k ih =>
      intro l hl hp
      rcases List.eq_nil_or_concat l with rfl | ⟨l', r, rfl⟩
      · simp at hl
      rw [List.concat_eq_append] at hl hp ⊢
      obtain ⟨ls, r0, a1, a2, a3⟩ := ih l' (by simpa using hl) ((List.prefix_append _ _).trans hp)
      have hr : rows[k + 1]? = some r := by
        obtain ⟨t, rfl⟩ := hp
        have : l'.length = k + 1 := by simpa using hl
        rw [List.append_assoc, List.getElem?_append_right (by omega)]
        simp [this]
      obtain ⟨x, hx1, hx2⟩ := h.next k r0 r a2 hr
      exact ⟨ls ++ [x], r, mapM_snoc _ _ _ _ _ a1 hx1, hr, by rw [hx2, a3]; simp [add_comm]⟩
  have hlen : 0 < rows.length := List.length_pos_iff.mpr hne
  obtain ⟨ls, r, a1, a2, a3⟩ := key (rows.length - 1) rows (by omega) List.prefix_rfl
  refine ⟨ls, a1, ?_⟩
  rw [h.last r (by rw [List.getLast?_eq_getElem?]; exact a2), a3]

end Verif
