import Mathlib.Algebra.BigOperators.Group.Finset.Basic
import Verif.Proofs.AnnealNames
import Verif.Spec.Annealing
/-
vsmc on the models of experiments/annealing: what the whole nest does, by induction over the steps.
-/
namespace Verif
variable {L : Lang}

theorem zip3_range {α β γ : Type} (K : Nat) (f : Nat → α) (g : Nat → β) (h : Nat → γ) :
    (((List.range K).map f).zip (((List.range K).map g).zip ((List.range K).map h))).zipIdx =
      (List.range K).map fun k => ((f k, g k, h k), k) := by
  apply List.ext_getElem
  · simp
  · intro i h1 h2
    simp

theorem stepResult_val {lossFn : Out L → Except Err L.Lo} {k : Nat} {a b : String} {g : L.V → L.W} {q : Out L} {ra : RV L} {v : L.V} {d r : L.D} {o : Out L}
    (h : StepResult lossFn k a b g q ra v d r o) : o.logWeight.val = L.detachW (q.logWeight.val +
    ((g v + L.logProb r ra.value) - (L.logProb d v + ra.logProb))) := by
  rw [h.logWeight]; rfl

def trunc (K : Nat) (z : Nat → L.V) : Nat → L.V := fun j => z (min j K)

theorem trunc_upd (K : Nat) (z : Nat → L.V) (v : L.V) : trunc K (fun j => if j ≤ K then z j else v) = trunc K z := by
  funext j; simp [trunc]

theorem chain_trunc {β : Type} (M : AnnealModel L) (K : Nat) (H : (Nat → L.V) → Comp L β) :
    (M.chain K).bind H = (M.chain K).bind fun z => H (trunc K z) := by
  cases K with
  | zero => rfl
  | succ K =>
    simp only [AnnealModel.chain, Comp.bind_assoc, Comp.bind_draw, Comp.bind_ret]
    congr 1; funext z; congr 1; funext v; congr 1
    funext j
    simp only [trunc]
    by_cases h : j ≤ K + 1
    · rw [min_eq_left h]
    · rw [min_eq_right (by omega), if_neg (by omega), if_neg (by omega)]

theorem point_congr {z z' : Nat → L.V} {k : Nat} (h : z k = z' k) : AnnealModel.point z k = AnnealModel.point z' k := by
  cases k <;> simp [AnnealModel.point, h]

theorem weight_congr (M : AnnealModel L) {z z' : Nat → L.V} {K : Nat} (h : ∀ j ≤ K, z j = z' j) : M.weight z K = M.weight z' K := by
  induction K with
  | zero => rfl
  | succ K ih =>
    simp only [AnnealModel.weight, AnnealModel.increment, ih fun j hj => h j (by omega), h (K + 1) le_rfl,
      point_congr (h K (by omega))]

/-- The log weight as the code has it: the Python float 0.0 for a single program. -/
def AnnealModel.lw (M : AnnealModel L) (z : Nat → L.V) : Nat → LW L.W
  | 0 => .float0
  | k + 1 => .tensor (M.weight z (k + 1))

theorem AnnealModel.lw_val (M : AnnealModel L) (z : Nat → L.V) (k : Nat) : (M.lw z k).val = M.weight z k := by cases k <;> rfl

theorem AnnealModel.incoming_lw (M : AnnealModel L) (z : Nat → L.V) (k : Nat) : incomingLw (M.lw z k) = M.incoming z k := by
  cases k <;> rfl

theorem incoming_congr (M : AnnealModel L) {z z' : Nat → L.V} {k : Nat} (h : ∀ j ≤ k, z j = z' j) : M.incoming z k = M.incoming z' k := by
  cases k with
  | zero => rfl
  | succ k => simp only [AnnealModel.incoming, weight_congr M h]

theorem StepOf.congr {M : AnnealModel L} {z z' : Nat → L.V} {k : Nat} {o : Out L} (h : ∀ j ≤ k + 1, z j = z' j) (s : StepOf M z k o) :
    StepOf M z' k o := by
  obtain ⟨so1, px, prop, targ, s1, s2, s3, s4, s5, s6, s7, s8⟩ := s
  have h1 := h (k + 1) le_rfl
  have h0 : AnnealModel.point z k = AnnealModel.point z' k := point_congr (h k (by omega))
  refine ⟨so1, px, prop, targ, s1, ?_, ?_, s4, ?_, s6, s7, ?_⟩
  · rw [s2]; simp only [AnnealModel.increment, h1, h0]
  · rw [s3, incoming_congr M fun j hj => h j (by omega)]
  · rw [s5, h0]
  · rw [s8, h1]

theorem ChainLoss.congr {lossFn : Out L → Except Err L.Lo} {M : AnnealModel L} {z z' : Nat → L.V} {K : Nat} {loss : Option L.Lo}
    (h : ∀ j ≤ K, z j = z' j) (c : ChainLoss lossFn M z K loss) : ChainLoss lossFn M z' K loss := by
  obtain ⟨ls, c1, c2⟩ := c
  refine ⟨ls, c1, fun k hk => ?_⟩
  obtain ⟨o, o1, o2⟩ := c2 k hk
  exact ⟨o, o1.congr fun j hj => h j (by omega), o2⟩

theorem RowAt.congr {lossFn : Out L → Except Err L.Lo} {M : AnnealModel L} {z z' : Nat → L.V} {i : Nat} {r : StatRow L}
    (h : ∀ j ≤ i + 1, z j = z' j) (c : RowAt lossFn M z i r) : RowAt lossFn M z' i r := by
  obtain ⟨c1, c2, rv, c3, c4⟩ := c
  exact ⟨by rw [c1, incoming_congr M h], c2.congr h, rv, c3, by rw [c4, h _ le_rfl]⟩

/-- What get_stats finds in the result of the first `K` steps of the chain `z`. -/
def ChainStats (lossFn : Out L → Except Err L.Lo) (M : AnnealModel L) (z : Nat → L.V) (K : Nat) (out : Out L) : Prop :=
  (K = 0 → ∃ m, out.type = .program m) ∧ (K ≠ 0 → out.type = .propose) ∧
    ∃ rows, rows.length = K ∧ (∀ i r, rows[i]? = some r → RowAt lossFn M z i r) ∧
      (K ≠ 0 → ∀ memo, traverseProposals statRow out memo = .ok (rows ++ memo))

theorem chain_vsmc (fresh : ObjId) (n : Nat) (M : AnnealModel L) (I : AnnealIds) (hid : I.Below fresh) (lossFn : Out L → Except Err L.Lo) (hl : LossOk lossFn)
    (transf : Option (Trace L → Kw L → Except Err (Trace L))) (ht : ∀ k, TransfOk k (gname k) (gname (k + 1)) transf) (K : Nat) :
    ∃ nd : Node L, ((List.range K).map fun k => ((M.forward I k, M.reverse I k, M.target I k), k)).foldlM
        (vsmcStep fresh n lossFn transf none) (M.initial I) = .ok nd ∧
      ∀ (c : PyVal L) (kw : Kw L) (w : World L), KwOk kw → (∀ j, w.cond j = none) →
        ∃ F : (Nat → L.V) → Out L, eval nd c kw w = (M.chain K).bind (fun z => .ret (.ok (F z), w)) ∧
          ∀ z, ∃ ra : RV L, (F z).trace = tr1 (gname K) ra ∧ ra.prov ≠ .observed ∧ ra.value = AnnealModel.point z K ∧
            ra.logProb = M.density K (AnnealModel.point z K) ∧ (F z).output = outDict (gname K) (AnnealModel.point z K) ∧
            (F z).logWeight = M.lw z K ∧ ChainLoss lossFn M z K (F z).loss ∧ ChainStats lossFn M z K (F z) := by
  induction K with
  | zero =>
    refine ⟨_, rfl, fun c kw w hk hw => ⟨fun z => Out.mk (tr1 (gname 0) (RV.mk' M.d0 (z 0) .sampled M.rep0)) .float0
      (outDict (gname 0) (z 0)) (.program M.cls0) none none none none [], ?_, fun z => ⟨_, rfl, ?_, rfl, rfl, rfl, rfl, ⟨fun _ => 0, rfl, fun k hk => by omega⟩,
      fun _ => ⟨_, rfl⟩, fun h => absurd rfl h, [], rfl, fun i r h => by simp at h, fun h => absurd rfl h⟩⟩⟩
    · show eval (.prog I.initial (distributionProg M.cls0 (gname 0) M.d0 M.rep0)) c kw w = _
      rw [eval_distribution _ _ _ _ _ _ _ _ hk (hw _)]
      rfl
    · simp [RV.mk']
  | succ K ih =>
    obtain ⟨nd, h1, h2⟩ := ih
    have hne : gname (K + 1) ≠ gname K := fun h => by have := gname_inj h; omega
    -- the object does not depend on the arguments of the call
    obtain ⟨nd₁, hnd⟩ : ∃ x, vsmcPropose (fresh + 4 * K) K lossFn transf (M.forward I K) (M.reverse I K)
      (M.target I K) nd = .ok x := ⟨_, rfl⟩
    refine ⟨nd₁, ?_, ?_⟩
    · rw [List.range_succ, List.map_append, List.foldlM_append, h1]
      simp only [List.map_cons, List.map_nil, List.foldlM_cons, List.foldlM_nil, vsmcStep, hnd, bind, Except.bind, pure, Except.pure]
    intro c kw w hk hw
    obtain ⟨F, hF, hF'⟩ := h2 c { kw with ix := .int K } w hk hw
    choose ra hr1 hr2 hr3 hr4 hr5 hr6 hr7 hr8 using hF'
    obtain ⟨nd', G, e1, e2, e3⟩ := step_eval (fresh + 4 * K) K lossFn transf (gname K) (gname (K + 1)) (ht K) (hl K) hne (I.forward K)
      (I.reverse K) (I.target K) (Nat.ne_of_lt (Nat.lt_of_lt_of_le (hid K).2.2 (Nat.le_add_right _ _))) (Nat.ne_of_lt (Nat.lt_of_lt_of_le (hid K).2.1 (Nat.le_add_right _ _))) (M.cls K) (M.g K) (M.f K) (M.r K)
      M.rep (M.rep') nd c kw w hk hw (M.chain K) F ra hF (fun z => ⟨hr1 z, hr2 z, by rw [hr5, hr3]⟩)
    have e1' : vsmcPropose (fresh + 4 * K) K lossFn transf (M.forward I K) (M.reverse I K) (M.target I K) nd =
      .ok nd' := e1
    rw [hnd] at e1'
    cases e1'
    have hp : ∀ z : Nat → L.V, AnnealModel.point (trunc K z) K = AnnealModel.point z K := fun z => point_congr (by simp [trunc])
    refine ⟨fun z => G (trunc K z) (z (K + 1)), ?_, ?_⟩
    · rw [e2, chain_trunc]
      simp only [AnnealModel.chain, Comp.bind_assoc, Comp.bind_draw, Comp.bind_ret]
      congr 1; funext z
      rw [hr3, hp]
      congr 1; funext v
      rw [trunc_upd]
      simp
    · intro z
      have hs := e3 (trunc K z) (z (K + 1))
      have htz : ∀ j ≤ K, trunc K z j = z j := fun j hj => by simp [trunc, hj]
      have hlw : (G (trunc K z) (z (K + 1))).logWeight = .tensor (M.weight z (K + 1)) := by
        rw [hs.logWeight, hr6, AnnealModel.lw_val, hr3, hr4, hp, weight_congr M htz]
        simp only [AnnealModel.weight, AnnealModel.increment, AnnealModel.density]
        rw [add_comm (L.logProb (M.f K _) _)]
      obtain ⟨px, p1, p2, p3, p4, p5, rep, p6⟩ := hs.px
      have hloss : ChainLoss lossFn M z (K + 1) (G (trunc K z) (z (K + 1))).loss := by
        obtain ⟨l, hl1, hl2⟩ := hs.loss
        obtain ⟨ls, q1, q2⟩ := hr7 (trunc K z)
        refine ⟨fun k => if k = K then l else ls k, ?_, ?_⟩
        · rw [hl2, q1, if_neg (Nat.succ_ne_zero K), Finset.sum_range_succ, if_pos rfl]
          have hsum : (∑ x ∈ Finset.range K, if x = K then l else ls x) = ∑ x ∈ Finset.range K, ls x :=
            Finset.sum_congr rfl fun x hx => if_neg (Nat.ne_of_lt (Finset.mem_range.mp hx))
          rw [hsum, add_comm]
          congr 2
          by_cases hK : K = 0
          · subst hK; simp
          · rw [if_neg hK]; rfl
        · intro k hk
          by_cases hkK : k = K
          · subst hkK
            refine ⟨(G (trunc k z) (z (k + 1))).bare, ⟨hs.ix, px, _, _, p1, ?_, ?_, p4, ?_, p5, rfl, rfl⟩, by simp only [if_pos]; exact hl1⟩
            · rw [p2, hr3, hr4, hp]
              simp only [AnnealModel.increment, AnnealModel.density]
              rw [add_comm (L.logProb (M.f k _) _)]
            · rw [p3, hr6, AnnealModel.incoming_lw]
              exact incoming_congr M htz
            · rw [hr4, hp]
          · obtain ⟨o, so1, so2⟩ := q2 k (by omega)
            exact ⟨o, so1.congr fun j hj => htz j (by omega), by simp only [if_neg hkK]; exact so2⟩
      refine ⟨_, hs.trace, by simp [RV.mkImproper], rfl, rfl, hs.output, hlw, hloss, fun h => by omega, fun _ => hs.type, ?_⟩
      obtain ⟨t0, t1, rows, t2, t3, t4⟩ := hr8 (trunc K z)
      obtain ⟨qo, po, u1, u2, q2, u3, m, u4⟩ := hs.subs
      obtain ⟨l, -, hl2⟩ := hs.loss
      let r : StatRow L := ⟨.tensor (M.incoming z (K + 1)), l + (F (trunc K z)).loss.getD 0, px.proposalTrace, px.targetTrace,
        G (trunc K z) (z (K + 1))⟩
      have hrow : statRow (G (trunc K z) (z (K + 1))) = .ok r := by
        simp only [statRow, hlw, hl2, p1, detachLW]
        rfl
      refine ⟨rows ++ [r], by simp [t2], ?_, fun _ memo => ?_⟩
      · intro i r' hr'
        rw [List.getElem?_append] at hr'
        split at hr'
        · exact (t3 i r' hr').congr fun j hj => htz j (by omega)
        · rename_i hge
          have : i = K := by
            obtain ⟨h, -⟩ := List.getElem?_eq_some_iff.mp hr'
            simp at h
            omega
          subst this
          simp only [t2, Nat.sub_self, List.getElem?_cons_zero, Option.some.injEq] at hr'
          subst hr'
          exact ⟨rfl, by rw [← hl2]; exact hloss, _, p6, rfl⟩
      · show traverseProposals statRow (G (trunc K z) (z (K + 1))) memo = _
        rw [traverse_propose statRow _ qo r memo hs.type hrow (by simp [subOut, u1, getL]),
          traverse_compose statRow qo (F (trunc K z)) q2 m _ u2 (by simp [subOut, u3, getL]) (by simp [subOut, u3, getL]) u4]
        by_cases hK : K = 0
        · obtain ⟨m', hm'⟩ := t0 hK
          rw [hm']
          have : rows = [] := List.length_eq_zero_iff.mp (by omega)
          simp [isInfType, this]
        · rw [t1 hK, t4 hK]
          simp [isInfType]

end Verif
