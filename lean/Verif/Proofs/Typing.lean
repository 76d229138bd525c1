import Verif.Spec.Typing
import Verif.Proofs.Safe
import Verif.Proofs.AnnealPop
/-
Soundness of the static discipline of Spec/Typing.
-/
namespace Verif
open Spec
variable {L : Lang}

theorem Exec.Safe.bind {α β : Type} {E : Err → Prop} {m : Exec L α} {f : α → Exec L β} {w : World L} {Q : α → World L → Prop}
    {R : β → World L → Prop} (h : m.Safe E w Q) (h2 : ∀ a w', Q a w' → (f a).Safe E w' R) : (m >>= f).Safe E w R := by
  intro r w' hr
  rw [Exec.Runs_bind] at hr
  rcases hr with ⟨e, rfl, hr⟩ | ⟨a, w1, hr1, hr⟩
  · exact Or.inr ⟨e, rfl, h.error hr⟩
  · exact h2 _ _ (h.result hr1) _ _ hr

theorem Exec.Safe.lift {α : Type} {E : Err → Prop} {x : Except Err α} {w : World L} {Q : α → World L → Prop} {a : α} (hx : x = .ok a)
    (h : Q a w) : (Exec.lift x : Exec L α).Safe E w Q := by
  intro r w' hr
  rw [Exec.Runs_lift] at hr
  obtain ⟨rfl, rfl⟩ := hr
  exact Or.inl ⟨a, hx, h⟩

/-! ### Names -/

namespace Spec.HasNames

theorem empty : HasNames (Dict.empty : Trace L) fun _ => none :=
  ⟨fun _ => rfl, fun k rv h => by simp at h⟩

theorem insert {t : Trace L} {N : Names} (h : HasNames t N) {k : String} {rv : RV L} (hk : rv.kind ≠ .other) :
    HasNames (t.insert k rv) (Function.update N k (some rv.prov)) := by
  refine ⟨fun j => ?_, fun j rv' hj => ?_⟩
  · rw [Dict.get?_insert]
    by_cases e : j = k
    · subst e; simp
    · rw [if_neg e, Function.update_of_ne e, h.1]
  · rw [Dict.get?_insert] at hj
    by_cases e : j = k
    · rw [if_pos e] at hj; cases hj; exact hk
    · rw [if_neg e] at hj; exact h.2 _ _ hj

theorem none_iff {t : Trace L} {N : Names} (h : HasNames t N) {k : String} : N k = none ↔ k ∉ t.keys := by
  rw [← h.1, Option.map_eq_none_iff, Dict.get?_eq_none]

theorem contains_eq {t : Trace L} {N : Names} (h : HasNames t N) (k : String) : t.contains k = (N k).isSome := by
  rw [← h.1, Option.isSome_map, Dict.contains]

theorem tau {t : Trace L} {N : Names} (h : HasNames t N) (k : String) : tauAddrs t k = true ↔ N.Latent k := by
  rw [Names.Latent, ← h.1 k, tauAddrs]
  cases t.get? k with
  | none => simp
  | some rv => simp only [RV.isTau, Option.map_some, Option.some.injEq]; cases rv.prov <;> simp

theorem union {t a b : Trace L} {A B : Names} (hu : IsUnion t a b) (ha : HasNames a A) (hb : HasNames b B) :
    HasNames t (A.union B) := by
  have hg : ∀ k, t.get? k = (a.get? k).or (b.get? k) := fun k => by
    have := hu
    unfold IsUnion at this
    rw [Dict.get?, this, ← firstOf_eq_getL, firstOf_append, firstOf_eq_getL, firstOf_eq_getL]
    rfl
  refine ⟨fun k => ?_, fun k rv hk => ?_⟩
  · rw [hg, Names.union, ← ha.1, ← hb.1]
    cases a.get? k <;> simp
  · rw [hg] at hk
    cases h : a.get? k with
    | none => rw [h, Option.none_or] at hk; exact hb.2 _ _ hk
    | some rv' => rw [h, Option.some_or] at hk; cases hk; exact ha.2 _ _ h

theorem disjoint {a b : Trace L} {A B : Names} (ha : HasNames a A) (hb : HasNames b B) (h : A.Disjoint B) : ¬ Overlap a b := by
  rintro ⟨k, h1, h2⟩
  rcases h k with h | h
  · exact ha.none_iff.1 h h1
  · exact hb.none_iff.1 h h2

theorem rerun {t : Trace L} {N : Names} (h : HasNames t N) : ∃ t', rerunDetached t = .ok t' ∧ HasNames t' N := by
  have key : ∀ (l : List (String × RV L)) (acc : Trace L) (M : Names), HasNames acc M → (keysL l).Nodup →
      (∀ e ∈ l, e.2.kind ≠ .other) →
      ∃ t', l.foldlM (fun (new : Trace L) e => do let rv ← rerunRV e.2; .ok (new.insert e.1 rv)) acc = (Except.ok t' : Except Err _) ∧
        HasNames t' fun k => ((getL l k).map (·.prov)).or (M k) := by
    intro l
    induction l with
    | nil => intro acc M hM _ _; exact ⟨acc, rfl, by simpa [getL] using hM⟩
    | cons e l ih =>
      intro acc M hM hn hk
      have hr : ∃ rv, rerunRV e.2 = .ok rv ∧ rv.prov = e.2.prov ∧ rv.kind ≠ .other := by
        have := hk e (List.mem_cons_self ..)
        unfold rerunRV
        cases hkd : e.2.kind with
        | proper d => exact ⟨_, rfl, rfl, by simp [RV.mk']⟩
        | improper f => exact ⟨_, rfl, rfl, by simp [RV.mkImproper]⟩
        | other => exact absurd hkd this
      obtain ⟨rv, h1, h2, h3⟩ := hr
      obtain ⟨t', h4, h5⟩ := ih (acc.insert e.1 rv) _ (hM.insert (k := e.1) h3) (List.nodup_cons.1 hn).2
        fun e' he => hk e' (List.mem_cons_of_mem _ he)
      refine ⟨t', ?_, ?_⟩
      · rw [List.foldlM_cons, h1]
        exact h4
      · have e' : (fun k => ((getL l k).map (·.prov)).or (Function.update M e.1 (some rv.prov) k)) =
            fun k => ((getL (e :: l) k).map (·.prov)).or (M k) := by
          funext k
          rw [getL.eq_def (e :: l)]
          by_cases hk : e.1 = k
          · subst hk
            rw [getL_eq_none.2 (List.nodup_cons.1 hn).1]
            simp [h2]
          · simp [hk, Function.update_of_ne (Ne.symm hk)]
        exact e' ▸ h5
  obtain ⟨t', h1, h2⟩ := key t.entries Dict.empty _ empty t.nodup fun e he => h.2 e.1 e.2 (Dict.get?_eq_some.2 he)
  refine ⟨t', h1, ?_⟩
  have : (fun k => ((getL t.entries k).map (·.prov)).or none) = N := by
    funext k
    rw [Option.or_none]
    exact h.1 k
  exact this ▸ h2

end Spec.HasNames

theorem heldIn_some {N : Names} {t : Trace L} (h : HasNames t N) {k : String} : heldIn (some N) k = t.contains k := by
  rw [heldIn, h.contains_eq]

/-! ### Programs -/

theorem binds_sound {Γ : Option Names} {N : Names} {post : PyVal L → Prop} {cond : Option (Trace L)} (hc : CondNames cond Γ) {m : MTree L} :
    ∀ {M : Names} {t : Trace L} (w : World L), Binds Γ N post m M → HasNames t M →
      (runModel cond m t).Safe (fun _ => False) w fun r w' => w' = w ∧ HasNames r.2 N ∧ post r.1 := by
  induction m with
  | ret o =>
    intro M t w hb ht
    obtain ⟨rfl, hp⟩ := hb
    exact Exec.Safe.pure ⟨rfl, ht, hp⟩
  | raise e => intro M t w hb; exact hb.elim
  | «variable» name d value prov rep k ih =>
    intro M t w hb ht
    have hn : M name = none := by cases value <;> exact hb.1
    have hn' : t.contains name = false := by rw [ht.contains_eq, hn]; rfl
    cases value with
    | some v =>
      have : HasNames (t.insert name (RV.mk' d v (prov.getD .observed) rep)) _ := ht.insert (by simp [RV.mk'])
      simp only [runModel, hn', Bool.false_eq_true, if_false, variableValue]
      exact ih v w hb.2 this
    | none =>
      have hd : heldIn Γ name = (match cond with | some c => c.contains name | none => false) := by
        cases cond <;> cases Γ <;> try exact hc.elim
        · rfl
        · exact heldIn_some hc
      cases hv : variableValue cond name none prov with
      | some vp =>
        have h1 : heldIn Γ name = true ∧ vp.2 = .reused := by
          rw [hd]
          cases cond with
          | none => cases hv
          | some c =>
            simp only [variableValue, Option.map_eq_some_iff] at hv
            obtain ⟨rv, h1, rfl⟩ := hv
            exact ⟨by simp [Dict.contains, h1], rfl⟩
        simp only [runModel, hn', Bool.false_eq_true, if_false, hv]
        have h2 := hb.2 vp.1
        rw [h1.1, if_pos rfl, ← h1.2] at h2
        exact ih vp.1 w h2 (ht.insert (rv := RV.mk' d vp.1 vp.2 rep) (by simp [RV.mk']))
      | none =>
        have h1 : heldIn Γ name = false := by
          rw [hd]
          cases cond with
          | none => rfl
          | some c =>
            simp only [variableValue, Option.map_eq_none_iff] at hv
            simp [Dict.contains, hv]
        simp only [runModel, hn', Bool.false_eq_true, if_false, hv]
        rintro r w' ⟨v, hr⟩
        have h2 := hb.2 v
        rw [h1, if_neg (by simp)] at h2
        exact ih v w h2 (ht.insert (rv := RV.mk' d v .sampled rep) (by simp [RV.mk'])) r w' hr
  | inject name rv k ih =>
    intro M t w hb ht
    exact ih w hb.2 (ht.insert hb.1)
  | getCond k ih => intro M t w hb ht; exact ih cond w (hb cond hc) ht
  | getTrace k ih => intro M t w hb ht; exact ih t w (hb t ht) ht
  | storeGet key k ih => intro M t w hb; exact hb.elim
  | storeSet key v k ih => intro M t w hb; exact hb.elim
  | sampleFree d rep k ih =>
    intro M t w hb ht
    rintro r w' ⟨v, hr⟩
    exact ih v w (hb v) ht r w' hr

theorem float0_iff_not {W : Type} {x : LW W} {P : Prop} (h : x = .float0 ↔ ¬ P) : x ≠ .float0 ↔ P := by rw [Ne, h, not_not]

theorem condTau {Γ : Option Names} {cond : Option (Trace L)} (hc : CondNames cond Γ) (k : String) :
    (match (generalizing := false) cond with | some c => tauAddrs c k | none => false) = true ↔ ∃ M, Γ = some M ∧ M.Latent k := by
  cases cond <;> cases Γ <;> try exact hc.elim
  · simp
  · rw [HasNames.tau hc]; simp

theorem prog_weighted {Γ : Option Names} {N : Names} {cond : Option (Trace L)} (hc : CondNames cond Γ) {t : Trace L} (ht : HasNames t N) :
    logJoint t (weightNodes cond t) ≠ .float0 ↔ progWeighted Γ N := by
  apply float0_iff_not
  rw [logJoint_eq_float0, progWeighted, not_exists]
  refine forall_congr' fun k => ?_
  have h1 : weightNodes cond t k = true ↔ (N k = some .observed ∨ N k ≠ none ∧ ∃ M, Γ = some M ∧ M.Latent k) := by
    have hτ := condTau hc k
    unfold weightNodes
    simp only [Bool.and_eq_true, Bool.not_eq_true', Bool.and_eq_false_iff, Bool.not_eq_false', ← hτ]
    rw [ht.contains_eq, ← Bool.not_eq_true (tauAddrs t k), ht.tau, Names.Latent]
    rcases N k with _ | _ | _ | _ <;> simp <;> rfl
  rw [← h1, Bool.not_eq_true]
  constructor
  · intro h
    by_cases hk : k ∈ t.keys
    · exact h hk
    · simp [weightNodes, Dict.contains_eq_false.2 hk]
  · exact fun h _ => h

/-! ### Combinators -/

/-- What holds of a result besides its type: what Propose looks at. -/
def Fine (nd : Node L) (τ : Ty L) (o : Out L) : Prop :=
  τ.Of o ∧ (nd.debugAttr ≠ none → ∃ x, forwardTrace nd o = .ok x) ∧ ∃ m t, marginalize nd o = .ok (m, t) ∧ HasNames t τ.margNames ∧ τ.margPost m

theorem finish_fine {a : Attrs L} {kw : Kw L} {out sub : Out L} {subs : List (String × Out L)} {P : Out L → Prop} (hl : LossOn a P)
    (h : P out) : ∃ l, finish a kw out sub subs = .ok ((out.setLoss l).setSubs (if kw.debug = true ∨ a.debug = true then subs else [])) := by
  cases hs : sub.loss with
  | some l0 => obtain ⟨l, hl⟩ := hl out h l0; exact ⟨l, by simp only [finish, hs, hl]⟩
  | none => obtain ⟨l, hl⟩ := hl out h a.loss0; exact ⟨l, by simp only [finish, hs, hl]⟩

theorem forwardTrace_other {nd : Node L} {o : Out L} (h : nd.debugAttr ≠ none) (ho : o.type ≠ .compose) : ∃ x, forwardTrace nd o = .ok x := by
  unfold forwardTrace
  rcases hd : nd.debugAttr with _ | _ | _
  · exact absurd hd h
  · exact ⟨_, rfl⟩
  · exact ⟨_, if_neg ho⟩

theorem marginalize_other {nd : Node L} {o : Out L} (h : nd.isExtend = false) : marginalize nd o = .ok (o.output, o.trace) := by
  unfold marginalize
  rw [h]
  rfl

theorem Fine.plain {nd : Node L} {N : Names} {W : Prop} {post : PyVal L → Prop} {o : Out L} (h : (Ty.plain N W post).Of o)
    (hd : nd.debugAttr ≠ none → ∃ x, forwardTrace nd o = .ok x) (he : nd.isExtend = false) : Fine nd (.plain N W post) o :=
  ⟨h, hd, _, _, marginalize_other he, h.1, h.2.2⟩

theorem denominator_iff {q p : Trace L} {Q P : Names} (hq : HasNames q Q) (hp : HasNames p P) (k : String) :
    proposeNodes q p k = true ↔ denominator Q P k := by
  unfold proposeNodes denominator
  simp only [Bool.and_eq_true, Bool.not_eq_true', Bool.and_eq_false_iff, Bool.not_eq_false']
  rw [hq.contains_eq, ← Bool.not_eq_true (tauAddrs q k), hq.tau, hp.tau]
  simp only [Names.Latent]
  rcases Q k with _ | _ | _ | _ <;> simp

theorem LW.sub_eq_float0 {W : Type} [AddCommGroup W] {a b : LW W} : a.sub b = .float0 ↔ a = .float0 ∧ b = .float0 := by
  cases a <;> cases b <;> simp [LW.sub]

theorem proposeRest_fine {a : Attrs L} {transf : Trace L → Kw L → Except Err (Trace L)} {nr : Bool} {p q : Node L} {kw : Kw L}
    {τq τp τ : Ty L} {post : PyVal L → Prop} {qo po : Out L} (hqo : Fine q τq qo) (hpo : Fine p τp po) (hdebug : q.debugAttr ≠ none)
    (hw : τq.weighted ∨ τp.weighted ∨ ∃ k, denominator τq.names τp.names k)
    (ht : ∀ t, HasNames t τq.names → ∃ t', transf t { subKw a kw with shared := [] } = .ok t' ∧
      ((∃ k, denominator τq.names τp.names k) → ∃ k, denominator τq.names τp.names k ∧ t'.contains k = true))
    (hpost : ∀ o, τp.margPost o → post (detachOutput o)) (hτ : τ = .plain τp.margNames True post)
    (hl : LossOn a (ProposeOf a kw τq τp τ)) :
    ∃ o, proposeRest a transf nr p q kw qo po = .ok o ∧ Fine (.propose a transf nr p q) τ o := by
  obtain ⟨hq, hfw, -⟩ := hqo
  obtain ⟨hp, -, m, t, hm, htn, hmp⟩ := hpo
  obtain ⟨qt, hqt, hk⟩ := ht _ hq.1
  obtain ⟨fwd, hfwd⟩ := hfw hdebug
  obtain ⟨t', ht', htn'⟩ : ∃ t', (if nr then .ok t else rerunDetached t : Except Err (Trace L)) = .ok t' ∧ HasNames t' τp.margNames := by
    cases nr with
    | true => exact ⟨t, rfl, htn⟩
    | false => exact htn.rerun
  have hj : logJoint qt (proposeNodes qo.trace po.trace) ≠ .float0 ↔ ∃ k, denominator τq.names τp.names k := by
    apply float0_iff_not
    rw [logJoint_eq_float0]
    constructor
    · intro h hd
      obtain ⟨k, h1, h2⟩ := hk hd
      have := h k (Dict.contains_iff.1 h2)
      rw [(denominator_iff hq.1 hp.1 k).2 h1] at this
      cases this
    · intro h k _
      rw [← Bool.not_eq_true, denominator_iff hq.1 hp.1]
      exact fun h' => h ⟨k, h'⟩
  have hlv : po.logWeight.sub (logJoint qt (proposeNodes qo.trace po.trace)) ≠ .float0 ↔
      τp.weighted ∨ ∃ k, denominator τq.names τp.names k := by
    rw [Ne, LW.sub_eq_float0, not_and_or, ← hj]
    exact or_congr hp.2.1 Iff.rfl
  obtain ⟨x, hx⟩ : ∃ x, qo.logWeight.add (po.logWeight.sub (logJoint qt (proposeNodes qo.trace po.trace))) = .tensor x := by
    have : qo.logWeight.add (po.logWeight.sub (logJoint qt (proposeNodes qo.trace po.trace))) ≠ .float0 := by
      rw [Ne, LW.add_eq_float0, not_and_or]
      rcases hw with h | h
      · exact Or.inl (hq.2.1.2 h)
      · exact Or.inr (hlv.2 h)
    revert this
    generalize qo.logWeight.add (po.logWeight.sub (logJoint qt (proposeNodes qo.trace po.trace))) = y
    intro h
    cases y with
    | float0 => exact absurd rfl h
    | tensor x => exact ⟨x, rfl⟩
  have hOf : ∀ ix l px subs, τ.Of (Out.mk t' (.tensor (L.detachW x)) (detachOutput m) .propose ix l none px subs) := fun ix l px subs => by
    subst hτ
    exact ⟨htn', by simp [Ty.plain], hpost _ hmp⟩
  obtain ⟨l, hfin⟩ := finish_fine (kw := kw) (sub := qo) (subs := [("q_out", qo), ("p_out", po)]) hl
    (show ProposeOf a kw τq τp τ (Out.mk t' (.tensor (L.detachW x)) (detachOutput m) .propose (some (nearest a.ix kw.ix)) none none
      (some { nodes := qo.trace.keys.filter (proposeNodes qo.trace po.trace),
              lv := po.logWeight.sub (logJoint qt (proposeNodes qo.trace po.trace)),
              lw := incomingLw qo.logWeight, proposalTrace := qo.trace, targetTrace := po.trace, forwardTrace := fwd }) []) from
      ⟨rfl, rfl, hOf _ _ _ _, _, rfl, hq.1, hp.1, hlv⟩)
  refine ⟨_, Eq.trans ?_ hfin, ?_⟩
  · unfold proposeRest
    simp only [childKw_eq, pickIx_eq, copytrace1_ok]
    rw [hqt]
    simp only [bind, Except.bind, hm, hx, hfwd, detachLW]
    rw [ht', ← foldLoss_finish _ _ _ _ _ rfl]
    rfl
  · subst hτ
    exact Fine.plain (hOf _ (some l) _ _) (fun h => forwardTrace_other h (by simp)) rfl

theorem typed_sound {Γ : Option Names} {kw : Kw L} {pre : PyVal L → Prop} {nd : Node L} {τ : Ty L} (h : Typed Γ kw pre nd τ) :
    ∀ {cond : Option (Trace L)} {c : PyVal L} {w : World L}, CondNames cond Γ → pre c → QuietStore w →
      (evalP nd cond c kw).Safe (fun _ => False) w fun o w' => w' = w ∧ Fine nd τ o := by
  induction h with
  | @prog Γ kw pre i s N post hb hm =>
    intro cond c w hc hp _ r w' hr
    unfold Exec.Runs at hr
    rw [evalP_prog_apply, hb] at hr
    simp only [Comp.bind_Ret, Comp.ret_Ret] at hr
    obtain ⟨⟨x, w1⟩, h1, h2⟩ := hr
    rcases binds_sound hc w (hm c hp) HasNames.empty x w1 h1 with ⟨⟨o, t⟩, rfl, rfl, h3, h4⟩ | ⟨_, _, h⟩
    · simp only [Prod.mk.injEq] at h2
      obtain ⟨rfl, rfl⟩ := h2
      refine Or.inl ⟨_, rfl, rfl, Fine.plain ⟨h3, prog_weighted hc h3, h4⟩ (fun h => forwardTrace_other h (by simp)) rfl⟩
    · exact h.elim
  | @compose Γ kw pre a q2 q1 τ1 τ2 h1 h2 hd hl ih1 ih2 =>
    intro cond c w _ hp hs
    rw [evalP_compose]
    refine (ih1 (cond := none) trivial hp hs).bind fun o1 w1 h => ?_
    obtain ⟨rfl, hf1⟩ := h
    refine (ih2 (cond := none) trivial hf1.1.2.2 hs).bind fun o2 w2 h => ?_
    obtain ⟨rfl, hf2⟩ := h
    have hdis : ¬ Overlap o1.trace o2.trace := hf1.1.1.disjoint hf2.1.1 hd
    rcases composeRest_spec a kw o1 o2 with ⟨h, -⟩ | ⟨-, t, lw, ht, -, hlw, hr⟩
    · exact absurd h hdis
    have hOf : ∀ ix l m px subs, (Ty.plain (τ2.names.union τ1.names) (τ1.weighted ∨ τ2.weighted) τ2.post).Of
        (Out.mk t lw o2.output .compose ix l m px subs) := fun ix l m px subs =>
      ⟨HasNames.union ht hf2.1.1 hf1.1.1, by
        show lw ≠ .float0 ↔ τ1.weighted ∨ τ2.weighted
        rw [Ne, hlw, not_and_or]
        exact or_congr hf1.1.2.1 hf2.1.2.1, hf2.1.2.2⟩
    obtain ⟨l, hfin⟩ := finish_fine (kw := kw) (sub := o1) (subs := [("q1_out", o1), ("q2_out", o2)]) hl
      (show (Out.mk t lw o2.output .compose (some (nearest a.ix kw.ix)) none none none []).type = .compose ∧ _ from ⟨rfl, hOf _ _ _ _ _⟩)
    refine Exec.Safe.lift (hr.trans hfin) ⟨rfl, Fine.plain (hOf _ (some l) _ _ _) (fun _ => ?_) rfl⟩
    unfold forwardTrace
    simp only [Node.debugAttr]
    cases a.debug with
    | false => exact ⟨_, rfl⟩
    | true => exact ⟨some o2.trace, by simp [getL]⟩
  | @extend Γ kw pre a p f τp τf τ hp' hf hd ho hk hτ hl ihp ihf =>
    intro cond c w hc hp hs
    rw [evalP_extend]
    refine (ihp hc hp hs).bind fun po w1 h => ?_
    obtain ⟨rfl, hfp⟩ := h
    refine (ihf hc hfp.1.2.2 hs).bind fun fo w2 h => ?_
    obtain ⟨rfl, hff⟩ := h
    have hdis : ¬ Overlap po.trace fo.trace := hfp.1.1.disjoint hff.1.1 hd
    have hK : KernelOK cond fo := by
      have hΓ : cond = none → Γ = none := fun h => by
        subst h
        cases Γ with
        | none => rfl
        | some N => exact hc.elim
      refine ⟨fun k rv h1 => ?_, fun h => Or.inl ?_⟩
      · have h2 : τf.names k = some rv.prov := by rw [← hff.1.1.1 k, h1]; rfl
        exact ⟨fun e => ho k (e ▸ h2), fun h e => (hk (hΓ h)).2 k (e ▸ h2)⟩
      · by_contra h'
        exact (hk (hΓ h)).1 (hff.1.2.1.1 h')
    rcases extendRest_spec a kw cond po fo with ⟨h | h, -⟩ | ⟨-, -, t, lw, ht, -, hlw, hr⟩
    · exact absurd h hdis
    · exact absurd hK h
    have hOf : ∀ ix l m px subs, τ.Of (Out.mk t lw fo.output .extend ix l m px subs) := fun ix l m px subs => by
      subst hτ
      refine ⟨HasNames.union ht hfp.1.1 hff.1.1, ?_, hff.1.2.2⟩
      show lw ≠ .float0 ↔ τp.weighted ∨ ∃ k, τf.names k ≠ none
      rw [Ne, hlw, not_and_or]
      refine or_congr hfp.1.2.1 ?_
      constructor
      · intro h
        obtain ⟨e, he⟩ := List.exists_mem_of_ne_nil _ h
        exact ⟨e.1, fun h' => hff.1.1.none_iff.1 h' (Dict.mem_keys_of_mem (v := e.2) he)⟩
      · rintro ⟨k, h⟩ he
        apply h
        rw [hff.1.1.none_iff, Dict.keys, he]
        simp
    obtain ⟨l, hfin⟩ := finish_fine (kw := kw) (sub := po) (subs := [("p_out", po), ("f_out", fo)]) hl
      (show (Out.mk t lw fo.output .extend (some (nearest a.ix kw.ix)) none (some (po.trace.keys, po.output)) none []).type = .extend ∧ _
        from ⟨rfl, hOf _ _ _ _ _⟩)
    refine Exec.Safe.lift (hr.trans hfin) ⟨rfl, hOf _ (some l) _ _ _, fun h => forwardTrace_other h (by simp), po.output, po.trace,
      (extendRest_ok (hr.trans hfin) p f).2.2.2, ?_⟩
    subst hτ
    exact ⟨hfp.1.1, hfp.1.2.2⟩
  | @propose Γ kw pre a transf nr p q τq τp post τ hq hp' hdebug hw ht hpost hτ hl ihq ihp =>
    intro cond c w _ hp hs
    rw [evalP_propose]
    refine (ihq (cond := none) trivial hp hs).bind fun qo w1 h => ?_
    obtain ⟨rfl, hfq⟩ := h
    refine (ihp (cond := some qo.trace) hfq.1.1 hp hs).bind fun po w2 h => ?_
    obtain ⟨rfl, hfp⟩ := h
    obtain ⟨o, ho, hfo⟩ := proposeRest_fine (nr := nr) hfq hfp hdebug hw ht hpost hτ hl
    exact Exec.Safe.lift ho ⟨rfl, hfo⟩
  | @resample Γ kw pre a r q τq post hq hw hr hpost hl ihq =>
    intro cond c w _ hp hs
    rw [evalP]
    rw [childKw_eq]
    refine (ihq (cond := none) trivial hp hs).bind fun qo w1 h => ?_
    obtain ⟨rfl, hfq⟩ := h
    refine safe_resampleRest fun x hx => Or.inr ?_
    obtain ⟨lw, hlw⟩ : ∃ lw, qo.logWeight = .tensor lw := by
      have := hfq.1.2.1.2 hw
      cases hq : qo.logWeight with
      | float0 => exact absurd hq this
      | tensor x => exact ⟨x, rfl⟩
    rw [hlw] at hx
    obtain ⟨t', w', rfl, ht'⟩ := hr _ _ _ hfq.1.1 hx
    obtain ⟨o', ho', hp'⟩ := hpost _ _ hfq.1.2.2 ht'
    have hOf : ∀ ix l m px subs, (Ty.plain τq.names True post).Of (Out.mk t' (.tensor w') o' .resample ix l m px subs) :=
      fun ix l m px subs => ⟨ht', by simp [Ty.plain], hp'⟩
    obtain ⟨l, hfin⟩ := finish_fine (kw := kw) (sub := qo) (subs := [("q_out", qo)]) hl
      (show (Out.mk t' (.tensor w') o' .resample (some (nearest a.ix kw.ix)) none none none []).type = .resample ∧ _ from
        ⟨rfl, hOf _ _ _ _ _⟩)
    refine ⟨t', _, rfl, o', ho', w1.store, ?_, _, by rw [pickIx_eq]; exact hfin, rfl,
      Fine.plain (hOf _ (some l) _ _ _) (fun h => forwardTrace_other h (by simp)) rfl⟩
    have := hs qo.trace t'
    unfold Store.resampleUpdate
    rw [this]

end Verif
