import Verif.Proofs.Program
import Verif.Proofs.Combinators
/-
Every run of a statement returns, and its result satisfies a postcondition.
-/
namespace Verif
open Spec
variable {L : Lang} {α β : Type} {E : Err → Prop}

/-- Whatever is drawn, `m` run in `w` returns normally and `Q` holds of its result and the world it leaves, or it raises one of the
errors `E`. -/
def Exec.Safe (E : Err → Prop) (m : Exec L α) (w : World L) (Q : α → World L → Prop) : Prop :=
  ∀ r w', m.Runs w r w' → (∃ a, r = .ok a ∧ Q a w') ∨ ∃ e, r = .error e ∧ E e

namespace Exec.Safe

theorem mono {m : Exec L α} {w : World L} {Q Q' : α → World L → Prop} (h : m.Safe E w Q) (hq : ∀ a w', Q a w' → Q' a w') :
    m.Safe E w Q' := fun r w' hr => by
  rcases h r w' hr with ⟨a, h1, h2⟩ | h1
  · exact Or.inl ⟨a, h1, hq a w' h2⟩
  · exact Or.inr h1

theorem error {m : Exec L α} {w : World L} {Q : α → World L → Prop} (h : m.Safe E w Q) {e : Err} {w' : World L}
    (hr : m.Runs w (.error e) w') : E e := by
  rcases h _ _ hr with ⟨a, h1, -⟩ | ⟨e', h1, h2⟩
  · cases h1
  · cases h1; exact h2

theorem result {m : Exec L α} {w : World L} {Q : α → World L → Prop} (h : m.Safe E w Q) {a : α} {w' : World L}
    (hr : m.Runs w (.ok a) w') : Q a w' := by
  rcases h _ _ hr with ⟨a', h1, h2⟩ | ⟨e', h1, -⟩
  · cases h1; exact h2
  · cases h1

theorem pure {a : α} {w : World L} {Q : α → World L → Prop} (h : Q a w) : (Exec.pure a : Exec L α).Safe E w Q := by
  intro r w' hr
  obtain ⟨rfl, rfl⟩ := Exec.Runs_pure'.1 hr
  exact Or.inl ⟨a, rfl, h⟩

theorem onStore_bind {f : Store L → Except Err α × Store L} {g : α → Exec L β} {w : World L} {Q : β → World L → Prop} {a : α}
    {s : Store L} (hf : f w.store = (.ok a, s)) (h : (g a).Safe E { w with store := s } Q) :
    (Exec.bind (Exec.onStore f) g).Safe E w Q := by
  intro r w' hr
  unfold Exec.Runs at hr
  rw [onStore_bind_apply, hf] at hr
  exact h r w' hr

end Exec.Safe

/-! ### Models -/

theorem safe_given {cond : Option (Trace L)} {name : String} {d : L.D} {v : L.V} {p : Prov} {rep : Bool} {k : L.V → MTree L}
    {t : Trace L} {w : World L} {Q} (hn : t.contains name = false)
    (h : (runModel cond (k v) (t.insert name (RV.mk' d v p rep))).Safe E w Q) :
    (runModel cond (.variable name d (some v) (some p) rep k) t).Safe E w Q := by
  simp only [runModel, hn, Bool.false_eq_true, if_false, variableValue, Option.getD_some]
  exact h

theorem safe_reused {c : Trace L} {name : String} {d : L.D} {p : Option Prov} {rep : Bool} {k : L.V → MTree L} {rv : RV L}
    {t : Trace L} {w : World L} {Q} (hn : t.contains name = false) (hc : c.get? name = some rv)
    (h : (runModel (some c) (k rv.value) (t.insert name (RV.mk' d rv.value .reused rep))).Safe E w Q) :
    (runModel (some c) (.variable name d none p rep k) t).Safe E w Q := by
  simp only [runModel, hn, Bool.false_eq_true, if_false, variableValue, hc, Option.map_some]
  exact h

theorem safe_sampled {name : String} {d : L.D} {p : Option Prov} {rep : Bool} {k : L.V → MTree L} {t : Trace L} {w : World L} {Q}
    (hn : t.contains name = false)
    (h : ∀ v, (runModel none (k v) (t.insert name (RV.mk' d v .sampled rep))).Safe E w Q) :
    (runModel none (.variable name d none p rep k) t).Safe E w Q := by
  simp only [runModel, hn, Bool.false_eq_true, if_false, variableValue]
  rintro r w' ⟨v, hr⟩
  exact h v r w' hr

theorem safe_free {cond : Option (Trace L)} {d : L.D} {rep : Bool} {k : L.V → MTree L} {t : Trace L} {w : World L} {Q}
    (h : ∀ v, (runModel cond (k v) t).Safe E w Q) : (runModel cond (.sampleFree d rep k) t).Safe E w Q := by
  rintro r w' ⟨v, hr⟩
  exact h v r w' hr

/-! ### Combinators -/

theorem safe_prog {i : ObjId} {s : ProgSpec L} {c : PyVal L} {kw : Kw L} {w : World L} {Q : Out L → World L → Prop}
    (hb : bindModel s.sig (receivedKwargs s.sig kw) = .ok ())
    (h : (runModel (w.cond i) (s.model c (receivedKwargs s.sig kw)) Dict.empty).Safe E w fun r w' =>
      Q (Out.mk r.2 (logJoint r.2 (weightNodes (w.cond i) r.2)) r.1 (.program s.name) none none none none []) w') :
    (eval (.prog i s) c kw).Safe E w Q := by
  intro r w' hr
  unfold Exec.Runs at hr
  rw [eval_prog_apply, hb] at hr
  simp only [Comp.bind_Ret, Comp.ret_Ret] at hr
  obtain ⟨⟨x, w1⟩, h1, h2⟩ := hr
  rcases h x w1 h1 with ⟨a, rfl, h4⟩ | ⟨e, rfl, h4⟩
  · simp only [Prod.mk.injEq] at h2
    obtain ⟨rfl, rfl⟩ := h2
    exact Or.inl ⟨_, rfl, h4⟩
  · simp only [Prod.mk.injEq] at h2
    obtain ⟨rfl, rfl⟩ := h2
    exact Or.inr ⟨_, rfl, h4⟩

theorem safe_compose {a : Attrs L} {q2 q1 : Node L} {c : PyVal L} {kw : Kw L} {w : World L} {Q : Out L → World L → Prop}
    {Q1 : Out L → World L → Prop} (h1 : (eval q1 c (subKw a kw)).Safe E w Q1)
    (h2 : ∀ o1 w1, Q1 o1 w1 → (eval q2 o1.output (subKw a kw)).Safe E w1 fun o2 w2 => ∃ o, composeRest a kw o1 o2 = .ok o ∧ Q o w2) :
    (eval (.compose a q2 q1) c kw).Safe E w Q := by
  intro r w' hr
  rw [eval_compose_Runs] at hr
  rcases hr with ⟨e, rfl, hr⟩ | ⟨o1, w1, hr1, ⟨e, rfl, hr⟩ | ⟨o2, hr2, rfl⟩⟩
  · exact Or.inr ⟨e, rfl, h1.error hr⟩
  · exact Or.inr ⟨e, rfl, (h2 _ _ (h1.result hr1)).error hr⟩
  · obtain ⟨o, ho, hq'⟩ := (h2 _ _ (h1.result hr1)).result hr2
    exact Or.inl ⟨o, ho, hq'⟩

theorem safe_propose {a : Attrs L} {tr : Trace L → Kw L → Except Err (Trace L)} {nr : Bool} {p q : Node L} {c : PyVal L}
    {kw : Kw L} {w : World L} {Q : Out L → World L → Prop} {Q1 : Out L → World L → Prop}
    (h1 : (eval q c (subKw a kw)).Safe E w Q1)
    (h2 : ∀ qo w1, Q1 qo w1 → (eval p c (subKw a kw)).Safe E (w1.setCond p.id (some qo.trace)) fun po w2 =>
      ∃ o, proposeRest a tr nr p q kw qo po = .ok o ∧ Q o (w2.setCond p.id none)) :
    (eval (.propose a tr nr p q) c kw).Safe E w Q := by
  intro r w' hr
  rw [eval_propose_Runs] at hr
  rcases hr with ⟨e, rfl, hr⟩ | ⟨qo, w1, w2, hr1, rfl, ⟨e, rfl, hr⟩ | ⟨po, hr2, rfl⟩⟩
  · exact Or.inr ⟨e, rfl, h1.error hr⟩
  · exact Or.inr ⟨e, rfl, (h2 _ _ (h1.result hr1)).error hr⟩
  · obtain ⟨o, ho, hq'⟩ := (h2 _ _ (h1.result hr1)).result hr2
    exact Or.inl ⟨o, ho, hq'⟩

theorem safe_extend {a : Attrs L} {p f : Node L} {c : PyVal L} {kw : Kw L} {w : World L} {Q : Out L → World L → Prop}
    {Q1 : Out L → World L → Prop} (ha : a.id ∉ below (.extend a p f))
    (h1 : (eval p c (subKw a kw)).Safe E ((w.setCond p.id (w.cond a.id)).setCond f.id (w.cond a.id)) Q1)
    (h2 : ∀ po w1, Q1 po w1 → (eval f po.output (subKw a kw)).Safe E w1 fun fo w2 =>
      ∃ o, extendRest a kw (w.cond a.id) po fo = .ok o ∧ Q o ((w2.setCond f.id none).setCond p.id none)) :
    (eval (.extend a p f) c kw).Safe E w Q := by
  intro r w' hr
  rw [eval_extend_Runs _ _ _ _ _ _ _ _ ha] at hr
  obtain ⟨w2, rfl, ⟨e, rfl, hr⟩ | ⟨po, w1, hr1, ⟨e, rfl, hr⟩ | ⟨fo, hr2, rfl⟩⟩⟩ := hr
  · exact Or.inr ⟨e, rfl, h1.error hr⟩
  · exact Or.inr ⟨e, rfl, (h2 _ _ (h1.result hr1)).error hr⟩
  · obtain ⟨o, ho, hq'⟩ := (h2 _ _ (h1.result hr1)).result hr2
    exact Or.inl ⟨o, ho, hq'⟩

theorem safe_resample {a : Attrs L} {r : ResamplerFn L} {q : Node L} {c : PyVal L} {kw : Kw L} {w : World L}
    {Q : Out L → World L → Prop} {Q1 : Out L → World L → Prop} (h1 : (eval q c (childKw a kw)).Safe E w Q1)
    (h2 : ∀ qo w1, Q1 qo w1 → (resampleRest a r kw qo).Safe E w1 Q) : (eval (.resample a r q) c kw).Safe E w Q := by
  intro x w' hr
  conv at hr => unfold eval
  rw [Exec.Runs_bind] at hr
  rcases hr with ⟨e, rfl, hr⟩ | ⟨o1, w1, hr1, hr⟩
  · exact Or.inr ⟨e, rfl, h1.error hr⟩
  · exact h2 _ _ (h1.result hr1) _ _ hr

theorem safe_resampleRest {a : Attrs L} {r : ResamplerFn L} {kw : Kw L} {qo : Out L} {w : World L} {Q : Out L → World L → Prop}
    (h : ∀ x, (r kw.sampleDims kw.batchDim qo.trace qo.logWeight).Ret x → (∃ e, x = .error e ∧ E e) ∨ ∃ t2 lw2, x = .ok (t2, lw2) ∧
      ∃ c2, resampleOutput qo.output t2 = .ok c2 ∧ ∃ st, w.store.resampleUpdate qo.trace t2 = (.ok (), st) ∧
      ∃ o, finish a kw (Out.mk t2 lw2 c2 .resample (some (pickIx a.ix kw.ix)) none none none []) qo [("q_out", qo)] = .ok o ∧
        Q o { w with store := st }) : (resampleRest a r kw qo).Safe E w Q := by
  intro x w' hr
  unfold resampleRest at hr
  rw [Exec.Runs_bind] at hr
  rcases hr with ⟨e, rfl, hr⟩ | ⟨⟨t2, lw2⟩, w1, hr1, hr⟩
  · rw [Exec.Runs_liftComp] at hr
    rcases h _ hr.1 with ⟨e', h1, h2⟩ | ⟨_, _, h1, -⟩
    · cases h1; exact Or.inr ⟨_, rfl, h2⟩
    · cases h1
  · rw [Exec.Runs_liftComp] at hr1
    obtain ⟨hr1, rfl⟩ := hr1
    rcases h _ hr1 with ⟨e', h1, h2⟩ | ⟨_, _, h1, c2, h2, st, h3, o, h4, h5⟩
    · cases h1
    cases h1
    rw [← foldLoss_finish _ _ _ _ _ rfl] at h4
    dsimp only at hr
    rw [h2, Exec.Runs_bind] at hr
    rcases hr with ⟨e, rfl, hr⟩ | ⟨_, w1, hr1, hr⟩
    · rw [Exec.Runs_lift] at hr; cases hr.1
    rw [Exec.Runs_lift] at hr1
    obtain ⟨hr1, rfl⟩ := hr1
    cases hr1
    rw [Exec.Runs_bind] at hr
    rcases hr with ⟨e, rfl, hr⟩ | ⟨_, w1, hr1, hr⟩
    · rw [Exec.Runs_onStore, h3] at hr; cases hr.1
    rw [Exec.Runs_onStore, h3] at hr1
    obtain ⟨-, rfl⟩ := hr1
    rw [Exec.Runs_bind] at hr
    rcases hr with ⟨e, rfl, hr⟩ | ⟨o', w1, hr1, hr⟩
    · rw [Exec.Runs_lift] at hr
      rw [← hr.1] at h4
      cases h4
    · rw [Exec.Runs_lift] at hr1
      obtain ⟨ho', rfl⟩ := hr1
      rw [← ho'] at h4
      rw [Exec.Runs_pure] at hr
      obtain ⟨rfl, rfl⟩ := hr
      simp only [bind, Except.bind, Pure.pure, Except.pure, Except.ok.injEq] at h4
      exact Or.inl ⟨o, by rw [h4], h5⟩

end Verif
