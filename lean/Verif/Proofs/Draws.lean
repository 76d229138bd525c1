import Verif.Proofs.Safe
/-
What a statement draws: nothing, or as a given computation, before it returns.
-/
namespace Verif
open Spec
variable {L : Lang} {α β γ : Type} {E : Err → Prop}

/-- Run in `w`, `m` draws like `K` and returns; `Q b` holds of the result and the world it leaves when the outcome is `b`. -/
def Exec.Draws (m : Exec L α) (w : World L) (K : Comp L β) (Q : β → α → World L → Prop) : Prop :=
  ∃ F : β → α × World L, (m w = K.bind fun b => .ret (.ok (F b).1, (F b).2)) ∧ ∀ b, Q b (F b).1 (F b).2

/-- Run in `w`, `m` draws nothing and returns. -/
def Exec.Done (m : Exec L α) (w : World L) (Q : α → World L → Prop) : Prop := ∃ a w', m w = .ret (.ok a, w') ∧ Q a w'

namespace Exec

theorem Done.mono {m : Exec L α} {w : World L} {Q Q' : α → World L → Prop} (h : m.Done w Q) (hq : ∀ a w', Q a w' → Q' a w') :
    m.Done w Q' := by
  obtain ⟨a, w', h1, h2⟩ := h
  exact ⟨a, w', h1, hq _ _ h2⟩

theorem Draws.mono {m : Exec L α} {w : World L} {K : Comp L β} {Q Q' : β → α → World L → Prop} (h : m.Draws w K Q)
    (hq : ∀ b a w', Q b a w' → Q' b a w') : m.Draws w K Q' := by
  obtain ⟨F, h1, h2⟩ := h
  exact ⟨F, h1, fun b => hq _ _ _ (h2 b)⟩

theorem Done.safe {m : Exec L α} {w : World L} {Q : α → World L → Prop} (h : m.Done w Q) : m.Safe E w Q := by
  obtain ⟨a, w', h1, h2⟩ := h
  intro r w1 hr
  unfold Exec.Runs at hr
  rw [h1] at hr
  cases hr
  exact Or.inl ⟨a, rfl, h2⟩

theorem Draws.safe {m : Exec L α} {w : World L} {K : Comp L β} {Q : β → α → World L → Prop} (h : m.Draws w K Q) :
    m.Safe E w fun a w' => ∃ b, Q b a w' := by
  obtain ⟨F, h1, h2⟩ := h
  intro r w1 hr
  unfold Exec.Runs at hr
  rw [h1, Comp.bind_Ret] at hr
  obtain ⟨b, -, hb⟩ := hr
  cases hb
  exact Or.inl ⟨_, rfl, b, h2 b⟩

theorem Done.pure {a : α} {w : World L} {Q : α → World L → Prop} (h : Q a w) : (Exec.pure a : Exec L α).Done w Q :=
  ⟨a, w, rfl, h⟩

theorem Done.lift {a : α} {x : Except Err α} {w : World L} {Q : α → World L → Prop} (hx : x = .ok a) (h : Q a w) :
    (Exec.lift x : Exec L α).Done w Q := ⟨a, w, by rw [hx]; rfl, h⟩

theorem Done.bind {m : Exec L α} {f : α → Exec L γ} {w : World L} {Q1 : α → World L → Prop} {Q : γ → World L → Prop}
    (h : m.Done w Q1) (hf : ∀ a w1, Q1 a w1 → (f a).Done w1 Q) : (Exec.bind m f).Done w Q := by
  obtain ⟨a, w1, h1, h2⟩ := h
  obtain ⟨c, w2, h3, h4⟩ := hf a w1 h2
  refine ⟨c, w2, ?_, h4⟩
  unfold Exec.bind
  rw [h1]
  exact h3

theorem Draws.bind {m : Exec L α} {f : α → Exec L γ} {w : World L} {K : Comp L β} {Q1 : β → α → World L → Prop}
    {Q : β → γ → World L → Prop} (h : m.Draws w K Q1) (hf : ∀ b a w1, Q1 b a w1 → (f a).Done w1 (Q b)) :
    (Exec.bind m f).Draws w K Q := by
  obtain ⟨F, h1, h2⟩ := h
  choose c w2 h3 h4 using fun b => hf b _ _ (h2 b)
  refine ⟨fun b => (c b, w2 b), ?_, h4⟩
  unfold Exec.bind
  rw [h1, Comp.bind_assoc]
  congr 1
  funext b
  exact h3 b

theorem Done.onStore_bind {f : Store L → Except Err α × Store L} {g : α → Exec L γ} {w : World L} {Q : γ → World L → Prop} {a : α}
    {s : Store L} (hf : f w.store = (.ok a, s)) (h : (g a).Done { w with store := s } Q) :
    (Exec.bind (Exec.onStore f) g).Done w Q := by
  obtain ⟨c, w2, h3, h4⟩ := h
  refine ⟨c, w2, ?_, h4⟩
  rw [onStore_bind_apply, hf]
  exact h3

theorem Safe.bind' {m : Exec L α} {f : α → Exec L γ} {w : World L} {Q1 : α → World L → Prop} {Q : γ → World L → Prop}
    (h : m.Safe E w Q1) (hf : ∀ a w1, Q1 a w1 → (f a).Safe E w1 Q) : (Exec.bind m f).Safe E w Q := by
  intro r w' hr
  rw [← Exec.bind_eq, Exec.Runs_bind] at hr
  rcases hr with ⟨e, rfl, hr⟩ | ⟨a, w1, hr1, hr⟩
  · exact Or.inr ⟨e, rfl, h.error hr⟩
  · exact hf _ _ (h.result hr1) _ _ hr

theorem Done.withSub {i : ObjId} {t : Option (Trace L)} {m : Exec L α} {w : World L} {Q : α → World L → Prop}
    (h : m.Done (w.setCond i t) fun a w' => Q a (w'.setCond i none)) : (Exec.withSub i t m).Done w Q := by
  obtain ⟨a, w', h1, h2⟩ := h
  exact ⟨a, _, by rw [withSub_eq, h1]; rfl, h2⟩

theorem Done.withSub' {i : ObjId} {t : Option (Trace L)} {m : Exec L α} {w : World L} {Q : α → World L → Prop}
    (h : m.Done (w.setCond i t) Q) : (Exec.withSub i t m).Done w fun a w' => ∃ w1, w' = w1.setCond i none ∧ Q a w1 :=
  Done.withSub (h.mono fun _ w1 hq => ⟨w1, rfl, hq⟩)

/-- Drawing one value first. -/
theorem Draws.draw {d : L.D} {rep : Bool} {k : L.V → Comp L (Except Err α × World L)} {m : Exec L α} {w : World L}
    {Q : L.V → α → World L → Prop} (hm : m w = .draw d rep k) (h : ∀ v, ∃ a w', k v = .ret (.ok a, w') ∧ Q v a w') :
    m.Draws w (.draw d rep .ret) Q := by
  choose a w' h1 h2 using h
  refine ⟨fun v => (a v, w' v), ?_, h2⟩
  rw [hm]
  simp only [Comp.bind_draw, Comp.bind_ret]
  congr 1
  funext v
  exact h1 v

end Exec

/-! ### Models -/

theorem done_given {cond : Option (Trace L)} {name : String} {d : L.D} {v : L.V} {p : Prov} {rep : Bool} {k : L.V → MTree L}
    {t : Trace L} {w : World L} {Q} (hn : t.contains name = false)
    (h : (runModel cond (k v) (t.insert name (RV.mk' d v p rep))).Done w Q) :
    (runModel cond (.variable name d (some v) (some p) rep k) t).Done w Q := by
  simp only [runModel, hn, Bool.false_eq_true, if_false, variableValue, Option.getD_some]
  exact h

theorem done_reused {c : Trace L} {name : String} {d : L.D} {p : Option Prov} {rep : Bool} {k : L.V → MTree L} {rv : RV L}
    {t : Trace L} {w : World L} {Q} (hn : t.contains name = false) (hc : c.get? name = some rv)
    (h : (runModel (some c) (k rv.value) (t.insert name (RV.mk' d rv.value .reused rep))).Done w Q) :
    (runModel (some c) (.variable name d none p rep k) t).Done w Q := by
  simp only [runModel, hn, Bool.false_eq_true, if_false, variableValue, hc, Option.map_some]
  exact h

theorem draws_sampled {name : String} {d : L.D} {p : Option Prov} {rep : Bool} {k : L.V → MTree L} {t : Trace L} {w : World L}
    {Q : L.V → PyVal L × Trace L → World L → Prop} (hn : t.contains name = false)
    (h : ∀ v, (runModel none (k v) (t.insert name (RV.mk' d v .sampled rep))).Done w (Q v)) :
    (runModel none (.variable name d none p rep k) t).Draws w (.draw d rep .ret) Q := by
  simp only [runModel, hn, Bool.false_eq_true, if_false, variableValue]
  exact Exec.Draws.draw rfl h

/-! ### Combinators -/

theorem draws_prog {i : ObjId} {s : ProgSpec L} {c : PyVal L} {kw : Kw L} {w : World L} {K : Comp L β}
    {Q : β → Out L → World L → Prop} (hb : bindModel s.sig (receivedKwargs s.sig kw) = .ok ())
    (h : (runModel (w.cond i) (s.model c (receivedKwargs s.sig kw)) Dict.empty).Draws w K fun b r w' =>
      Q b (Out.mk r.2 (logJoint r.2 (weightNodes (w.cond i) r.2)) r.1 (.program s.name) none none none none []) w') :
    (eval (.prog i s) c kw).Draws w K Q := by
  obtain ⟨F, h1, h2⟩ := h
  refine ⟨fun b => (Out.mk (F b).1.2 (logJoint (F b).1.2 (weightNodes (w.cond i) (F b).1.2)) (F b).1.1 (.program s.name) none none
    none none [], (F b).2), ?_, h2⟩
  rw [eval_prog_apply, hb]
  simp only
  rw [h1, Comp.bind_assoc]
  rfl

theorem done_prog {i : ObjId} {s : ProgSpec L} {c : PyVal L} {kw : Kw L} {w : World L} {Q : Out L → World L → Prop}
    (hb : bindModel s.sig (receivedKwargs s.sig kw) = .ok ())
    (h : (runModel (w.cond i) (s.model c (receivedKwargs s.sig kw)) Dict.empty).Done w fun r w' =>
      Q (Out.mk r.2 (logJoint r.2 (weightNodes (w.cond i) r.2)) r.1 (.program s.name) none none none none []) w') :
    (eval (.prog i s) c kw).Done w Q := by
  obtain ⟨a, w', h1, h2⟩ := h
  refine ⟨_, w', ?_, h2⟩
  rw [eval_prog_apply, hb]
  simp only
  rw [h1]
  rfl

theorem done_extend {a : Attrs L} {p f : Node L} {c : PyVal L} {kw : Kw L} {w : World L} {Q : Out L → World L → Prop}
    {Q1 : Out L → World L → Prop} (ha : a.id ∉ below (.extend a p f))
    (h1 : (eval p c (subKw a kw)).Done ((w.setCond p.id (w.cond a.id)).setCond f.id (w.cond a.id)) Q1)
    (h2 : ∀ po w1, Q1 po w1 → (eval f po.output (subKw a kw)).Done w1 fun fo w2 =>
      ∃ o, extendRest a kw (w.cond a.id) po fo = .ok o ∧ Q o ((w2.setCond f.id none).setCond p.id none)) :
    (eval (.extend a p f) c kw).Done w Q := by
  obtain ⟨po, w1, e1, q1⟩ := h1
  obtain ⟨fo, w2, e2, o, e3, q2⟩ := h2 po w1 q1
  simp only [below, List.mem_cons, List.mem_append, not_or] at ha
  obtain ⟨hp, hf, hbp, hbf⟩ := ha
  have c1 : w1.cond a.id = w.cond a.id := by
    have := (eval_slots p c (subKw a kw) _ w1 (.ok po) (by unfold Exec.Runs; rw [e1]; rfl)).2 _ hbp
    rw [this]
    simp [hp, hf]
  have c2 : w2.cond a.id = w.cond a.id := by
    have := (eval_slots f po.output (subKw a kw) _ w2 (.ok fo) (by unfold Exec.Runs; rw [e2]; rfl)).2 _ hbf
    rw [this, c1]
  refine ⟨o, _, ?_, q2⟩
  unfold eval
  simp only [Exec.bind_eq, Exec.bind, Exec.getCond, Comp.bind_ret, dispatchKw_node, childKw_eq, Exec.withSub_eq, Exec.pure_eq,
    World.setCond_cond, if_neg hp, e1, e2, Exec.pure, if_neg hf, c2, Exec.lift, e3]

end Verif
