import Verif.Props.Nests
/-
Two computations that draw alike and return related results.
-/
namespace Verif
open Spec
variable {L : Lang} {α β γ δ : Type}

/-- Same draws, related results. -/
def Comp.Rel (R : α → β → Prop) : Comp L α → Comp L β → Prop
  | .ret a, .ret b => R a b
  | .draw d r k, .draw d' r' k' => d = d' ∧ r = r' ∧ ∀ v, Rel R (k v) (k' v)
  | .rand k, .rand k' => ∀ u, Rel R (k u) (k' u)
  | _, _ => False

namespace Comp

theorem Rel.bind {R : α → β → Prop} {S : γ → δ → Prop} {m : Comp L α} {m' : Comp L β} {f : α → Comp L γ}
    {f' : β → Comp L δ} (h : Rel R m m') (hf : ∀ a b, R a b → Rel S (f a) (f' b)) :
    Rel S (m.bind f) (m'.bind f') := by
  induction m generalizing m' with
  | ret a => cases m' <;> first | exact h.elim | exact hf _ _ h
  | draw d r k ih =>
    cases m' <;> first
      | exact h.elim
      | exact ⟨h.1, h.2.1, fun v => ih v (h.2.2 v)⟩
  | rand k ih => cases m' <;> first | exact h.elim | exact fun u => ih u (h u)

theorem Rel.reach {R : α → β → Prop} {m : Comp L α} {m' : Comp L β} (h : Rel R m m') :
    Rel (fun a b => R a b ∧ m.Ret a ∧ m'.Ret b) m m' := by
  have key : ∀ (m : Comp L α) (m' : Comp L β) (P : α → Prop) (Q : β → Prop), (∀ a, m.Ret a → P a) →
      (∀ b, m'.Ret b → Q b) → Rel R m m' → Rel (fun a b => R a b ∧ P a ∧ Q b) m m' := by
    intro m
    induction m with
    | ret a => intro m' P Q hP hQ h; cases m' <;> first | exact h.elim | exact ⟨h, hP _ rfl, hQ _ rfl⟩
    | draw d r k ih =>
      intro m' P Q hP hQ h
      cases m' <;> first
        | exact h.elim
        | exact ⟨h.1, h.2.1, fun v => ih v _ P Q (fun a ha => hP a ⟨v, ha⟩) (fun a ha => hQ a ⟨v, ha⟩) (h.2.2 v)⟩
    | rand k ih =>
      intro m' P Q hP hQ h
      cases m' <;> first
        | exact h.elim
        | exact fun v => ih v _ P Q (fun a ha => hP a ⟨v, ha⟩) (fun a ha => hQ a ⟨v, ha⟩) (h v)
  exact key m m' _ _ (fun _ h => h) (fun _ h => h) h

theorem Rel.refl (R : α → α → Prop) (hR : ∀ a, R a a) (m : Comp L α) : Rel R m m := by
  induction m with
  | ret a => exact hR a
  | draw d r k ih => exact ⟨rfl, rfl, ih⟩
  | rand k ih => exact ih

theorem Rel.map_eq {R : α → β → Prop} {m : Comp L α} {m' : Comp L β} {f : α → γ} {g : β → γ} (h : Rel R m m')
    (hf : ∀ a b, R a b → f a = g b) : m.map f = m'.map g := by
  unfold Comp.map
  induction m generalizing m' with
  | ret a =>
    cases m' with
    | ret b => simp [hf a b h]
    | _ => exact h.elim
  | draw d r k ih =>
    cases m' with
    | draw d' r' k' =>
      obtain ⟨rfl, rfl, h⟩ := h
      simp only [bind_draw]
      congr 1
      funext v
      exact ih v (h v)
    | _ => exact h.elim
  | rand k ih =>
    cases m' with
    | rand k' =>
      simp only [bind_rand]
      congr 1
      funext v
      exact ih v (h v)
    | _ => exact h.elim

end Comp

/-- Both raise the same exception, or both return and the results are related. -/
def ExceptRel (R : α → β → Prop) : Except Err α → Except Err β → Prop
  | .ok a, .ok b => R a b
  | .error e, .error e' => e = e'
  | _, _ => False

namespace Exec

/-- Same draws, same final world, related outcomes. -/
def Rel (R : α → β → Prop) (m : Exec L α) (m' : Exec L β) : Prop :=
  ∀ w, Comp.Rel (fun r r' => ExceptRel R r.1 r'.1 ∧ r.2 = r'.2) (m w) (m' w)

theorem Rel.bind {R : α → β → Prop} {S : γ → δ → Prop} {m : Exec L α} {m' : Exec L β} {f : α → Exec L γ}
    {f' : β → Exec L δ} (h : Rel R m m') (hf : ∀ a b, R a b → Rel S (f a) (f' b)) : Rel S (m >>= f) (m' >>= f') := by
  intro w
  rw [bind_eq, bind_eq]
  refine (h w).bind ?_
  rintro ⟨r, w1⟩ ⟨r', w2⟩ ⟨h1, h2⟩
  simp only at h1 h2
  subst h2
  cases r <;> cases r' <;> simp only [ExceptRel] at h1
  · subst h1; exact ⟨rfl, rfl⟩
  · exact hf _ _ h1 w1

theorem Rel.reach {R : α → β → Prop} {m : Exec L α} {m' : Exec L β} (h : Rel R m m') :
    Rel (fun a b => R a b ∧ (∃ w w', m.Runs w (.ok a) w') ∧ ∃ w w', m'.Runs w (.ok b) w') m m' := by
  intro w
  have := (h w).reach
  have h2 := Comp.Rel.bind (f := Comp.ret) (f' := Comp.ret)
    (S := fun r r' => ExceptRel (fun a b => R a b ∧ (∃ w w', m.Runs w (.ok a) w') ∧ ∃ w w', m'.Runs w (.ok b) w')
      r.1 r'.1 ∧ r.2 = r'.2) this ?_
  · simpa using h2
  rintro ⟨r, w1⟩ ⟨r', w2⟩ ⟨⟨h1, h2⟩, h3, h4⟩
  refine ⟨?_, h2⟩
  cases r <;> cases r' <;> simp only [ExceptRel] at h1 ⊢
  · exact h1
  · exact ⟨h1, ⟨w, w1, h3⟩, ⟨w, w2, h4⟩⟩

theorem Rel.mono {R S : α → β → Prop} {m : Exec L α} {m' : Exec L β} (h : Rel R m m') (hs : ∀ a b, R a b → S a b) :
    Rel S m m' := by
  intro w
  have h2 := Comp.Rel.bind (f := Comp.ret) (f' := Comp.ret)
    (S := fun r r' => ExceptRel S r.1 r'.1 ∧ r.2 = r'.2) (h w) ?_
  · simpa using h2
  rintro ⟨r, w1⟩ ⟨r', w2⟩ ⟨h1, h2⟩
  refine ⟨?_, h2⟩
  cases r <;> cases r' <;> simp only [ExceptRel] at h1 ⊢
  · exact h1
  · exact hs _ _ h1

theorem Rel.refl (R : α → α → Prop) (hR : ∀ a, R a a) (m : Exec L α) : Rel R m m := by
  intro w
  refine Comp.Rel.refl _ ?_ _
  rintro ⟨r, w⟩
  refine ⟨?_, rfl⟩
  cases r <;> simp [ExceptRel, hR]

theorem Rel.lift {R : α → β → Prop} {x : Except Err α} {y : Except Err β} (h : ExceptRel R x y) :
    Rel (L := L) R (Exec.lift x) (Exec.lift y) := fun _ => ⟨h, rfl⟩

theorem Rel.pure {R : α → β → Prop} {x : α} {y : β} (h : R x y) :
    Rel (L := L) R (Pure.pure x) (Pure.pure y) := fun _ => ⟨h, rfl⟩

theorem Rel.withSub {R : α → β → Prop} {i : ObjId} {t : Option (Trace L)} {m : Exec L α} {m' : Exec L β}
    (h : Rel R m m') : Rel R (Exec.withSub i t m) (Exec.withSub i t m') := by
  intro w
  rw [withSub_eq, withSub_eq]
  refine (h _).bind ?_
  rintro ⟨r, w1⟩ ⟨r', w2⟩ ⟨h1, h2⟩
  exact ⟨h1, by simp only at h2 ⊢; rw [h2]⟩

end Exec

theorem ExceptRel.bind {R : α → β → Prop} {S : γ → δ → Prop} {x : Except Err α} {y : Except Err β}
    {f : α → Except Err γ} {g : β → Except Err δ} (h : ExceptRel R x y) (hf : ∀ a b, R a b → ExceptRel S (f a) (g b)) :
    ExceptRel S (x >>= f) (y >>= g) := by
  cases x <;> cases y <;> simp only [ExceptRel] at h
  · exact h
  · exact hf _ _ h

theorem ExceptRel.refl (R : α → α → Prop) (hR : ∀ a, R a a) (x : Except Err α) : ExceptRel R x x := by
  cases x <;> simp [ExceptRel, hR]

theorem ExceptRel.eq {x y : Except Err α} (h : x = y) : ExceptRel (· = ·) x y := by
  subst h; exact ExceptRel.refl _ (fun _ => rfl) x

/-- Results that differ in debugging entries only. -/
abbrev SameOut (o o' : Out L) : Prop := noDebug o = noDebug o'

theorem sameOut_iff (o o' : Out L) : SameOut o o' ↔ o.trace = o'.trace ∧ o.logWeight = o'.logWeight ∧
    o.output = o'.output ∧ o.type = o'.type ∧ o.ix = o'.ix ∧ o.loss = o'.loss ∧ o.marginal = o'.marginal ∧
    o.px.map (fun x => { x with forwardTrace := none }) = o'.px.map (fun x => { x with forwardTrace := none }) := by
  simp [SameOut, noDebug]

@[simp] theorem noDebug_setSubs (o : Out L) (s) : noDebug (o.setSubs s) = noDebug o := by cases o; rfl
@[simp] theorem noDebug_setSubs_ite (o : Out L) (s) (b : Bool) :
    noDebug (if b = true then o.setSubs s else o) = noDebug o := by split <;> simp

theorem exceptRel_subs {o o' : Out L} {b b' : Bool} {s s' : List (String × Out L)} (h : SameOut o o') :
    ExceptRel SameOut (pure (if b = true then o.setSubs s else o)) (pure (if b' = true then o'.setSubs s' else o')) := by
  show SameOut _ _
  simpa only [SameOut, noDebug_setSubs_ite] using h

theorem foldLoss_same (a : Attrs L) (ha : ∀ o o' l, noDebug o = noDebug o' → a.lossFn o l = a.lossFn o' l) (d : Bool)
    (o o' s s' : Out L) (h : SameOut o o') (hs : SameOut s s') :
    ExceptRel SameOut (foldLoss { a with debug := d } o s) (foldLoss a o' s') := by
  unfold foldLoss
  rw [((sameOut_iff s s').1 hs).2.2.2.2.2.1]
  simp only
  rw [ha o o' _ h]
  cases a.lossFn o' _ with
  | error e => rfl
  | ok l =>
    cases o; cases o'
    simp only [ExceptRel, Out.setLoss_mk]
    rw [sameOut_iff] at h ⊢
    simp only [Out.trace_mk, Out.logWeight_mk, Out.output_mk, Out.type_mk, Out.ix_mk, Out.loss_mk, Out.marginal_mk,
      Out.px_mk] at h ⊢
    exact ⟨h.1, h.2.1, h.2.2.1, h.2.2.2.1, h.2.2.2.2.1, trivial, h.2.2.2.2.2.2⟩

theorem bindModel_debug (s : ArgSpec) (kw : Kw L) (b : Bool) :
    bindModel s (receivedKwargs s { kw with debug := b }) = bindModel s (receivedKwargs s kw) := by
  have : (receivedKwargs s { kw with debug := b }).any (fun e => (s.args.take 3).contains e.1) =
      (receivedKwargs s kw).any (fun e => (s.args.take 3).contains e.1) := by
    simp only [receivedKwargs, offeredKwargs, List.any_filter, List.any_append, List.any_cons]
  unfold bindModel
  rw [this]

theorem id_setDebug (g : ObjId → Bool) (n : Node L) : (setDebug g n).id = n.id := by cases n <;> rfl
theorem isExtend_setDebug (g : ObjId → Bool) (n : Node L) : (setDebug g n).isExtend = n.isExtend := by cases n <;> rfl

theorem forwardTrace_same (g : ObjId → Bool) (q : Node L) (c : PyVal L) (kw kw' : Kw L) (o o' : Out L)
    (h : ∃ w w', (eval (setDebug g q) c kw).Runs w (.ok o) w') (h' : ∃ w w', (eval q c kw').Runs w (.ok o') w') :
    ExceptRel (fun _ _ => True) (forwardTrace (setDebug g q) o) (forwardTrace q o') := by
  obtain ⟨w, w1, h⟩ := h
  obtain ⟨w', w1', h'⟩ := h'
  cases hd : q.debugAttr with
  | none =>
    cases q <;> simp only [Node.debugAttr, reduceCtorEq] at hd
    simp [setDebug, forwardTrace, Node.debugAttr, hd, ExceptRel]
  | some b =>
    obtain ⟨f', hf', -⟩ := C11_debug_read_succeeds q b hd _ _ _ _ _ h'
    have : ∃ b', (setDebug g q).debugAttr = some b' := by
      cases q with
      | prog i s => exact ⟨b, hd⟩
      | _ => exact ⟨_, rfl⟩
    obtain ⟨b', hb'⟩ := this
    obtain ⟨f, hf, -⟩ := C11_debug_read_succeeds _ b' hb' _ _ _ _ _ h
    rw [hf, hf']
    trivial

theorem eval_debug (g : ObjId → Bool) (n : Node L) (hn : DebugBlind n) (c : PyVal L) (kw : Kw L) (b : Bool) :
    Exec.Rel SameOut (eval (setDebug g n) c { kw with debug := b }) (eval n c kw) := by
  induction n generalizing c kw with
  | prog i s =>
    intro w
    simp only [setDebug]
    rw [eval_prog_apply, eval_prog_apply, bindModel_debug, hn c kw b]
    exact Comp.Rel.refl _ (fun r => ⟨by cases r.1 <;> simp [ExceptRel], rfl⟩) _
  | resample a r q ih =>
    unfold setDebug eval
    refine (ih hn.2 c (childKw a kw)).bind ?_
    intro o o' ho
    have ho' := (sameOut_iff o o').1 ho
    unfold resampleRest
    rw [ho'.1, ho'.2.1]
    refine (Exec.Rel.refl (· = ·) (fun _ => rfl) _).bind ?_
    rintro ⟨t, lw⟩ _ rfl
    simp only [ho'.2.2.1]
    refine (Exec.Rel.refl (· = ·) (fun _ => rfl) _).bind ?_
    rintro c2 _ rfl
    refine (Exec.Rel.refl (· = ·) (fun _ => rfl) _).bind ?_
    rintro _ _ -
    refine (Exec.Rel.lift (foldLoss_same a hn.1 _ _ _ _ _ rfl ho)).bind ?_
    intro x y hxy
    exact Exec.Rel.pure (by simpa only [SameOut, noDebug_setSubs_ite] using hxy)
  | compose a q2 q1 ih2 ih1 =>
    unfold setDebug eval
    simp only [dispatchKw_node]
    refine (ih1 hn.2.2 c (childKw a kw)).bind ?_
    intro o o' ho
    have ho' := (sameOut_iff o o').1 ho
    rw [ho'.2.2.1]
    refine (ih2 hn.2.1 _ (childKw a kw)).bind ?_
    intro o2 o2' ho2
    have ho2' := (sameOut_iff o2 o2').1 ho2
    refine Exec.Rel.lift ?_
    unfold composeRest
    rw [ho'.1, ho'.2.1, ho2'.1, ho2'.2.1, ho2'.2.2.1]
    refine (ExceptRel.refl (· = ·) (fun _ => rfl) _).bind ?_
    rintro t _ rfl
    by_cases hd : disjointKeys o2'.trace o'.trace = true
    case neg => simp only [hd, Bool.not_false, if_true]; rfl
    simp only [hd, Bool.not_true, Bool.false_eq_true, if_false]
    refine (foldLoss_same a hn.1 _ _ _ _ _ rfl ho).bind ?_
    intro x y hxy
    exact exceptRel_subs hxy
  | extend a p f ihp ihf =>
    unfold setDebug eval
    simp only [dispatchKw_node, id_setDebug]
    refine (Exec.Rel.refl (· = ·) (fun _ => rfl) _).bind ?_
    rintro cond _ rfl
    refine Exec.Rel.bind (R := fun x y => SameOut x.1 y.1 ∧ SameOut x.2 y.2) ?_ ?_
    · refine Exec.Rel.withSub ((Exec.Rel.refl (· = ·) (fun _ => rfl) _).bind ?_)
      rintro cond _ rfl
      refine Exec.Rel.withSub ((ihp hn.2.1 c (childKw a kw)).bind ?_)
      intro o o' ho
      rw [((sameOut_iff o o').1 ho).2.2.1]
      refine ((ihf hn.2.2 _ (childKw a kw)).bind ?_)
      intro o2 o2' ho2
      exact Exec.Rel.pure ⟨ho, ho2⟩
    · rintro ⟨o, o2⟩ ⟨o', o2'⟩ ⟨ho, ho2⟩
      simp only at ho ho2 ⊢
      have ho' := (sameOut_iff o o').1 ho
      have ho2' := (sameOut_iff o2 o2').1 ho2
      refine (Exec.Rel.refl (· = ·) (fun _ => rfl) _).bind ?_
      rintro cond _ rfl
      refine Exec.Rel.lift ?_
      unfold extendRest
      have hc : extendCheckF cond o2 = extendCheckF cond o2' := by
        unfold extendCheckF; rw [ho2'.1, ho2'.2.1]
      rw [hc, ho'.1, ho'.2.1, ho'.2.2.1, ho2'.1, ho2'.2.2.1]
      refine ExceptRel.bind (R := (· = ·)) (ExceptRel.refl _ (fun _ => rfl) _) ?_
      rintro _ _ -
      by_cases hd : disjointKeys o2'.trace o'.trace = true
      case neg => simp only [hd, Bool.not_false, if_true]; rfl
      simp only [hd, Bool.not_true, Bool.false_eq_true, if_false]
      refine ExceptRel.bind (R := (· = ·)) (ExceptRel.refl _ (fun _ => rfl) _) ?_
      rintro t _ rfl
      refine (foldLoss_same a hn.1 _ _ _ _ _ rfl ho).bind ?_
      intro x y hxy
      exact exceptRel_subs hxy
  | propose a tr nr p q ihp ihq =>
    unfold setDebug eval
    simp only [dispatchKw_node, id_setDebug]
    refine (ihq hn.2.2.2 c (childKw a kw)).reach.bind ?_
    rintro o o' ⟨ho, hr, hr'⟩
    have ho' := (sameOut_iff o o').1 ho
    rw [ho'.1]
    refine (Exec.Rel.withSub (ihp hn.2.2.1 c (childKw a kw))).bind ?_
    rintro o2 o2' ho2
    have ho2' := (sameOut_iff o2 o2').1 ho2
    refine Exec.Rel.lift ?_
    have hm : marginalize (setDebug g p) o2 = marginalize p o2' := by
      unfold marginalize
      rw [isExtend_setDebug, ho2'.1, ho2'.2.2.1, ho2'.2.2.2.2.2.2.1]
    unfold proposeRest
    rw [hm, ho'.1, ho'.2.1, ho2'.1, ho2'.2.1]
    refine ExceptRel.bind (R := (· = ·)) (ExceptRel.eq (hn.2.1 _ { childKw a kw with shared := [] } b)) ?_
    rintro t _ rfl
    refine ExceptRel.bind (R := (· = ·)) (ExceptRel.refl _ (fun _ => rfl) _) ?_
    rintro m _ rfl
    refine ExceptRel.bind (R := (· = ·)) (ExceptRel.refl _ (fun _ => rfl) _) ?_
    rintro t' _ rfl
    refine ExceptRel.bind (R := (· = ·)) (ExceptRel.refl _ (fun _ => rfl) _) ?_
    rintro lw _ rfl
    refine ExceptRel.bind (R := (· = ·)) (ExceptRel.refl _ (fun _ => rfl) _) ?_
    rintro t1 _ rfl
    refine ExceptRel.bind (R := (· = ·)) (ExceptRel.refl _ (fun _ => rfl) _) ?_
    rintro t2 _ rfl
    refine ExceptRel.bind (forwardTrace_same g q _ _ _ _ _ hr hr') ?_
    rintro f f' -
    refine ExceptRel.bind (foldLoss_same a hn.1 (g a.id) _ _ o o' ?_ ho) ?_
    · rfl
    intro x y hxy
    exact exceptRel_subs hxy

end Verif
