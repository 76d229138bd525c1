import Verif.Proofs.Combinators
import Verif.Proofs.Annealing
import Verif.Spec.Laws
/-
Agreement of computations.
-/
namespace Verif
open Spec
variable {L : Lang}

theorem fails_error {α : Type} (e : Err) (w : World L) : Fails (.ret (.error e, w) : Comp L (Except Err α × World L)) := by
  rintro r rfl
  exact ⟨e, rfl⟩

theorem Agree.bind {α β : Type} {R : α → α → Prop} {S : β → β → Prop} {m m' : Exec L α} {f f' : α → Exec L β} {w : World L}
    (h : Agree R (m w) (m' w)) (hf : ∀ o o' w', (m w).Ret (.ok o, w') → (m' w).Ret (.ok o', w') → R o o' → Agree S (f o w') (f' o' w')) :
    Agree S (Exec.bind m f w) (Exec.bind m' f' w) := by
  simp only [Exec.bind]
  generalize m w = x at h hf
  generalize m' w = y at h hf
  induction h with
  | ok h => exact hf _ _ _ rfl rfl h
  | fail h h' =>
    refine Agree.fail ?_ ?_
    · intro r hr
      rw [Comp.bind_Ret] at hr
      obtain ⟨⟨a, w1⟩, h1, h2⟩ := hr
      obtain ⟨e, he⟩ := h _ h1
      simp only at he
      subst he
      cases h2
      exact ⟨e, rfl⟩
    · intro r hr
      rw [Comp.bind_Ret] at hr
      obtain ⟨⟨a, w1⟩, h1, h2⟩ := hr
      obtain ⟨e, he⟩ := h' _ h1
      simp only at he
      subst he
      cases h2
      exact ⟨e, rfl⟩
  | draw h ih => exact Agree.draw fun v => ih v fun o o' w' h1 h2 => hf o o' w' ⟨v, h1⟩ ⟨v, h2⟩
  | rand h ih => exact Agree.rand fun v => ih v fun o o' w' h1 h2 => hf o o' w' ⟨v, h1⟩ ⟨v, h2⟩

theorem Agree.refl {α : Type} (m : Comp L (Except Err α × World L)) : Agree Eq m m := by
  induction m with
  | ret r =>
    rcases r with ⟨e | o, w⟩
    · exact Agree.fail (fails_error _ _) (fails_error _ _)
    · exact Agree.ok rfl
  | draw d b k ih => exact Agree.draw ih
  | rand k ih => exact Agree.rand ih

theorem Agree.lift {α : Type} {R : α → α → Prop} {x y : Except Err α} {w : World L}
    (h : (∃ a b, x = .ok a ∧ y = .ok b ∧ R a b) ∨ (∃ e, x = .error e) ∧ ∃ e, y = .error e) :
    Agree R ((Exec.lift x : Exec L α) w) ((Exec.lift y : Exec L α) w) := by
  rcases h with ⟨a, b, rfl, rfl, h⟩ | ⟨⟨e, rfl⟩, e', rfl⟩
  · exact Agree.ok h
  · exact Agree.fail (fails_error _ _) (fails_error _ _)

theorem Agree.mono {α : Type} {R S : α → α → Prop} (hRS : ∀ a b, R a b → S a b) {m m' : Comp L (Except Err α × World L)} (h : Agree R m m') :
    Agree S m m' := by
  induction h with
  | ok h => exact Agree.ok (hRS _ _ h)
  | fail h h' => exact Agree.fail h h'
  | draw _ ih => exact Agree.draw ih
  | rand _ ih => exact Agree.rand ih

theorem fails_bind {α β : Type} {m : Exec L α} {f : α → Exec L β} {w : World L}
    (hf : ∀ o w', (m w).Ret (.ok o, w') → Fails (f o w')) : Fails (Exec.bind m f w) := by
  intro r hr
  simp only [Exec.bind, Comp.bind_Ret] at hr
  obtain ⟨⟨a, w1⟩, h1, h2⟩ := hr
  cases a with
  | error e => cases h2; exact ⟨e, rfl⟩
  | ok a => exact hf _ _ h1 _ h2

/-- What runs of one side say about the other. -/
theorem Spec.Agree.runs {α : Type} {R : α → α → Prop} {m m' : Comp L (Except Err α × World L)} (h : Agree R m m') {o : α} {w : World L}
    (hr : m.Ret (.ok o, w)) : ∃ o', m'.Ret (.ok o', w) ∧ R o o' := by
  induction h with
  | ok h => cases hr; exact ⟨_, rfl, h⟩
  | fail h h' => obtain ⟨e, he⟩ := h _ hr; cases he
  | draw h ih => obtain ⟨v, hv⟩ := hr; obtain ⟨o', h1, h2⟩ := ih v hv; exact ⟨o', ⟨v, h1⟩, h2⟩
  | rand h ih => obtain ⟨v, hv⟩ := hr; obtain ⟨o', h1, h2⟩ := ih v hv; exact ⟨o', ⟨v, h1⟩, h2⟩

theorem Exec.bind_assoc' {α β γ : Type} (m : Exec L α) (f : α → Exec L β) (g : β → Exec L γ) :
    (m.bind f).bind g = m.bind fun a => (f a).bind g := by
  rw [← Exec.bind_eq, ← Exec.bind_eq, LawfulMonad.bind_assoc]
  rfl

theorem LW.ext' {W : Type} [AddCommGroup W] {a b : LW W} (hv : a.val = b.val) (hz : a = .float0 ↔ b = .float0) : a = b := by
  cases a with
  | float0 => exact (hz.1 rfl).symm
  | tensor x =>
    cases b with
    | float0 => exact hz.2 rfl
    | tensor y => exact congrArg _ hv

theorem LW.add_assoc' {W : Type} [AddCommGroup W] (a b c : LW W) : (a.add b).add c = a.add (b.add c) := by
  cases a <;> cases b <;> cases c <;> simp [LW.add, add_assoc]

theorem getL_append {β : Type} (l l' : List (String × β)) (k : String) : getL (l ++ l') k = (getL l k).or (getL l' k) := by
  induction l with
  | nil => simp [getL]
  | cons e l ih =>
    rw [List.cons_append, getL, getL]
    split
    · rfl
    · exact ih

theorem union_get {t a b : Trace L} (h : IsUnion t a b) (k : String) : t.get? k = (a.get? k).or (b.get? k) := by
  show getL t.entries k = _
  rw [h, getL_append]
  rfl

theorem union_keys {t a b : Trace L} (h : IsUnion t a b) (k : String) : k ∈ t.keys ↔ k ∈ a.keys ∨ k ∈ b.keys := by
  show k ∈ keysL t.entries ↔ _
  rw [h, keysL_append, List.mem_append]
  rfl

/-- A combinator with the default attributes always finishes. -/
theorem finish_default (i : ObjId) (d : Bool) (ix : PyVal L) (kw : Kw L) (out sub : Out L) (subs : List (String × Out L)) :
    ∃ ss, finish (mkAttrs i none none ix d) kw out sub subs = .ok ((out.setLoss (sub.loss.getD 0)).setSubs ss) := by
  refine ⟨if kw.debug = true ∨ d = true then subs else [], ?_⟩
  simp only [finish, mkAttrs, idLoss, Option.getD_none]
  cases sub.loss <;> rfl

/-- What a Compose with default attributes does with two results. -/
theorem compose_default (i : ObjId) (d : Bool) (kw : Kw L) (o1 o2 : Out L) :
    (Overlap o1.trace o2.trace ∧ composeRest (mkAttrs i none none .none d) kw o1 o2 = .error .assertion) ∨
    (¬ Overlap o1.trace o2.trace ∧ ∃ o, composeRest (mkAttrs i none none .none d) kw o1 o2 = .ok o ∧ IsUnion o.trace o2.trace o1.trace ∧
      o.logWeight = o1.logWeight.add o2.logWeight ∧ o.output = o2.output ∧ o.loss = some (o1.loss.getD 0)) := by
  rcases composeRest_spec (mkAttrs i none none .none d) kw o1 o2 with h | ⟨h, t, lw, h1, h2, h3, h4⟩
  · exact Or.inl h
  · refine Or.inr ⟨h, ?_⟩
    obtain ⟨ss, hf⟩ := finish_default i d .none kw (Out.mk t lw o2.output .compose (some (nearest (mkAttrs i none none .none d : Attrs L).ix kw.ix)) none none none []) o1
      [("q1_out", o1), ("q2_out", o2)]
    rw [hf] at h4
    refine ⟨_, h4, ?_, ?_, ?_, ?_⟩
    · simpa using h1
    · simp only [Out.setLoss_mk, Out.setSubs_mk, Out.logWeight_mk]
      exact LW.ext_val (by rw [h2]; simp) (by rw [h3, LW.add_eq_float0])
    · simp
    · simp

end Verif

namespace Verif
open Spec
variable {L : Lang}

/-- What an Extend with default attributes does with two results, without conditioning. -/
theorem extend_default (i : ObjId) (d : Bool) (kw : Kw L) (po fo : Out L) :
    ((Overlap po.trace fo.trace ∨ ¬ KernelOK none fo) ∧ extendRest (mkAttrs i none none .none d) kw none po fo = .error .assertion) ∨
    (¬ Overlap po.trace fo.trace ∧ KernelOK none fo ∧ ∃ o, extendRest (mkAttrs i none none .none d) kw none po fo = .ok o ∧
      IsUnion o.trace po.trace fo.trace ∧ o.logWeight.val = po.logWeight.val + sumLogProb fo.trace (fun _ _ => true) ∧
      (o.logWeight = .float0 ↔ po.logWeight = .float0 ∧ fo.trace.entries = []) ∧ o.output = fo.output ∧
      o.loss = some (po.loss.getD 0)) := by
  rcases extendRest_spec (mkAttrs i none none .none d) kw none po fo with h | ⟨h, hk, t, lw, h1, h2, h3, h4⟩
  · exact Or.inl h
  · refine Or.inr ⟨h, hk, ?_⟩
    obtain ⟨ss, hf⟩ := finish_default i d .none kw (Out.mk t lw fo.output .extend (some (nearest (mkAttrs i none none .none d : Attrs L).ix kw.ix)) none
      (some (po.trace.keys, po.output)) none []) po [("p_out", po), ("f_out", fo)]
    rw [hf] at h4
    exact ⟨_, h4, by simpa using h1, by simpa using h2, by simpa using h3, by simp, by simp⟩

/-- The result of a program called without conditioning suits Extend when nothing in it is OBSERVED or REUSED. -/
theorem kernelOK_prog {o : Out L} (hw : o.logWeight = .float0 ↔ ∀ k rv, o.trace.get? k = some rv → rv.prov ≠ .observed) :
    KernelOK none o ↔ ∀ k rv, o.trace.get? k = some rv → rv.prov ≠ .observed ∧ rv.prov ≠ .reused :=
  ⟨fun h k rv hg => ⟨(h.1 k rv hg).1, (h.1 k rv hg).2 rfl⟩,
    fun h => ⟨fun k rv hg => ⟨(h k rv hg).1, fun _ => (h k rv hg).2⟩, fun _ => Or.inl (hw.2 fun k rv hg => (h k rv hg).1)⟩⟩

theorem evalP_prog_float {i : ObjId} {s : ProgSpec L} {c : PyVal L} {kw : Kw L} {w w' : World L} {o : Out L}
    (h : (evalP (.prog i s) none c kw w).Ret (.ok o, w')) :
    o.logWeight = .float0 ↔ ∀ k rv, o.trace.get? k = some rv → rv.prov ≠ .observed := by
  simp only [evalP, programForward] at h
  simp only [← Exec.Runs.eq_1, Exec.Runs_bind_ok, Exec.Runs_pure] at h
  obtain ⟨⟨t, lw, out⟩, w1, h1, h2, -⟩ := h
  obtain ⟨_, _, -, ⟨o2, t2⟩, _, -, h3, -⟩ := h1
  cases h3
  cases h2
  simp only [Out.logWeight_mk, Out.trace_mk, logJoint_eq_float0]
  constructor
  · intro h k rv hk
    have := h k (Dict.mem_keys_iff.2 ⟨rv, hk⟩)
    rw [weightNodes_of_get hk] at this
    simpa [held] using this
  · intro h k hk
    obtain ⟨rv, hrv⟩ := Dict.mem_keys_iff.1 hk
    rw [weightNodes_of_get hrv]
    simpa [held] using h k rv hrv

theorem sumLogProb_union {t a b : Trace L} (h : IsUnion t a b) :
    sumLogProb t (fun _ _ => true) = sumLogProb a (fun _ _ => true) + sumLogProb b (fun _ _ => true) := by
  unfold sumLogProb
  rw [h, List.filter_append, List.map_append, List.sum_append]

theorem get_none_of_not_mem {t : Trace L} {k : String} (h : k ∉ t.keys) : t.get? k = none := by
  cases hg : t.get? k with
  | none => rfl
  | some rv => exact absurd (Dict.mem_keys_iff.2 ⟨rv, hg⟩) h

theorem union_get_iff {t a b : Trace L} (h : IsUnion t a b) (ho : ¬ Overlap b a) (k : String) (rv : RV L) :
    t.get? k = some rv ↔ a.get? k = some rv ∨ b.get? k = some rv := by
  rw [union_get h, Option.or_eq_some_iff]
  constructor
  · rintro (h1 | ⟨-, h1⟩)
    · exact Or.inl h1
    · exact Or.inr h1
  · rintro (h1 | h1)
    · exact Or.inl h1
    · refine Or.inr ⟨get_none_of_not_mem fun hk => ho ⟨k, Dict.mem_keys_iff.2 ⟨rv, h1⟩, hk⟩, h1⟩

/-- The composition of two programs suits Extend exactly if both do. -/
theorem kernelOK_union {fo go gf : Out L} (hf : fo.logWeight = .float0 ↔ ∀ k rv, fo.trace.get? k = some rv → rv.prov ≠ .observed)
    (hg : go.logWeight = .float0 ↔ ∀ k rv, go.trace.get? k = some rv → rv.prov ≠ .observed) (hu : IsUnion gf.trace go.trace fo.trace)
    (ho : ¬ Overlap fo.trace go.trace) (hlw : gf.logWeight = fo.logWeight.add go.logWeight) :
    KernelOK none gf ↔ KernelOK none fo ∧ KernelOK none go := by
  have key : gf.logWeight = .float0 ↔ ∀ k rv, gf.trace.get? k = some rv → rv.prov ≠ .observed := by
    have : gf.logWeight = .float0 ↔ fo.logWeight = .float0 ∧ go.logWeight = .float0 := by
      rw [hlw]
      cases fo.logWeight <;> cases go.logWeight <;> simp [LW.add]
    rw [this, hf, hg]
    simp only [union_get_iff hu ho]
    exact ⟨fun h k rv hk => hk.elim (h.2 k rv) (h.1 k rv), fun h => ⟨fun k rv hk => h k rv (Or.inr hk), fun k rv hk => h k rv (Or.inl hk)⟩⟩
  rw [kernelOK_prog key, kernelOK_prog hf, kernelOK_prog hg]
  simp only [union_get_iff hu ho]
  exact ⟨fun h => ⟨fun k rv hk => h k rv (Or.inr hk), fun k rv hk => h k rv (Or.inl hk)⟩, fun h k rv hk => hk.elim (h.2 k rv) (h.1 k rv)⟩

end Verif
