import Verif.Model.ApgWeak
import Verif.Proofs.Annealing
/-
Dying references can only make a nest raise earlier.
-/
namespace Verif
open Spec
variable {L : Lang} {α β : Type} {same : L.V → L.V → Bool} {er : Err}

/-- The same draws and ends, but the left side may stop with `er`. -/
inductive Upto (er : Err) : Comp L (Except Err α × World L) → Comp L (Except Err α × World L) → Prop
  | ret (a : Except Err α × World L) : Upto er (.ret a) (.ret a)
  | dead (w : World L) (m : Comp L (Except Err α × World L)) : Upto er (.ret (.error er, w)) m
  | draw (d : L.D) (r : Bool) {k k' : L.V → Comp L (Except Err α × World L)} : (∀ v, Upto er (k v) (k' v)) → Upto er (.draw d r k) (.draw d r k')
  | rand {k k' : L.U → Comp L (Except Err α × World L)} : (∀ u, Upto er (k u) (k' u)) → Upto er (.rand k) (.rand k')

theorem Upto.refl (m : Comp L (Except Err α × World L)) : Upto er m m := by
  induction m with
  | ret a => exact .ret a
  | draw d r k ih => exact .draw d r ih
  | rand k ih => exact .rand ih

theorem Upto.eq {m m' : Comp L (Except Err α × World L)} (h : Upto er m m') (hn : ∀ w, ¬ m.Ret (.error er, w)) : m = m' := by
  induction h with
  | ret a => rfl
  | dead w m => exact absurd rfl (hn w)
  | draw d r _ ih => exact congrArg _ (funext fun v => ih v fun w hw => hn w ⟨v, hw⟩)
  | rand _ ih => exact congrArg _ (funext fun v => ih v fun w hw => hn w ⟨v, hw⟩)

/-- Every run of the left side stops with `er` or is a run of the right side. -/
theorem Upto.run {m m' : Comp L (Except Err α × World L)} (h : Upto er m m') {x : Except Err α} {w : World L} (hx : m.Ret (x, w)) :
    x = .error er ∨ m'.Ret (x, w) := by
  induction h with
  | ret a => exact Or.inr hx
  | dead w m => exact Or.inl (by cases hx; rfl)
  | draw d r _ ih =>
    obtain ⟨v, hv⟩ := hx
    exact (ih v hv).imp id fun h => ⟨v, h⟩
  | rand _ ih =>
    obtain ⟨v, hv⟩ := hx
    exact (ih v hv).imp id fun h => ⟨v, h⟩

theorem Upto.cbind {m m' : Comp L (Except Err α × World L)} (h : Upto er m m')
    {f f' : Except Err α × World L → Comp L (Except Err β × World L)} (hf : ∀ a, Upto er (f a) (f' a))
    (hd : ∀ w, ∃ w', f (.error er, w) = .ret (.error er, w')) : Upto er (m.bind f) (m'.bind f') := by
  induction h with
  | ret a => exact hf a
  | dead w m =>
    obtain ⟨w', e⟩ := hd w
    rw [Comp.bind_ret, e]
    exact .dead _ _
  | draw d r _ ih => exact .draw d r ih
  | rand _ ih => exact .rand ih

theorem Upto.bind {m m' : Exec L α} {f f' : α → Exec L β} (hm : ∀ w, Upto er (m w) (m' w)) (hf : ∀ a w, Upto er (f a w) (f' a w)) (w : World L) :
    Upto er (Exec.bind m f w) (Exec.bind m' f' w) :=
  (hm w).cbind (fun a => by
    obtain ⟨a | a, w'⟩ := a
    · exact .ret _
    · exact hf a w') fun w => ⟨w, rfl⟩

theorem Upto.withSub {i : ObjId} {t : Option (Trace L)} {m m' : Exec L α} (hm : ∀ w, Upto er (m w) (m' w)) (w : World L) :
    Upto er (Exec.withSub i t m w) (Exec.withSub i t m' w) := by
  unfold Exec.withSub
  cases t with
  | none => exact (hm _).cbind (fun a => .refl _) fun w => ⟨_, rfl⟩
  | some t =>
    cases h : copytrace1 t with
    | error e => simp only [h]; exact .ret _
    | ok t' => simp only [h]; exact (hm _).cbind (fun a => .refl _) fun w => ⟨_, rfl⟩

theorem upto_weakTree (cond : Option (Trace L)) (m : MTree L) (t : Trace L) (w : World L) :
    Upto er (runModel cond (weakTree same er m) t w) (runModel cond m t w) := by
  induction m generalizing t w with
  | ret o => exact .ret _
  | raise x => exact .ret _
  | «variable» name d value prov reparam k ih =>
    simp only [weakTree, runModel]
    split
    · exact .refl _
    · cases variableValue cond name value prov with
      | some vp => exact ih _ _ _
      | none => exact .draw _ _ fun v => ih v _ _
  | inject name rv k ih => exact ih _ _
  | getCond k ih => exact ih _ _ _
  | getTrace k ih => exact ih _ _ _
  | storeSet key v k ih =>
    simp only [weakTree, runModel]
    exact Upto.bind (fun w => .refl _) (fun _ w => ih _ w) w
  | sampleFree d reparam k ih => exact .draw _ _ fun v => ih v _ _
  | storeGet key k ih =>
    simp only [weakTree, runModel]
    refine Upto.bind (fun w => .refl _) (fun r w => ?_) w
    split
    · exact ih r _ _
    · exact .dead _ _

theorem weakNode_id (q : Node L) : (weakNode same er q).id = q.id := by cases q <;> rfl

theorem weakNode_marginalize (p : Node L) (po : Out L) : marginalize (weakNode same er p) po = marginalize p po := by
  unfold marginalize
  cases p <;> rfl

theorem weakNode_forwardTrace (q : Node L) (qo : Out L) : forwardTrace (weakNode same er q) qo = forwardTrace q qo := by
  unfold forwardTrace
  cases q <;> rfl

theorem weakNode_proposeRest (a : Attrs L) (tr : Trace L → Kw L → Except Err (Trace L)) (nr : Bool) (p q : Node L) (kw : Kw L)
    (qo po : Out L) : proposeRest a tr nr (weakNode same er p) (weakNode same er q) kw qo po = proposeRest a tr nr p q kw qo po := by
  unfold proposeRest
  simp only [weakNode_marginalize, weakNode_forwardTrace]

/-- A nest with references that die draws and returns the same, unless it raises `er`. -/
theorem upto_weakNode (q : Node L) (c : PyVal L) (kw : Kw L) (w : World L) :
    Upto er (eval (weakNode same er q) c kw w) (eval q c kw w) := by
  induction q generalizing c kw w with
  | prog i s =>
    simp only [weakNode]
    rw [eval_prog_apply, eval_prog_apply]
    simp only [weakProg]
    split
    · exact .ret _
    · exact (upto_weakTree _ _ _ _).cbind (fun a => .refl _) fun w => ⟨_, rfl⟩
  | resample a r q ih =>
    exact Upto.bind (m := eval (weakNode same er q) c (childKw a kw)) (m' := eval q c (childKw a kw)) (f := resampleRest a r kw)
      (f' := resampleRest a r kw) (fun w => ih _ _ w) (fun _ _ => .refl _) w
  | extend a p f ihp ihf =>
    simp only [weakNode]
    rw [eval_extend_eq, eval_extend_eq, weakNode_id, weakNode_id]
    refine Upto.bind (fun w => .refl _) (fun cond w => ?_) w
    refine Upto.bind (fun w => ?_) (fun _ w => .refl _) w
    refine Upto.withSub (fun w => ?_) w
    refine Upto.bind (fun w => .refl _) (fun cond w => ?_) w
    refine Upto.withSub (fun w => ?_) w
    refine Upto.bind (fun w => ihp _ _ w) (fun po w => ?_) w
    exact Upto.bind (fun w => ihf _ _ w) (fun _ w => .refl _) w
  | compose a q2 q1 ih2 ih1 =>
    simp only [weakNode]
    rw [eval_compose_eq, eval_compose_eq]
    refine Upto.bind (fun w => ih1 _ _ w) (fun o w => ?_) w
    exact Upto.bind (fun w => ih2 _ _ w) (fun _ w => .refl _) w
  | propose a tr nr p q ihp ihq =>
    simp only [weakNode]
    rw [eval_propose_eq, eval_propose_eq, weakNode_id]
    refine Upto.bind (fun w => ihq _ _ w) (fun o w => ?_) w
    refine Upto.bind (fun w => Upto.withSub (fun w => ihp _ _ w) w) (fun po w => ?_) w
    rw [weakNode_proposeRest]
    exact .refl _

end Verif
