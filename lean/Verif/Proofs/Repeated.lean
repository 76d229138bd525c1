import Verif.Spec.Repeated
import Mathlib.Tactic.Choose
/-
Executions that neither depend on the world nor change it.
-/
namespace Verif
open Verif.Spec
variable {L : Lang} {α β : Type}

/-- The execution is a computation that does not look at the world and leaves it as it is. -/
def Stateless (e : Exec L α) : Prop := ∃ m : Comp L (Except Err α), ∀ w, InertStore w → e w = m.bind fun r => .ret (r, w)

namespace Stateless

theorem lift (x : Except Err α) : Stateless (L := L) (Exec.lift x) := ⟨.ret x, fun _ _ => rfl⟩

theorem pure (a : α) : Stateless (L := L) (Exec.pure a) := ⟨.ret (.ok a), fun _ _ => rfl⟩

theorem throw (e : Err) : Stateless (L := L) (α := α) (Exec.throw e) := ⟨.ret (.error e), fun _ _ => rfl⟩

theorem liftComp (m : Comp L (Except Err α)) : Stateless (Exec.liftComp m) := ⟨m, fun _ _ => rfl⟩

theorem draw (d : L.D) (r : Bool) {k : L.V → Exec L α} (h : ∀ v, Stateless (k v)) : Stateless fun w => .draw d r fun v => k v w := by
  choose m hm using h
  exact ⟨.draw d r m, fun w hw => by simp only [Comp.bind_draw]; congr 1; funext v; exact hm v w hw⟩

theorem bind {e : Exec L α} {f : α → Exec L β} (h : Stateless e) (hf : ∀ a, Stateless (f a)) : Stateless (Exec.bind e f) := by
  obtain ⟨m, hm⟩ := h
  choose k hk using hf
  refine ⟨m.bind fun r => match r with | .ok a => k a | .error e => .ret (.error e), fun w hw => ?_⟩
  rw [Exec.bind, hm w hw, Comp.bind_assoc, Comp.bind_assoc]
  congr 1
  funext r
  rcases r with e | a
  · rfl
  · exact hk a w hw

theorem resampleUpdate (t t' : Trace L) : Stateless (Exec.onStore fun s : Store L => s.resampleUpdate t t') := by
  refine ⟨.ret (.ok ()), fun w hw => ?_⟩
  simp only [Exec.onStore, Comp.bind_ret]
  rw [hw t t']

end Stateless

theorem stateless_runModel (cond : Option (Trace L)) (b : MTree L) (h : Storeless b) (t : Trace L) : Stateless (runModel cond b t) := by
  induction b generalizing t with
  | ret o => exact .pure _
  | raise e => exact .throw e
  | «variable» name d value prov reparam k ih =>
    rw [runModel]
    split
    · exact .throw _
    · split
      · exact ih _ (h _) _
      · exact .draw d reparam fun v => ih v (h v) _
  | inject name rv k ih => exact ih h _
  | getCond k ih => exact ih _ (h _) _
  | getTrace k ih => exact ih _ (h _) _
  | storeGet key k ih => exact h.elim
  | storeSet key v k ih => exact h.elim
  | sampleFree d reparam k ih => exact .draw d reparam fun v => ih v (h v) _

theorem stateless_programForward (s : ProgSpec L) (h : ∀ c kwargs, Storeless (s.model c kwargs)) (cond : Option (Trace L)) (c sd bd re : PyVal L)
    (kwargs : List (String × PyVal L)) : Stateless (programForward s cond c sd bd re kwargs) :=
  .bind (.lift _) fun _ => .bind (stateless_runModel cond _ (h _ _) _) fun _ => .pure _

theorem stateless_evalP (n : Node L) (h : StorelessNode n) : ∀ (cond : Option (Trace L)) (c : PyVal L) (kw : Kw L), Stateless (evalP n cond c kw) := by
  induction n with
  | prog i s => exact fun cond c kw => .bind (stateless_programForward s h cond c _ _ _ _) fun _ => .pure _
  | resample a r q ih =>
    refine fun cond c kw => .bind (ih h _ _ _) fun o => .bind (.liftComp _) fun x => .bind (.lift _) fun c2 => .bind (.resampleUpdate _ _) fun _ =>
      .bind (.lift _) fun _ => .pure _
  | extend a p f ihp ihf => exact fun cond c kw => .bind (ihp h.1 _ _ _) fun _ => .bind (ihf h.2 _ _ _) fun _ => .lift _
  | compose a q2 q1 ih2 ih1 => exact fun cond c kw => .bind (ih1 h.1 _ _ _) fun _ => .bind (ih2 h.2 _ _ _) fun _ => .lift _
  | propose a tr nr p q ihp ihq => exact fun cond c kw => .bind (ihq h.1 _ _ _) fun _ => .bind (ihp h.2 _ _ _) fun _ => .lift _

end Verif
