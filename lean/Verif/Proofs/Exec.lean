import Verif.Model.Inference
import Verif.Proofs.Trace
/-
How statements run: inversion lemmas for `Exec.Runs`, and equations.
-/
namespace Verif
namespace Exec
variable {L : Lang} {α β γ : Type}

theorem bind_eq (m : Exec L α) (f : α → Exec L β) : (m >>= f) = Exec.bind m f := rfl
theorem pure_eq (a : α) : (Pure.pure a : Exec L α) = Exec.pure a := rfl

instance : LawfulMonad (Exec L) := LawfulMonad.mk'
  (id_map := by
    intro α x
    show Exec.bind x _ = x
    funext w
    simp only [Exec.bind]
    conv => rhs; rw [← Comp.bind_ret_right (x w)]
    congr 1
    funext r
    rcases r with ⟨r | r, w'⟩ <;> rfl)
  (pure_bind := by intros; rfl)
  (bind_assoc := by
    intro α β γ x f g
    show Exec.bind (Exec.bind x f) g = Exec.bind x (fun a => Exec.bind (f a) g)
    funext w
    simp only [Exec.bind, Comp.bind_assoc]
    congr 1
    funext r
    rcases r with ⟨r | r, w'⟩ <;> rfl)

theorem Runs_bind {m : Exec L α} {f : α → Exec L β} {w w' : World L} {r : Except Err β} :
    (m >>= f).Runs w r w' ↔
      (∃ e, r = .error e ∧ m.Runs w (.error e) w') ∨ ∃ a w1, m.Runs w (.ok a) w1 ∧ (f a).Runs w1 r w' := by
  rw [bind_eq]
  simp only [Runs, Exec.bind, Comp.bind_Ret]
  constructor
  · rintro ⟨⟨x, w1⟩, h1, h2⟩
    cases x with
    | error e => cases h2; exact Or.inl ⟨e, rfl, h1⟩
    | ok a => exact Or.inr ⟨a, w1, h1, h2⟩
  · rintro (⟨e, rfl, h⟩ | ⟨a, w1, h1, h2⟩)
    · exact ⟨_, h, rfl⟩
    · exact ⟨_, h1, h2⟩

theorem Runs_bind_ok {m : Exec L α} {f : α → Exec L β} {w w' : World L} {b : β} :
    (m >>= f).Runs w (.ok b) w' ↔ ∃ a w1, m.Runs w (.ok a) w1 ∧ (f a).Runs w1 (.ok b) w' := by
  rw [Runs_bind]; simp

@[simp] theorem Runs_pure {a : α} {w w' : World L} {r : Except Err α} :
    (Pure.pure a : Exec L α).Runs w r w' ↔ r = .ok a ∧ w' = w := by
  simp [Runs, Pure.pure, Exec.pure, Prod.ext_iff, eq_comm]

@[simp] theorem Runs_pure' {a : α} {w w' : World L} {r : Except Err α} :
    (Exec.pure a : Exec L α).Runs w r w' ↔ r = .ok a ∧ w' = w := Runs_pure

@[simp] theorem Runs_throw {e : Err} {w w' : World L} {r : Except Err α} :
    (Exec.throw e : Exec L α).Runs w r w' ↔ r = .error e ∧ w' = w := by
  simp [Runs, Exec.throw, Prod.ext_iff, eq_comm]

@[simp] theorem Runs_lift {x : Except Err α} {w w' : World L} {r : Except Err α} :
    (Exec.lift x : Exec L α).Runs w r w' ↔ r = x ∧ w' = w := by
  simp [Runs, Exec.lift, Prod.ext_iff, eq_comm]

@[simp] theorem Runs_getCond {i : ObjId} {w w' : World L} {r} :
    (Exec.getCond i : Exec L _).Runs w r w' ↔ r = .ok (w.cond i) ∧ w' = w := by
  simp [Runs, Exec.getCond, Prod.ext_iff, eq_comm]

@[simp] theorem Runs_liftComp {m : Comp L (Except Err α)} {w w' : World L} {r : Except Err α} :
    (Exec.liftComp m).Runs w r w' ↔ m.Ret r ∧ w' = w := by
  simp only [Runs, Exec.liftComp, Comp.bind_Ret, Comp.ret_Ret, Prod.mk.injEq]
  exact ⟨fun ⟨a, h, h1, h2⟩ => ⟨h1 ▸ h, h2.symm⟩, fun ⟨h1, h2⟩ => ⟨r, h1, rfl, h2.symm⟩⟩

@[simp] theorem Runs_onStore {f : Store L → Except Err α × Store L} {w w' : World L} {r : Except Err α} :
    (Exec.onStore f).Runs w r w' ↔ r = (f w.store).1 ∧ w' = { w with store := (f w.store).2 } := by
  simp [Runs, Exec.onStore, Prod.ext_iff, eq_comm]

/-- `WithSubstitution` in one line: the copy equals the original and cannot fail. -/
theorem withSub_eq (i : ObjId) (t : Option (Trace L)) (body : Exec L α) (w : World L) :
    Exec.withSub i t body w = (body (w.setCond i t)).bind fun r => .ret (r.1, r.2.setCond i none) := by
  cases t with
  | none => rfl
  | some t => simp [Exec.withSub, copytrace1_ok]

theorem Runs_withSub {i : ObjId} {t : Option (Trace L)} {body : Exec L α} {w w' : World L} {r : Except Err α} :
    (Exec.withSub i t body).Runs w r w' ↔ ∃ w1, body.Runs (w.setCond i t) r w1 ∧ w' = w1.setCond i none := by
  simp only [Runs, withSub_eq, Comp.bind_Ret, Comp.ret_Ret, Prod.mk.injEq]
  constructor
  · rintro ⟨⟨x, w1⟩, h, rfl, h2⟩; exact ⟨w1, h, h2.symm⟩
  · rintro ⟨w1, h, rfl⟩; exact ⟨(r, w1), h, rfl, rfl⟩

end Exec

namespace World
variable {L : Lang}
@[simp] theorem setCond_cond (w : World L) (i j : ObjId) (t : Option (Trace L)) :
    (w.setCond i t).cond j = if j = i then t else w.cond j := rfl
@[simp] theorem setCond_store (w : World L) (i : ObjId) (t : Option (Trace L)) :
    (w.setCond i t).store = w.store := rfl
theorem ext' {w w' : World L} (h1 : ∀ i, w.cond i = w'.cond i) (h2 : w.store = w'.store) : w = w' := by
  cases w; cases w'; simp only [World.mk.injEq]; exact ⟨funext h1, h2⟩
end World

section
variable {L : Lang}

/-- Program and combinator objects accept every keyword: `dispatch` changes nothing. -/
theorem kwargsFor_varkw (s : ArgSpec) (h : s.varkw = true) (l : List (String × PyVal L)) : kwargsFor s l [] = l := by
  simp [kwargsFor, checkPassable, h]

theorem keys_dispatch_varkw (s : ArgSpec) (h : s.varkw = true) (rest : List (String × PyVal L))
    (l : List (String × PyVal L)) (k : String) (hk : k ∈ keysL l) :
    (keysL (rest ++ kwargsFor s l [])).contains k = true := by
  simp [kwargsFor_varkw s h, hk]

theorem dispatchKw_of_all (f : Callable) (kw : Kw L)
    (h : ∀ k ∈ keysL kw.toList, (keysL (dispatchKwargs f kw.toList)).contains k = true) : dispatchKw f kw = kw := by
  have hk : ∀ k ∈ ["_debug", "ix", "sample_dims", "batch_dim", "reparameterized"],
      (keysL (dispatchKwargs f kw.toList)).contains k = true := by
    intro k hk
    apply h
    simp only [Kw.toList, keysL_append, List.mem_append]
    exact Or.inl (by simpa [keysL] using hk)
  have hs : kw.shared.filter (fun e => (keysL (dispatchKwargs f kw.toList)).contains e.1) = kw.shared := by
    rw [List.filter_eq_self]
    intro e he
    apply h
    simp only [Kw.toList, keysL_append, List.mem_append]
    exact Or.inr (by simpa [keysL] using ⟨e.2, he⟩)
  unfold dispatchKw Kw.restrict
  rw [hs, if_pos (hk _ (by simp)), if_pos (hk _ (by simp)), if_pos (hk _ (by simp)), if_pos (hk _ (by simp)),
    if_pos (hk _ (by simp))]

@[simp] theorem dispatchKw_node (n : Node L) (kw : Kw L) : dispatchKw n.callable kw = kw := by
  apply dispatchKw_of_all
  intro k hk
  cases n with
  | prog i s =>
    simp only [Node.callable, dispatchKwargs, ← List.append_assoc]
    exact keys_dispatch_varkw moduleCallSpec rfl _ _ _ hk
  | resample | extend | compose | propose =>
    simp only [Node.callable, dispatchKwargs]
    exact keys_dispatch_varkw infCallSpec rfl [] _ _ hk

end
end Verif
