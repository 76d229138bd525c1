import Verif.Model.Core
/-
Random computations, and Python statements over a mutable world with exceptions.
-/
namespace Verif

/-- A terminating randomized computation: the tree of its draws.
`draw d reparam k` is `d.rsample()` / `d.sample()` (combinators/trace/utils.py:64,70), `rand k` is `torch.rand`
(combinators/resamplers.py:125). -/
inductive Comp (L : Lang) (α : Type) where
  | ret (a : α)
  | draw (d : L.D) (reparam : Bool) (k : L.V → Comp L α)
  | rand (k : L.U → Comp L α)

namespace Comp
variable {L : Lang} {α β γ : Type}

def bind : Comp L α → (α → Comp L β) → Comp L β
  | ret a, f => f a
  | draw d r k, f => draw d r (fun v => (k v).bind f)
  | rand k, f => rand (fun u => (k u).bind f)

def map (f : α → β) (m : Comp L α) : Comp L β := m.bind (fun a => ret (f a))

/-- `Ret m a`: some sequence of draws makes `m` return `a`. -/
def Ret : Comp L α → α → Prop
  | ret a, r => a = r
  | draw _ _ k, r => ∃ v, (k v).Ret r
  | rand k, r => ∃ u, (k u).Ret r

@[simp] theorem bind_ret (a : α) (f : α → Comp L β) : (ret a).bind f = f a := rfl
@[simp] theorem bind_draw (d : L.D) (r : Bool) (k : L.V → Comp L α) (f : α → Comp L β) :
    (draw d r k).bind f = draw d r (fun v => (k v).bind f) := rfl
@[simp] theorem bind_rand (k : L.U → Comp L α) (f : α → Comp L β) :
    (rand k).bind f = rand (fun u => (k u).bind f) := rfl

@[simp] theorem bind_ret_right (m : Comp L α) : m.bind ret = m := by
  induction m with
  | ret a => rfl
  | draw d r k ih => simp [ih]
  | rand k ih => simp [ih]

theorem bind_assoc (m : Comp L α) (f : α → Comp L β) (g : β → Comp L γ) :
    (m.bind f).bind g = m.bind (fun a => (f a).bind g) := by
  induction m with
  | ret a => rfl
  | draw d r k ih => simp [ih]
  | rand k ih => simp [ih]

@[simp] theorem ret_Ret (a r : α) : (ret a : Comp L α).Ret r ↔ a = r := Iff.rfl
@[simp] theorem draw_Ret (d : L.D) (b : Bool) (k : L.V → Comp L α) (r : α) :
    (draw d b k).Ret r ↔ ∃ v, (k v).Ret r := Iff.rfl
@[simp] theorem rand_Ret (k : L.U → Comp L α) (r : α) : (rand k).Ret r ↔ ∃ u, (k u).Ret r := Iff.rfl

theorem bind_Ret (m : Comp L α) (f : α → Comp L β) (r : β) :
    (m.bind f).Ret r ↔ ∃ a, m.Ret a ∧ (f a).Ret r := by
  induction m with
  | ret a => simp
  | draw d b k ih =>
    simp only [bind_draw, draw_Ret, ih]
    exact ⟨fun ⟨v, a, h⟩ => ⟨a, ⟨v, h.1⟩, h.2⟩, fun ⟨a, ⟨v, h1⟩, h2⟩ => ⟨v, a, h1, h2⟩⟩
  | rand k ih =>
    simp only [bind_rand, rand_Ret, ih]
    exact ⟨fun ⟨v, a, h⟩ => ⟨a, ⟨v, h.1⟩, h.2⟩, fun ⟨a, ⟨v, h1⟩, h2⟩ => ⟨v, a, h1, h2⟩⟩

theorem map_Ret (m : Comp L α) (f : α → β) (r : β) : (m.map f).Ret r ↔ ∃ a, m.Ret a ∧ f a = r := by
  simp [map, bind_Ret]

end Comp

end Verif
