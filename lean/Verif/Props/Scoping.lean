import Verif.Proofs.Scope
import Verif.Props.Toy
/-
C04-C06: conditioning traces.
-/
namespace Verif
open Spec

namespace Toy
/-- Attributes of a default combinator object. -/
def attrs (i : ObjId) : Attrs L := mkAttrs i none none .none false

/-- A program that raises after sampling. -/
def raising : ProgSpec L where
  name := "Raising"
  sig := sig
  debugAttr := none
  model _ _ := .variable "x" 2 none none true fun _ => .raise (.other 7)

/-- Samples "p" and returns 0. -/
def first : ProgSpec L where
  name := "First"
  sig := sig
  debugAttr := none
  model _ _ := .variable "p" 2 none none true fun _ => .ret (.int 0)

/-- Samples "a" when its input is 0 (and returns 1), "b" otherwise. -/
def kernel : ProgSpec L where
  name := "Kernel"
  sig := sig
  debugAttr := none
  model c _ := match c with
    | .int 0 => .variable "a" 3 none none true fun _ => .ret (.int 1)
    | _ => .variable "b" 5 none none true fun _ => .ret (.int 2)

/-- `Extend(Extend(first, kernel), kernel)`: the object `kernel` (id 2) occurs twice. -/
def shared : Node L :=
  .extend (attrs 4) (.extend (attrs 3) (.prog 1 first) (.prog 2 kernel)) (.prog 2 kernel)

/-- A trace holding all three addresses. -/
def full : Trace L :=
  ((Dict.empty.insert "p" (RV.mk' (L := L) 2 (10, 0) .sampled true)).insert "a" (RV.mk' 3 (20, 0) .sampled true)).insert
    "b" (RV.mk' 5 (30, 0) .sampled true)
end Toy

variable {L : Lang}

/-- C04. If no object of the graph holds a conditioning trace before the call, none does after it, however the call
ends (`r` is a result or an exception). Objects outside the graph keep theirs. No assumption on sharing. -/
theorem C04_hygiene (n : Node L) (c : PyVal L) (kw : Kw L) (w w' : World L) (r : Except Err (Out L))
    (h : (eval n c kw).Runs w r w') (h0 : ∀ i ∈ objects n, w.cond i = none) :
    (∀ i ∈ objects n, w'.cond i = none) ∧ ∀ i, i ∉ objects n → w'.cond i = w.cond i := by
  have hs := eval_slots n c kw w w' r h
  refine ⟨fun i hi => ?_, fun i hi => hs.2 i fun h' => hi (List.mem_cons_of_mem _ h')⟩
  rcases hs.1 i with e | e
  · exact e
  · rw [e]; exact h0 i hi

/-- A call that conditions its target and then raises inside it, with the slots empty before it. -/
example : ∃ w', (eval (.propose (Toy.attrs 3) (fun t _ => .ok t) true (.prog 1 Toy.raising)
      (.compose (Toy.attrs 4) (.prog 2 (Toy.latent "z" 1)) (.prog 5 (Toy.latent "u" 1)))) .none {}).Runs Toy.w0
        (.error (.other 7)) w' ∧
    ∀ i, Toy.w0.cond i = none := by
  refine exists_and_right.mpr ⟨?_, fun _ => rfl⟩
  refine ⟨_, (3, 0), (4, 0), (5, 0), rfl⟩

/-- C05. In a well-scoped graph (no object is conditioned while it is also reachable below an object conditioned with
it), calling an object in a world where only the root may hold a conditioning trace is calling it under lexical
scoping, with that trace as an argument: same draws, same results, same exceptions, same final world. -/
theorem C05_lexical (n : Node L) (c : PyVal L) (kw : Kw L) (w : World L)
    (hn : WellScoped (w.cond n.id).isSome n) (hw : ∀ i ∈ below n, w.cond i = none) :
    eval n c kw w = evalP n (w.cond n.id) c kw w := by
  apply eval_eq_evalP n _ hn c kw w _ hw
  cases w.cond n.id <;> simp

/-- C05. The lexical evaluator neither reads nor writes any conditioning slot. -/
theorem C05_evalP_pure (n : Node L) (cond : Option (Trace L)) (c : PyVal L) (kw : Kw L) (w : World L)
    (g : ObjId → Option (Trace L)) :
    evalP n cond c kw (withCond w g) = (evalP n cond c kw w).bind fun r => .ret (r.1, withCond r.2 g) :=
  (NoSlots.evalP n cond c kw).eq w g

/-- A well-scoped graph: proposing for an extended target by a composed proposal. -/
example : WellScoped true (Node.propose (Toy.attrs 3) (fun t _ => .ok t) true
    (.extend (Toy.attrs 6) (.prog 1 (Toy.latent "x" 1)) (.prog 7 (Toy.latent "z" 1)))
    (.compose (Toy.attrs 4) (.prog 2 (Toy.latent "z" 1)) (.prog 5 (Toy.latent "x" 1)))) := by
  simp [WellScoped, below, Node.id, Toy.attrs, mkAttrs]

/-- C05, the restriction is needed: in `Extend(Extend(first, kernel), kernel)` called on a trace that holds all its
addresses, lexical scoping reuses all of them and draws nothing, but the call draws a value: leaving the inner
substitution context resets `kernel`'s slot to None. -/
theorem C05_not_lexical_in_general :
    (∃ r, evalP Toy.shared (some Toy.full) .none {} (Toy.w0.setCond 4 (some Toy.full)) = .ret r) ∧
    (∃ d b k, eval Toy.shared .none {} (Toy.w0.setCond 4 (some Toy.full)) = .draw d b k) ∧
    ∀ i ∈ below Toy.shared, (Toy.w0.setCond 4 (some Toy.full)).cond i = none := by
  refine ⟨⟨_, rfl⟩, ⟨_, _, _, rfl⟩, ?_⟩
  simp [Toy.shared, below, Node.id, Toy.attrs, mkAttrs, Toy.w0]

/-- C06. A conditioning trace on a Compose, Propose or Resample object changes nothing: same draws, same result; the
trace just stays where it is. (An object is not below itself.) -/
theorem C06_not_conditionable (n : Node L) (c : PyVal L) (kw : Kw L) (w : World L) (t : Option (Trace L))
    (hn : match n with | .prog .. => False | .extend .. => False | _ => True) (hid : n.id ∉ below n) :
    eval n c kw (w.setCond n.id t) = (eval n c kw w).bind fun r => .ret (r.1, r.2.setCond n.id t) := by
  cases n with
  | prog => exact hn.elim
  | extend => exact hn.elim
  | resample a r q =>
    refine Frame.eq (i := a.id) ?_ w t
    unfold eval
    exact Frame.bind (Frame.eval q _ _ _ (by simpa [below, objects, Node.id] using hid))
      (fun _ => (NoSlots.resampleRest ..).frame _)
  | compose a q2 q1 =>
    refine Frame.eq (i := a.id) ?_ w t
    simp only [below, Node.id, List.mem_cons, List.mem_append, not_or] at hid
    unfold eval
    exact Frame.bind (Frame.eval q1 _ _ _ (by simp [objects]; tauto)) (fun _ =>
      Frame.bind (Frame.eval q2 _ _ _ (by simp [objects]; tauto)) (fun _ => (NoSlots.lift _).frame _))
  | propose a tr nr p q =>
    refine Frame.eq (i := a.id) ?_ w t
    simp only [below, Node.id, List.mem_cons, List.mem_append, not_or] at hid
    unfold eval
    exact Frame.bind (Frame.eval q _ _ _ (by simp [objects]; tauto)) (fun _ =>
      Frame.bind (Frame.withSub (Ne.symm hid.1) _ (Frame.eval p _ _ _ (by simp [objects]; tauto)))
        (fun _ => (NoSlots.lift _).frame _))

/-- By contrast a Program and an Extend do react. -/
example : (∃ d b k, eval (.prog 1 (Toy.latent "x" 1)) .none {} Toy.w0 = .draw d b k) ∧
    ∃ r, eval (.prog 1 (Toy.latent "x" 1)) .none {}
      (Toy.w0.setCond 1 (some (Dict.empty.insert "x" (RV.mk' (L := Toy.L) 7 (4, 1) .sampled true)))) = .ret r :=
  ⟨⟨_, _, _, rfl⟩, ⟨_, rfl⟩⟩

example : (Node.compose (Toy.attrs 4) (.prog 2 (Toy.latent "z" 1)) (.prog 5 (Toy.latent "x" 1))).id ∉
    below (Node.compose (Toy.attrs 4) (.prog 2 (Toy.latent "z" 1)) (.prog 5 (Toy.latent "x" 1))) := by
  simp [below, Node.id, Toy.attrs, mkAttrs]

end Verif
