import Verif.Proofs.Debug
/-
C16: debugging does not change results.
-/
namespace Verif
open Spec
variable {L : Lang}

/-- Names of the sub-results each kind of combinator adds when debugging. -/
def Spec.subNames : Node L → List String
  | .prog .. => []
  | .resample .. => ["q_out"]
  | .extend .. => ["p_out", "f_out"]
  | .compose .. => ["q1_out", "q2_out"]
  | .propose .. => ["q_out", "p_out"]

/-- C16. However the objects' and the call's debug flags are set, the call makes the same draws, leaves the same state,
raises the same exceptions and returns the same result up to the debugging entries. (The results are equal as trees of
draws, so this holds for every random outcome.) -/
theorem C16_debug_invisible (g : ObjId → Bool) (n : Node L) (hn : DebugBlind n) (c : PyVal L) (kw : Kw L) (b : Bool)
    (w : World L) :
    (eval (setDebug g n) c { kw with debug := b } w).map (fun r => (r.1.map noDebug, r.2)) =
      (eval n c kw w).map (fun r => (r.1.map noDebug, r.2)) := by
  refine (eval_debug g n hn c kw b w).map_eq ?_
  rintro ⟨r, w1⟩ ⟨r', w2⟩ ⟨h1, h2⟩
  simp only at h1 h2 ⊢
  subst h2
  cases r <;> cases r' <;> simp only [ExceptRel] at h1
  · subst h1; rfl
  · simp only [Except.map, SameOut] at h1 ⊢; rw [h1]

/-- C16. The sub-results are there exactly when the call's or the object's own flag is set. -/
theorem C16_sub_results (n : Node L) (c : PyVal L) (kw : Kw L) (w w' : World L) (o : Out L)
    (h : (eval n c kw).Runs w (.ok o) w') :
    o.subs.map (·.1) = if kw.debug = true ∨ n.debugAttr = some true then subNames n else [] := by
  cases n with
  | prog i s =>
    rw [eval_prog_Runs] at h
    obtain ⟨-, _, _, -, rfl⟩ := h
    simp [subNames]
  | resample a r q =>
    obtain ⟨qo, w1, t, lw, c2, h1, -, -, -, -, h2⟩ := eval_resample_ok h
    obtain ⟨l, -, rfl⟩ := finish_ok h2
    cases hk : kw.debug <;> cases ha : a.debug <;> simp [hk, ha, Node.debugAttr, subNames]
  | compose a q2 q1 =>
    rw [C07_compose] at h
    rcases h with ⟨e, h, -⟩ | ⟨o1, w1, h1, ⟨e, h, -⟩ | ⟨o2, h2, h3⟩⟩
    · cases h
    · cases h
    rcases h3 with ⟨-, h⟩ | ⟨h4, t, lw, h5, h6, -, h7⟩
    · cases h
    obtain ⟨l, -, rfl⟩ := finish_ok h7.symm
    cases hk : kw.debug <;> cases ha : a.debug <;> simp [hk, ha, Node.debugAttr, subNames]
  | extend a p f =>
    unfold eval at h
    simp only [Exec.Runs_bind_ok, Exec.Runs_lift, Exec.Runs_getCond, Exec.Runs_withSub, Exec.Runs_pure] at h
    obtain ⟨_, _, -, ⟨po, fo⟩, w2, -, cond, w3, -, h, -⟩ := h
    have := extendRest_spec a kw cond po fo
    rw [← h] at this
    rcases this with ⟨-, h⟩ | ⟨-, -, _, _, -, -, -, h⟩
    · cases h
    obtain ⟨l, -, rfl⟩ := finish_ok h.symm
    cases hk : kw.debug <;> cases ha : a.debug <;> simp [hk, ha, Node.debugAttr, subNames]
  | propose a tr nr p q =>
    obtain ⟨qo, po, w1, w2, h1, -, -, h4⟩ := eval_propose_ok h
    obtain ⟨qt, m, t, fwd, lv, x, -, -, -, -, -, -, e3⟩ := proposeRest_ok h4
    obtain ⟨l, -, rfl⟩ := finish_ok e3
    cases hk : kw.debug <;> cases ha : a.debug <;> simp [hk, ha, Node.debugAttr, subNames]

/-- C16: a nest with blind models and losses. Debugging adds entries to its result. -/
example : DebugBlind (.propose (Toy.counting 3 .none) (fun t _ => .ok t) true
      (.extend (Toy.counting 6 .none) (.prog 1 (Toy.latent "x" 2)) (.prog 7 (Toy.latent "z" 3)))
      (.compose (Toy.counting 4 .none) (.prog 2 (Toy.latent "z" 1)) (.prog 5 (Toy.latent "x" 1)))) ∧
    ∃ o w', (eval (setDebug (fun _ => true) (.propose (Toy.counting 3 .none) (fun t _ => .ok t) true
      (.extend (Toy.counting 6 .none) (.prog 1 (Toy.latent "x" 2)) (.prog 7 (Toy.latent "z" 3)))
      (.compose (Toy.counting 4 .none) (.prog 2 (Toy.latent "z" 1)) (.prog 5 (Toy.latent "x" 1))))) .none {}).Runs Toy.w0
        (.ok o) w' ∧ o.subs.length = 2 ∧ (o.px.bind (·.forwardTrace)).isSome = true := by
  constructor
  · have hl : ∀ i, ∀ o o' : Out Toy.L, ∀ l, noDebug o = noDebug o' →
        (Toy.counting i .none).lossFn o l = (Toy.counting i .none).lossFn o' l := by
      intro i o o' l h
      have := congrArg Out.logWeight h
      simp only [noDebug, Out.logWeight_mk] at this
      simp only [Toy.counting, mkAttrs, Option.getD_some, this]
    exact ⟨hl 3, fun _ _ _ => rfl, ⟨hl 6, fun _ _ _ => rfl, fun _ _ _ => rfl⟩, hl 4, fun _ _ _ => rfl, fun _ _ _ => rfl⟩
  · have h : ∃ r w', (eval (setDebug (fun _ => true) (.propose (Toy.counting 3 .none) (fun t _ => .ok t) true
      (.extend (Toy.counting 6 .none) (.prog 1 (Toy.latent "x" 2)) (.prog 7 (Toy.latent "z" 3)))
      (.compose (Toy.counting 4 .none) (.prog 2 (Toy.latent "z" 1)) (.prog 5 (Toy.latent "x" 1))))) .none {}).Runs Toy.w0
        r w' ∧ (match r with
          | .ok o => o.subs.length = 2 ∧ (o.px.bind (·.forwardTrace)).isSome = true
          | .error _ => False) := ⟨_, _, ⟨(5, 0), (7, 0), rfl⟩, rfl, rfl⟩
    obtain ⟨r | o, w', h1, h2⟩ := h
    · exact h2.elim
    · exact ⟨o, w', h1, h2⟩

end Verif
