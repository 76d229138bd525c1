import Verif.Proofs.ApgWeak
import Verif.Proofs.WeakNode
import Verif.Props.Apg
/-
C103: the weak references of the amortized Gibbs sampler never dangle.
-/
namespace Verif
open Spec Apg
variable {L : Lang}

/-- C103, any nest of combinators: when a weak reference in the global store lives only as long as a variable of the reading program's
trace or conditioning trace holds its tensor, a run raises the error of a dead reference or is a run with references that never die. -/
theorem C103_nest (same : L.V → L.V → Bool) (er : Err) (q : Node L) (c : PyVal L) (kw : Kw L) (w w' : World L) (x : Except Err (Out L))
    (h : (eval (weakNode same er q) c kw).Runs w x w') : x = .error er ∨ (eval q c kw).Runs w x w' :=
  (upto_weakNode q c kw w).run h

section sampler
variable (N : ApgNet L) (same : L.V → L.V → Bool) (hsame : ∀ v, same v v = true)
  (hd : ∀ v, N.timesteps (L.detachV v) = N.timesteps v) (fresh i0 i1 i2 i3 : ObjId) (h1 : i1 ≤ fresh) (h2 : i2 ≤ fresh)
  (h3 : i3 ≤ fresh) (fl : LW L.W → LW L.W → LW L.W → L.Lo) (gl : LW L.W → LW L.W → L.W → L.Lo) (r : ResamplerFn L)
  (hr : ∀ sd bd t lw t2 lw2, (r sd bd t lw).Ret (.ok (t2, lw2)) → ∀ k, t2.contains k = t.contains k)
  (T S : Nat) (hT : 1 ≤ T) (kvs : List (String × PyVal L)) (frames : L.V) (hf : getL kvs "frames" = some (.tensor frames))
  (hft : N.timesteps frames = T) (er : Err)

include hsame hd h1 h2 h3 hr hT hf hft in
/-- C103. For every number of time steps T >= 1 and of sweeps S, every resampler that keeps the addresses, and whatever error a dead
reference leads to: `gibbs_sweeps` with references that die as soon as neither the trace of the reading program nor its conditioning
trace holds their tensor raises nothing but what the resampler raises, and ends in the state of C41. -/
theorem C103_alive :
    ∃ q, gibbsSweeps fresh (weakObjs same er N i0 i1 i2 i3 fl gl r) S T = .ok q ∧
      ∀ kw, KwOk kw → ∀ w, (∀ j, w.cond j = none) → w.store.hooks = apgHooks same → ∀ x w', (eval q (.dict kvs) kw).Runs w x w' →
        (∃ e sd bd t lw, x = .error e ∧ (r sd bd t lw).Ret (.error e)) ∨ ∃ out, x = .ok out ∧ Stage N same T T S S frames out w' := by
  have hr' : Resamples (fun e => ∃ sd bd t lw, (r sd bd t lw).Ret (.error e)) (fun _ _ => True) r := by
    intro sd bd t lw x _ _ hx
    cases x with
    | error e => exact Or.inl ⟨e, rfl, sd, bd, t, lw, hx⟩
    | ok p => exact Or.inr ⟨p.1, p.2, rfl, hr sd bd t lw p.1 p.2 hx⟩
  rw [weakObjs_eq]
  obtain ⟨q, e, hq⟩ := weak_safe_gibbs (er := er) (i0 := i0) (fl := fl) (gl := gl) hd hsame hr' (kvs := kvs) (f := frames)
    (by simp only [item, hf]) hft h1 h2 h3 hT S
  refine ⟨q, e, fun kw hkw w hc hh x w' hx => ?_⟩
  rcases hq kw ⟨hkw, trivial⟩ w ⟨hc, hh⟩ x w' hx with ⟨out, h4, h5⟩ | ⟨e, h4, sd, bd, t, lw, h5⟩
  · exact Or.inr ⟨out, h4, h5⟩
  · exact Or.inl ⟨e, sd, bd, t, lw, h4, h5⟩

theorem foldlM_weak {β : Type} {g g' : Node L → β → Except Err (Node L)} {h : Node L → Node L}
    (hg : ∀ q x, g' (h q) x = (g q x).map h) (l : List β) (q : Node L) : l.foldlM g' (h q) = (l.foldlM g q).map h := by
  induction l generalizing q with
  | nil => rfl
  | cons x l ih =>
    simp only [List.foldlM_cons, hg]
    cases g q x with
    | error e => rfl
    | ok q' => exact ih q'

/-- `gibbs_sweeps` builds the same nest from either objects. -/
theorem gibbsSweeps_weak : gibbsSweeps fresh (weakObjs same er N i0 i1 i2 i3 fl gl r) S T =
    (gibbsSweeps fresh (apgObjs N i0 i1 i2 i3 fl gl r) S T).map (weakNode same er) := by
  have hinit : ∀ m, gibbsInit fresh (weakObjs same er N i0 i1 i2 i3 fl gl r) m =
      weakNode same er (gibbsInit fresh (apgObjs N i0 i1 i2 i3 fl gl r) m) := by
    intro m
    induction m with
    | zero => rfl
    | succ m ih => unfold gibbsInit; rw [ih]; rfl
  have his : gibbsIs fresh (weakObjs same er N i0 i1 i2 i3 fl gl r) T =
      (gibbsIs fresh (apgObjs N i0 i1 i2 i3 fl gl r) T).map (weakNode same er) := by
    unfold gibbsIs
    rw [hinit]
    rfl
  have hstep : ∀ s q t, gibbsStep fresh (weakObjs same er N i0 i1 i2 i3 fl gl r) T s (weakNode same er q) t =
      (gibbsStep fresh (apgObjs N i0 i1 i2 i3 fl gl r) T s q t).map (weakNode same er) := fun s q t => rfl
  have hsweep : ∀ q s, gibbsSweep fresh (weakObjs same er N i0 i1 i2 i3 fl gl r) T S (weakNode same er q) s =
      (gibbsSweep fresh (apgObjs N i0 i1 i2 i3 fl gl r) T S q s).map (weakNode same er) := by
    intro q s
    unfold gibbsSweep
    rw [foldlM_weak (hstep s)]
    cases (List.range T).foldlM (gibbsStep fresh (apgObjs N i0 i1 i2 i3 fl gl r) T s) q with
    | error e => rfl
    | ok q' =>
      have : ∀ p : Node L, (if s ≠ S then mkResample fresh r (weakNode same er p) none .none false else weakNode same er p) =
          weakNode same er (if s ≠ S then mkResample fresh r p none .none false else p) := by
        intro p
        split <;> rfl
      exact congrArg Except.ok (this (.propose (sweepParts fresh gl T T s).1 (fun t _ => .ok t) true
        (.extend (sweepParts fresh gl T T s).2.2 (.prog i3 (decProg N)) (.prog i2 (encDigitProg N)))
        (.compose (sweepParts fresh gl T T s).2.1 (.prog i2 (encDigitProg N)) q')))
  unfold gibbsSweeps
  rw [his]
  cases gibbsIs fresh (apgObjs N i0 i1 i2 i3 fl gl r) T with
  | error e => rfl
  | ok q0 =>
    refine Eq.trans ?_ (foldlM_weak hsweep (List.range' 1 S) (if 0 < S then mkResample fresh r q0 none .none false else q0))
    show (List.range' 1 S).foldlM _ (if 0 < S then mkResample fresh r (weakNode same er q0) none .none false else weakNode same er q0) = _
    congr 1
    split <;> rfl

include hsame hd h1 h2 h3 hr hT hf hft in
/-- C103. If moreover the resampler never raises the error of a dead reference, the sampler with references that die is the sampler
with references that live for ever: as computations, draw by draw, with the same results and the same final state. -/
theorem C103_same (her : ∀ sd bd t lw, ¬ (r sd bd t lw).Ret (.error er)) :
    ∃ q, gibbsSweeps fresh (apgObjs N i0 i1 i2 i3 fl gl r) S T = .ok q ∧
      gibbsSweeps fresh (weakObjs same er N i0 i1 i2 i3 fl gl r) S T = .ok (weakNode same er q) ∧
      ∀ kw, KwOk kw → ∀ w, (∀ j, w.cond j = none) → w.store.hooks = apgHooks same →
        eval (weakNode same er q) (.dict kvs) kw w = eval q (.dict kvs) kw w := by
  obtain ⟨qw, e, h⟩ := C103_alive N same hsame hd fresh i0 i1 i2 i3 h1 h2 h3 fl gl r hr T S hT kvs frames hf hft er
  have e2 := e
  rw [gibbsSweeps_weak] at e2
  cases hq : gibbsSweeps fresh (apgObjs N i0 i1 i2 i3 fl gl r) S T with
  | error x => rw [hq] at e2; cases e2
  | ok q =>
    rw [hq] at e2
    cases e2
    refine ⟨q, rfl, e, fun kw hkw w hc hh => (upto_weakNode q (.dict kvs) kw w).eq fun w' hx => ?_⟩
    rcases h kw hkw w hc hh _ w' hx with ⟨e, sd, bd, t, lw, h4, h5⟩ | ⟨out, h4, -⟩
    · cases h4
      exact her sd bd t lw h5
    · cases h4

end sampler

/-! ### What keeps them alive -/

/-- The nest with `_no_reruns=False` in every Propose (combinators/inference.py:413). -/
def withReruns : Node L → Node L
  | .prog i s => .prog i s
  | .resample a r q => .resample a r (withReruns q)
  | .extend a p f => .extend a (withReruns p) (withReruns f)
  | .compose a q2 q1 => .compose a (withReruns q2) (withReruns q1)
  | .propose a transf _ p q => .propose a transf false (withReruns p) (withReruns q)

/-- How a run on the given draws ends: `some none` if it returns. -/
def Toy.ends (nd : Except Err (Node Toy.L)) (w : World Toy.L) (vs : List Toy.L.V) : Option (Option Err) :=
  match nd with
  | .ok nd =>
    match Toy.feed (eval nd (.dict [("frames", .tensor (3, 0))]) {} w) vs with
    | some (.ok _, _) => some none
    | some (.error e, _) => some (some e)
    | none => none
  | .error _ => none

/-- A resampler that returns new tensors, told apart by their second component. -/
def Toy.copies : ResamplerFn Toy.L := fun _ _ t lw =>
  .ret (.ok (t.mapVal fun rv => { rv with value := (rv.value.1, rv.value.2 + 1) }, lw))

def Toy.weakObjs (r : ResamplerFn Toy.L) : ApgObjs Toy.L :=
  Verif.weakObjs Toy.same (.other 7) Toy.net 0 1 2 3 (fun a _ _ => a.val.1) (fun a _ _ => a.val.1) r

def Toy.weakDraws : List Toy.L.V :=
  [(1, 1), (2, 1), (3, 1), (4, 1), (5, 1), (6, 1), (7, 1), (8, 1), (9, 1), (10, 1), (11, 1), (12, 1)]

theorem Toy.ends_run {nd : Except Err (Node Toy.L)} {w : World Toy.L} {vs : List Toy.L.V} {x : Option Err} (h : Toy.ends nd w vs = some x) :
    ∃ q r w', nd = .ok q ∧ (eval q (.dict [("frames", .tensor ((3, 0) : Int × Int))]) {}).Runs w r w' ∧
      ((∃ out, r = .ok out) ∧ x = none ∨ ∃ e, r = .error e ∧ x = some e) := by
  unfold Toy.ends at h
  cases nd with
  | error e => cases h
  | ok q =>
    simp only at h
    split at h
    · rename_i out w' hf
      exact ⟨q, _, w', rfl, Toy.feed_Ret hf, Or.inl ⟨⟨out, rfl⟩, (Option.some.inj h).symm⟩⟩
    · rename_i e w' hf
      exact ⟨q, _, w', rfl, Toy.feed_Ret hf, Or.inr ⟨e, rfl, (Option.some.inj h).symm⟩⟩
    · cases h

/-- A run of two sweeps over three frames, with references that die and a resampler that returns new tensors, returns. -/
example : ∃ q out w', gibbsSweeps 4 (Toy.weakObjs Toy.copies) 2 3 = .ok q ∧
    (eval q (.dict [("frames", .tensor ((3, 0) : Int × Int))]) {}).Runs Toy.wApg (.ok out) w' ∧ Stage Toy.net Toy.same 3 3 2 2 (3, 0) out w' := by
  obtain ⟨q, r, w', e, hq, h⟩ := Toy.ends_run (show Toy.ends (gibbsSweeps 4 (Toy.weakObjs Toy.copies) 2 3) Toy.wApg Toy.weakDraws = some none by
    decide +kernel)
  rcases h with ⟨⟨out, rfl⟩, -⟩ | ⟨e, -, h⟩
  swap
  · cases h
  obtain ⟨q', e', h'⟩ := C103_alive Toy.net Toy.same (by simp [Toy.same]) (by intro v; rfl) 4 0 1 2 3 (by decide) (by decide) (by decide)
    (fun a _ _ => a.val.1) (fun a _ _ => a.val.1) Toy.copies
    (by
      intro sd bd t lw t2 lw2 h k
      simp only [Toy.copies, Comp.ret_Ret, Except.ok.injEq, Prod.mk.injEq] at h
      rw [← h.1, Dict.contains, Dict.contains, Dict.get?_mapVal, Option.isSome_map])
    3 2 (by decide) [("frames", .tensor ((3, 0) : Int × Int))] (3, 0) rfl rfl (.other 7)
  rw [show gibbsSweeps 4 (Toy.weakObjs Toy.copies) 2 3 = .ok q' from e'] at e
  cases e
  refine ⟨_, out, w', e', hq, ?_⟩
  rcases h' {} (by simp [KwOk]) Toy.wApg (fun _ => rfl) rfl _ _ hq with ⟨_, _, _, _, _, h, -⟩ | ⟨o, h, hS⟩
  · cases h
  · cases h; exact hS

/-- C103, the option `_no_reruns` is needed: with reruns the trace of a Propose holds detached copies of the tensors, the references of the
store are to those that nobody holds any more, and the decoder of the first sweep finds one that no trace at hand keeps alive. -/
theorem C103_reruns : ∃ q w', gibbsSweeps 4 (Toy.weakObjs Toy.keepAll) 1 3 = .ok q ∧
    (eval (withReruns q) (.dict [("frames", .tensor ((3, 0) : Int × Int))]) {}).Runs Toy.wApg (.error (.other 7)) w' := by
  obtain ⟨q, r, w', e, hq, h⟩ := Toy.ends_run (show Toy.ends ((gibbsSweeps 4 (Toy.weakObjs Toy.keepAll) 1 3).map withReruns) Toy.wApg
    Toy.weakDraws = some (some (.other 7)) by decide +kernel)
  rcases h with ⟨-, h⟩ | ⟨x, rfl, h⟩
  · cases h
  cases h
  cases hg : gibbsSweeps 4 (Toy.weakObjs Toy.keepAll) 1 3 with
  | error x => rw [hg] at e; cases e
  | ok q0 =>
    rw [hg] at e
    cases e
    exact ⟨q0, w', rfl, hq⟩

/-- The hooks of the experiment without `_resample_hook` (experiments/apgs/utils.py:36). -/
def Toy.unhooked : World Toy.L :=
  { cond := fun _ => none, store := { data := Dict.empty, hooks := { apgHooks Toy.same with resampleUpdate := Hooks.noop.resampleUpdate } } }

/-- C103, the hook on resampling is needed: without it the store refers to the tensors before resampling, and the decoder of the first
sweep finds a reference that no trace at hand keeps alive. -/
theorem C103_hook : ∃ q w', gibbsSweeps 4 (Toy.weakObjs Toy.copies) 1 3 = .ok q ∧
    (eval q (.dict [("frames", .tensor ((3, 0) : Int × Int))]) {}).Runs Toy.unhooked (.error (.other 7)) w' := by
  obtain ⟨q, r, w', e, hq, h⟩ := Toy.ends_run (show Toy.ends (gibbsSweeps 4 (Toy.weakObjs Toy.copies) 1 3) Toy.unhooked
    Toy.weakDraws = some (some (.other 7)) by decide +kernel)
  rcases h with ⟨-, h⟩ | ⟨x, rfl, h⟩
  · cases h
  cases h
  exact ⟨q, w', e, hq⟩

end Verif
