import Verif.Spec.Nests
import Verif.Props.Combinators
/-
C13-C16: nests of combinators.
-/
namespace Verif
open Spec

namespace Toy
/-- A combinator whose loss adds 1 and the weight's value to the incoming loss. -/
def counting (i : ObjId) (ix : PyVal L) : Attrs L :=
  mkAttrs i (some fun o l => .ok (l + 1 + o.logWeight.val.1)) (some 100) ix false
/-- A program that stores the index it receives. -/
def ixReader : ProgSpec L where
  name := "IxReader"
  sig := { args := ["self", "trace", "c", "ix"], varargs := false, kwonly := [], varkw := false }
  debugAttr := none
  model _ kws := .ret ((getL kws "ix").getD (.str "absent"))
end Toy

variable {L : Lang}

theorem finish_loss {a : Attrs L} {kw : Kw L} {t lw out ty ix m px} {sub : Out L} {subs : List (String × Out L)}
    {o : Out L} (h : finish a kw (Out.mk t lw out ty ix none m px []) sub subs = .ok o) :
    ∃ x, a.lossFn (beforeLoss o) (match sub.loss with | some y => y | none => a.loss0) = .ok x ∧ o.loss = some x := by
  obtain ⟨l, h1, rfl⟩ := finish_ok h
  exact ⟨l, h1, rfl⟩

theorem eval_resample_ok {a : Attrs L} {r : ResamplerFn L} {q : Node L} {c : PyVal L} {kw : Kw L} {w w' : World L}
    {o : Out L} (h : (eval (.resample a r q) c kw).Runs w (.ok o) w') :
    ∃ qo w1 t lw c2, (eval q c (subKw a kw)).Runs w (.ok qo) w1 ∧
      (r kw.sampleDims kw.batchDim qo.trace qo.logWeight).Ret (.ok (t, lw)) ∧
      resampleOutput qo.output t = .ok c2 ∧ w1.store.resampleUpdate qo.trace t = (.ok (), w'.store) ∧
      w'.cond = w1.cond ∧
      finish a kw (Out.mk t lw c2 .resample (some (nearest a.ix kw.ix)) none none none []) qo [("q_out", qo)] = .ok o := by
  unfold eval resampleRest at h
  simp only [Exec.Runs_bind_ok, Exec.Runs_lift, Exec.Runs_liftComp, Exec.Runs_onStore, Exec.Runs_pure, childKw_eq] at h
  obtain ⟨qo, w1, h1, ⟨t, lw⟩, w2, ⟨h2, rfl⟩, c2, w3, ⟨h3, rfl⟩, u, w4, ⟨h4, rfl⟩, o', w5, ⟨h5, rfl⟩, h6, rfl⟩ := h
  refine ⟨qo, w3, t, lw, c2, h1, h2, h3.symm, ?_, rfl, ?_⟩
  · exact Prod.ext h4.symm rfl
  · rw [← foldLoss_finish _ _ _ _ _ rfl, ← pickIx_eq, ← h5]
    exact h6.symm

/-- C13. The loss of a result is the right fold of the loss functions over the results of the combinators on the proposal
spine, which are results of actual calls of these combinators, the outermost being the result itself. No other loss
occurs in it. -/
theorem C13_loss_fold (n : Node L) (c : PyVal L) (kw : Kw L) (w w' : World L) (o : Out L)
    (h : (eval n c kw).Runs w (.ok o) w') :
    ∃ os : List (Out L), os.length = (spine n).length ∧ (∀ o' ∈ os.head?, o' = o) ∧
      (∀ e ∈ (spine n).zip os, ∃ c kw w w', (eval e.1.2 c kw).Runs w (.ok e.2) w') ∧
      LossAlong (((spine n).map (·.1)).zip os) o.loss := by
  induction n generalizing c kw w w' o with
  | prog i s =>
    rw [eval_prog_Runs] at h
    obtain ⟨-, _, _, -, rfl⟩ := h
    exact ⟨[], rfl, by simp, by simp [spine], rfl⟩
  | resample a r q ih =>
    have h0 := h
    obtain ⟨qo, w1, t, lw, c2, h1, -, -, -, -, h2⟩ := eval_resample_ok h
    obtain ⟨os, e1, -, e3, e4⟩ := ih _ _ _ _ _ h1
    obtain ⟨x, h3, h4⟩ := finish_loss h2
    refine ⟨o :: os, by simp [spine, e1], by simp, ?_, _, x, e4, h3, h4⟩
    simp only [spine, List.zip_cons_cons, List.mem_cons]
    rintro e (rfl | he)
    · exact ⟨_, _, _, _, h0⟩
    · exact e3 e he
  | compose a q2 q1 ih2 ih1 =>
    have h0 := h
    rw [C07_compose] at h
    rcases h with ⟨e, h, -⟩ | ⟨o1, w1, h1, ⟨e, h, -⟩ | ⟨o2, h2, h3⟩⟩
    · cases h
    · cases h
    rcases h3 with ⟨-, h⟩ | ⟨h4, t, lw, h5, h6, -, h7⟩
    · cases h
    obtain ⟨os, e1, -, e3, e4⟩ := ih1 _ _ _ _ _ h1
    obtain ⟨x, h8, h9⟩ := finish_loss h7.symm
    refine ⟨o :: os, by simp [spine, e1], by simp, ?_, _, x, e4, h8, h9⟩
    simp only [spine, List.zip_cons_cons, List.mem_cons]
    rintro e (rfl | he)
    · exact ⟨_, _, _, _, h0⟩
    · exact e3 e he
  | extend a p f ihp ihf =>
    have h0 := h
    unfold eval at h
    simp only [Exec.Runs_bind_ok, Exec.Runs_lift, Exec.Runs_getCond, Exec.Runs_withSub, Exec.Runs_pure] at h
    obtain ⟨_, _, -, ⟨po, fo⟩, w2, ⟨_, ⟨_, _, -, _, ⟨po', w4, h1, fo', _, -, h2, -⟩, -⟩, -⟩, cond, w3, -, h, -⟩ := h
    cases h2
    have := extendRest_spec a kw cond po fo
    rw [← h] at this
    rcases this with ⟨-, h⟩ | ⟨-, -, _, _, -, -, -, h⟩
    · cases h
    obtain ⟨os, e1, -, e3, e4⟩ := ihp _ _ _ _ _ h1
    obtain ⟨x, h8, h9⟩ := finish_loss h.symm
    refine ⟨o :: os, by simp [spine, e1], by simp, ?_, _, x, e4, h8, h9⟩
    simp only [spine, List.zip_cons_cons, List.mem_cons]
    rintro e (rfl | he)
    · exact ⟨_, _, _, _, h0⟩
    · exact e3 e he
  | propose a tr nr p q ihp ihq =>
    have h0 := h
    obtain ⟨qo, po, w1, w2, h1, -, -, h4⟩ := eval_propose_ok h
    obtain ⟨qt, m, t, fwd, lv, x, -, -, -, -, -, -, e3⟩ := proposeRest_ok h4
    obtain ⟨os, e1, -, e5, e4⟩ := ihq _ _ _ _ _ h1
    obtain ⟨x, h8, h9⟩ := finish_loss e3
    refine ⟨o :: os, by simp [spine, e1], by simp, ?_, _, x, e4, h8, h9⟩
    simp only [spine, List.zip_cons_cons, List.mem_cons]
    rintro e (rfl | he)
    · exact ⟨_, _, _, _, h0⟩
    · exact e5 e he

/-- C13. A Resample object (which takes no loss function) passes its part's loss on, or its loss0. -/
theorem C13_resample_passes_loss (i : ObjId) (r : ResamplerFn L) (q : Node L) (loss0 : Option L.Lo) (ix : PyVal L)
    (debug : Bool) (c : PyVal L) (kw : Kw L) (w w' : World L) (o : Out L)
    (h : (eval (mkResample i r q loss0 ix debug) c kw).Runs w (.ok o) w') :
    ∃ qo kw' w1, (eval q c kw').Runs w (.ok qo) w1 ∧ o.loss = some (qo.loss.getD (loss0.getD 0)) := by
  obtain ⟨qo, w1, t, lw, c2, h1, -, -, -, -, h2⟩ := eval_resample_ok h
  obtain ⟨x, h3, h4⟩ := finish_loss h2
  refine ⟨qo, _, w1, h1, ?_⟩
  rw [h4]
  simp only [mkAttrs, Option.getD_none, idLoss] at h3
  cases h3
  cases qo.loss <;> rfl

/-- C13: a nest with losses on both branches. Only the spine (objects 3, 4) counts: 1 + 1 + the weight 19 of the Propose
+ loss0 100 of object 4; the target's loss function (object 6) contributes nothing. -/
example : ∃ o w', (eval (.propose (Toy.counting 3 .none) (fun t _ => .ok t) true
      (.extend (Toy.counting 6 .none) (.prog 1 (Toy.latent "x" 2)) (.prog 7 (Toy.latent "z" 3)))
      (.compose (Toy.counting 4 .none) (.prog 2 (Toy.latent "z" 1)) (.prog 5 (Toy.latent "x" 1)))) .none {}).Runs Toy.w0
        (.ok o) w' ∧ o.loss = some (1 + 1 + 19 + 100 : Int) := by
  have h : ∃ r w', (eval (.propose (Toy.counting 3 .none) (fun t _ => .ok t) true
      (.extend (Toy.counting 6 .none) (.prog 1 (Toy.latent "x" 2)) (.prog 7 (Toy.latent "z" 3)))
      (.compose (Toy.counting 4 .none) (.prog 2 (Toy.latent "z" 1)) (.prog 5 (Toy.latent "x" 1)))) .none {}).Runs Toy.w0
        r w' ∧ (match r with | .ok o => o.loss = some (1 + 1 + 19 + 100 : Int) | .error _ => False) :=
    ⟨_, _, ⟨(5, 0), (7, 0), rfl⟩, rfl⟩
  obtain ⟨r | o, w', h1, h2⟩ := h
  · exact h2.elim
  · exact ⟨o, w', h1, h2⟩

theorem nearest_innermost (x : PyVal L) (l : List (PyVal L)) (caller : PyVal L) :
    nearest x (innermost l caller) = innermost (x :: l) caller := by
  cases x <;> rfl

theorem Spec.AgreeOn.attr {kw : Kw L} {l : List (PyVal L)} {n n' : Node L} (h : AgreeOn kw l n n') :
    n.id = n'.id ∧ n.debugAttr = n'.debugAttr ∧ n.isExtend = n'.isExtend := by
  cases n <;> cases n' <;> simp only [AgreeOn] at h
  · obtain ⟨rfl, h, -⟩ := h
    exact ⟨rfl, by rw [Node.debugAttr, Node.debugAttr, h], rfl⟩
  all_goals
    obtain ⟨rfl, -⟩ := h
    exact ⟨rfl, rfl, rfl⟩

theorem eval_agree (kw : Kw L) (n n' : Node L) (l : List (PyVal L)) (h : AgreeOn kw l n n') (c : PyVal L) :
    eval n c { kw with ix := innermost l kw.ix } = eval n' c { kw with ix := innermost l kw.ix } := by
  induction n generalizing n' l c with
  | prog i s =>
    cases n' <;> simp only [AgreeOn] at h
    rename_i j s'
    obtain ⟨rfl, hs, hm⟩ := h
    funext w
    rw [eval_prog_apply, eval_prog_apply]
    have h1 : s'.sig = s.sig := by rw [hs]
    have h2 : s'.name = s.name := by rw [hs]
    rw [h1, h2, ← hm]
  | resample a r q ih =>
    cases n' <;> simp only [AgreeOn] at h
    obtain ⟨rfl, rfl, h⟩ := h
    have e := fun c => ih _ _ h c
    unfold eval
    simp only [childKw_eq, subKw, nearest_innermost, e]
  | compose a q2 q1 ih2 ih1 =>
    cases n' <;> simp only [AgreeOn] at h
    obtain ⟨rfl, h2, h1⟩ := h
    have e2 := fun c => ih2 _ _ h2 c
    have e1 := fun c => ih1 _ _ h1 c
    unfold eval
    simp only [dispatchKw_node, childKw_eq, subKw, nearest_innermost, e1, e2]
  | extend a p f ihp ihf =>
    cases n' <;> simp only [AgreeOn] at h
    obtain ⟨rfl, hp, hf⟩ := h
    have e1 := fun c => ihp _ _ hp c
    have e2 := fun c => ihf _ _ hf c
    unfold eval
    simp only [dispatchKw_node, childKw_eq, subKw, nearest_innermost, e1, e2, hp.attr.1, hf.attr.1]
  | propose a tr nr p q ihp ihq =>
    cases n' <;> simp only [AgreeOn] at h
    obtain ⟨rfl, rfl, rfl, hp, hq⟩ := h
    have e1 := fun c => ihp _ _ hp c
    have e2 := fun c => ihq _ _ hq c
    unfold eval
    simp only [dispatchKw_node, childKw_eq, subKw, nearest_innermost, e1, e2, hp.attr.1]
    unfold proposeRest marginalize forwardTrace
    simp only [hp.attr.2.2, hq.attr.2.1]

/-- C14 (and C15 inside nests). A call gives every program of the nest exactly the keyword arguments of the call that
its signature accepts, with `ix` from the nearest enclosing combinator that has one, else the caller's: nests whose
models agree on these arguments (and may differ on all others) behave the same. -/
theorem C14_index_scoping (n n' : Node L) (c : PyVal L) (kw : Kw L) (h : AgreeOn kw [] n n') :
    eval n c kw = eval n' c kw := eval_agree kw n n' [] h c

/-- C14: a program below two combinators with indices receives the inner one; below one without it receives the outer. -/
example : (∃ o w', (eval (.compose (Toy.counting 1 (.int 1)) (.prog 2 (Toy.latent "x" 1))
      (.compose (Toy.counting 3 (.int 2)) (.prog 4 Toy.ixReader) (.prog 5 Toy.ixReader))) .none { ix := .int 3 }).Runs
        Toy.w0 (.ok o) w') ∧
    (eval (.compose (Toy.counting 3 (.int 2)) (.prog 4 Toy.ixReader) (.prog 5 Toy.ixReader)) .none { ix := .int 3 }
      Toy.w0).map (fun r => r.1.map (·.output)) = .ret (.ok (.int 2)) ∧
    (eval (.compose (Toy.counting 3 .none) (.prog 4 Toy.ixReader) (.prog 5 Toy.ixReader)) .none { ix := .int 3 }
      Toy.w0).map (fun r => r.1.map (·.output)) = .ret (.ok (.int 3)) := by
  refine ⟨?_, rfl, rfl⟩
  have h : ∃ r w', (eval (.compose (Toy.counting 1 (.int 1)) (.prog 2 (Toy.latent "x" 1))
      (.compose (Toy.counting 3 (.int 2)) (.prog 4 Toy.ixReader) (.prog 5 Toy.ixReader))) .none { ix := .int 3 }).Runs
        Toy.w0 r w' ∧ (match r with | .ok _ => True | .error _ => False) := ⟨_, _, ⟨(5, 0), rfl⟩, trivial⟩
  obtain ⟨r | o, w', h1, h2⟩ := h
  · exact h2.elim
  · exact ⟨o, w', h1⟩

/-- C15. The signature accepts a keyword argument: it has `**kwargs`, or a parameter of that name. -/
def Spec.Accepts (s : ArgSpec) (name : String) : Prop := s.varkw = true ∨ name ∈ s.kwonly ∨ name ∈ s.args

theorem checkPassable_iff (name : String) (s : ArgSpec) : checkPassable name s = true ↔ Accepts s name := by
  simp [checkPassable, Accepts, or_assoc]

theorem kwargsFor_nil (s : ArgSpec) (kws : List (String × PyVal L)) :
    kwargsFor s kws [] = kws.filter (fun e => checkPassable e.1 s) := by
  simp [kwargsFor]

/-- C15. dispatch to a plain function passes exactly the keyword arguments that it accepts, in order. -/
theorem C15_dispatch_function (s : ArgSpec) (kws : List (String × PyVal L)) (e : String × PyVal L) :
    (e ∈ dispatchKwargs (.function s) kws ↔ e ∈ kws ∧ Accepts s e.1) ∧
      (dispatchKwargs (.function s) kws).Sublist kws := by
  refine ⟨?_, List.filter_sublist⟩
  simp only [dispatchKwargs, kwargsFor, List.mem_filter, keysL_nil, List.contains_nil, Bool.not_false, Bool.and_true,
    checkPassable_iff]

/-- C15. dispatch to a module passes a keyword argument if and only if `__call__` or `forward` accepts it, once each. -/
theorem C15_dispatch_module (call forward : ArgSpec) (kws : List (String × PyVal L)) (hn : (keysL kws).Nodup)
    (e : String × PyVal L) :
    (e ∈ dispatchKwargs (.nnModule call forward) kws ↔ e ∈ kws ∧ (Accepts call e.1 ∨ Accepts forward e.1)) ∧
      (keysL (dispatchKwargs (.nnModule call forward) kws)).Nodup := by
  have hsub : ∀ (f : String × PyVal L → Bool), keysL (kws.filter f) |>.Nodup := fun f =>
    (List.Sublist.map _ List.filter_sublist).nodup hn
  constructor
  · have hm : e ∈ kws → (e.1 ∈ keysL (kwargsFor call kws []) ↔ Accepts call e.1) := by
      intro he
      simp only [kwargsFor_nil, keysL, List.mem_map, List.mem_filter, checkPassable_iff]
      constructor
      · rintro ⟨e', ⟨-, h2⟩, h3⟩; rwa [h3] at h2
      · intro h; exact ⟨e, ⟨he, h⟩, rfl⟩
    simp only [dispatchKwargs, List.mem_append]
    rw [kwargsFor_nil call, List.mem_filter, kwargsFor, List.mem_filter, checkPassable_iff, Bool.and_eq_true,
      checkPassable_iff, Bool.not_eq_true', List.contains_eq_mem, decide_eq_false_iff_not, ← kwargsFor_nil]
    constructor
    · rintro (⟨h1, h2, h3⟩ | ⟨h1, h2⟩)
      · exact ⟨h1, Or.inr h2⟩
      · exact ⟨h1, Or.inl h2⟩
    · rintro ⟨h1, h2⟩
      by_cases hc : Accepts call e.1
      · exact Or.inr ⟨h1, hc⟩
      · refine Or.inl ⟨h1, h2.resolve_left hc, fun h => hc ((hm h1).1 h)⟩
  · simp only [dispatchKwargs, keysL_append, List.nodup_append]
    refine ⟨hsub _, hsub _, ?_⟩
    rintro k hk k' hk' rfl
    simp only [kwargsFor, keysL, List.mem_map, List.mem_filter, Bool.and_eq_true, Bool.not_eq_true',
      List.contains_eq_mem, decide_eq_false_iff_not] at hk hk'
    obtain ⟨e1, ⟨-, -, h⟩, rfl⟩ := hk
    exact h hk'

/-- C15. dispatch to a Program passes a keyword argument if and only if `__call__`, `forward` or `model` accepts it, once each. -/
theorem C15_dispatch_program (call forward model : ArgSpec) (kws : List (String × PyVal L)) (hn : (keysL kws).Nodup)
    (e : String × PyVal L) :
    (e ∈ dispatchKwargs (.program call forward model) kws ↔
      e ∈ kws ∧ (Accepts call e.1 ∨ Accepts forward e.1 ∨ Accepts model e.1)) ∧
      (keysL (dispatchKwargs (.program call forward model) kws)).Nodup := by
  have hd := fun e => (C15_dispatch_module call forward kws hn e).1
  have hdn := (C15_dispatch_module call forward kws hn e).2
  rw [show dispatchKwargs (.program call forward model) kws =
    kwargsFor model kws (dispatchKwargs (.nnModule call forward) kws) ++ dispatchKwargs (.nnModule call forward) kws from rfl]
  generalize dispatchKwargs (.nnModule call forward) kws = d at hd hdn
  have hmem : ∀ e, e ∈ kwargsFor model kws d ↔ e ∈ kws ∧ Accepts model e.1 ∧ e.1 ∉ keysL d := by
    intro e
    rw [kwargsFor, List.mem_filter, Bool.and_eq_true, checkPassable_iff, Bool.not_eq_true', List.contains_eq_mem,
      decide_eq_false_iff_not]
  have hk : ∀ e, e ∈ kws → (e.1 ∈ keysL d ↔ Accepts call e.1 ∨ Accepts forward e.1) := by
    intro e he
    simp only [keysL, List.mem_map, hd]
    constructor
    · rintro ⟨e', ⟨-, h2⟩, h3⟩; rwa [h3] at h2
    · intro h; exact ⟨e, ⟨he, h⟩, rfl⟩
  constructor
  · rw [List.mem_append, hmem, hd]
    constructor
    · rintro (⟨h1, h2, -⟩ | ⟨h1, h2 | h2⟩)
      · exact ⟨h1, .inr (.inr h2)⟩
      · exact ⟨h1, .inl h2⟩
      · exact ⟨h1, .inr (.inl h2)⟩
    · rintro ⟨h1, h2⟩
      by_cases hc : Accepts call e.1 ∨ Accepts forward e.1
      · exact .inr ⟨h1, hc⟩
      · refine .inl ⟨h1, ?_, fun h => hc ((hk e h1).1 h)⟩
        rcases h2 with h | h | h
        · exact absurd (.inl h) hc
        · exact absurd (.inr h) hc
        · exact h
  · rw [keysL_append, List.nodup_append]
    refine ⟨(List.Sublist.map _ List.filter_sublist).nodup hn, hdn, ?_⟩
    rintro k hk1 k' hk' rfl
    obtain ⟨e1, he1, rfl⟩ := List.mem_map.1 hk1
    exact ((hmem e1).1 he1).2.2 hk'

/-- C15. A model that takes `temperature` gets it through a Program whose own signatures do not name it. -/
example : (keysL (dispatchKwargs (L := Toy.L) (.program { args := ["self"], varargs := true, kwonly := [], varkw := false }
      { args := ["self"], varargs := true, kwonly := ["ix"], varkw := false }
      { args := ["self", "trace", "c", "temperature"], varargs := false, kwonly := [], varkw := false })
    [("temperature", .int 1), ("color", .int 2), ("ix", .int 3)])) = ["temperature", "ix"] := rfl

/-- C15. Which keyword arguments are received: those of the call's that the signature accepts. -/
theorem C15_received (s : ArgSpec) (kw : Kw L) (e : String × PyVal L) :
    e ∈ receivedKwargs s kw ↔ Accepts s e.1 ∧
      (e = ("sample_dims", kw.sampleDims) ∨ e = ("batch_dim", kw.batchDim) ∨ e = ("reparameterized", kw.reparam) ∨
        e = ("_debug", .bool kw.debug) ∨ e = ("ix", kw.ix) ∨ e ∈ kw.shared) := by
  simp only [receivedKwargs, offeredKwargs, List.mem_filter, List.mem_append, List.mem_cons, List.not_mem_nil, or_false,
    decide_eq_true_eq, Accepts, or_assoc]
  exact and_comm

/-- C15. A Program's model receives exactly the accepted keyword arguments: only its value there matters. -/
theorem C15_model_receives (i : ObjId) (s s' : ProgSpec L) (c : PyVal L) (kw : Kw L)
    (hs : s' = { s with model := s'.model })
    (hm : s.model c (receivedKwargs s.sig kw) = s'.model c (receivedKwargs s.sig kw)) :
    eval (.prog i s) c kw = eval (.prog i s') c kw := by
  funext w
  rw [eval_prog_apply, eval_prog_apply]
  have h1 : s'.sig = s.sig := by rw [hs]
  have h2 : s'.name = s.name := by rw [hs]
  rw [h1, h2, ← hm]

/-- C15. A model whose first three parameters (self, trace, input) carry the name of an offered keyword argument cannot
be called: TypeError, before it runs. -/
theorem C15_positional_clash (i : ObjId) (s : ProgSpec L) (c : PyVal L) (kw : Kw L) (w : World L)
    (name : String) (hn : name ∈ s.sig.args.take 3) (ho : name ∈ keysL (offeredKwargs kw)) :
    eval (.prog i s) c kw w = .ret (.error .type, w) := by
  rw [eval_prog_apply]
  have : bindModel s.sig (receivedKwargs s.sig kw) = .error .type := by
    unfold bindModel
    split
    · rfl
    · rw [if_pos]
      rw [List.any_eq_true]
      simp only [keysL, List.mem_map] at ho
      obtain ⟨e, he, rfl⟩ := ho
      refine ⟨e, ?_, by simpa using hn⟩
      simp only [receivedKwargs, List.mem_filter, he, true_and, decide_eq_true_eq]
      exact Or.inr (Or.inr (List.mem_of_mem_take hn))
  rw [this]

/-- C15. A model must take three positional arguments (self, trace, input) or `*args`: otherwise every call is a TypeError, before it runs. -/
theorem C15_arity (i : ObjId) (s : ProgSpec L) (h : s.sig.args.length < 3) (hv : s.sig.varargs = false) (c : PyVal L) (kw : Kw L) (w : World L) :
    eval (.prog i s) c kw w = .ret (.error .type, w) := by
  rw [eval_prog_apply]
  have : bindModel s.sig (receivedKwargs s.sig kw) = .error .type := by
    unfold bindModel
    rw [if_pos (by simp [h, hv])]
  rw [this]

/-- C15: `def model(self, trace)` cannot be called, even if it draws nothing. -/
example (c : PyVal Toy.L) (kw : Kw Toy.L) :
    eval (.prog 0 { name := "P", sig := { args := ["self", "trace"], varargs := false, kwonly := [], varkw := true }, model := fun _ _ => .ret .none, debugAttr := none })
      c kw Toy.w0 = .ret (.error .type, Toy.w0) :=
  C15_arity _ _ (by simp) rfl _ _ _

/-- C15: a model that takes `ix` by name receives it and nothing else; one that names its input `ix` clashes. -/
example : receivedKwargs Toy.ixReader.sig { ix := .int 3 } = [("ix", PyVal.int (L := Toy.L) 3)] ∧
    "ix" ∈ keysL (offeredKwargs ({ ix := .int 3 } : Kw Toy.L)) ∧ "ix" ∈ ["self", "trace", "ix"].take 3 := by
  refine ⟨?_, ?_, ?_⟩ <;> simp [receivedKwargs, offeredKwargs, Toy.ixReader]

end Verif
