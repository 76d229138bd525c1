import Mathlib.Tactic.Abel
import Verif.Model.TestSuite
import Verif.Proofs.Exec
/-
C92: the tests of tests/test_inference.py, for every random outcome.
-/
namespace Verif
namespace Tests
variable {L : Lang} (T : Torch L)

/-- The test passes whatever is drawn. -/
def Passes (m : Exec L Unit) (w : World L) : Prop := ∀ r w', Exec.Runs m w r w' → r = .ok ()

/-- The test raises `e` whatever is drawn. -/
def Raises (m : Exec L Unit) (w : World L) (e : Err) : Prop := ∀ r w', Exec.Runs m w r w' → r = .error e

/-- C92. The comparison of names in the tests (`set(out.trace.keys()) == set([…])`) is equality of sets. -/
theorem C92_names (t : Trace L) (s : List String) : keysAre t s = true ↔ ∀ k, k ∈ t.keys ↔ k ∈ s := by
  unfold keysAre
  rw [Bool.and_eq_true, List.all_eq_true, List.all_eq_true]
  exact ⟨fun h k => ⟨fun hk => List.contains_iff_mem.1 (h.1 k hk), fun hk => Dict.contains_iff.1 (h.2 k hk)⟩,
    fun h => ⟨fun k hk => List.contains_iff_mem.2 ((h k).1 hk), fun k hk => Dict.contains_iff.2 ((h k).2 hk)⟩⟩

attribute [local simp] bind Exec.bind pure Exec.pure Exec.getCond Exec.lift Exec.assert Exec.throw Exec.withSub Exec.Runs Except.bind Except.pure
  programForward checkPassable sig bindModel runModel variableValue
  Dict.contains Dict.get? Dict.insert Dict.empty Dict.keys insertL getL
  logJoint weightNodes tauAddrs RV.isTau RV.mk' LW.add LW.sub LW.val keysAre joint same torchEqual sub dbg mkAttrs childKw
  composeRest extendRest extendCheckF zeroWeight copytrace1 copytraces copyStep disjointKeys List.foldlM foldLoss idLoss mkCompose mkExtend mkPropose setCondTrace World.setCond pickIx
  proposeRest proposeNodes marginalize detachOutput detachLW incomingLw forwardTrace Node.isExtend Node.isCompose Node.debugAttr Node.id eval
  Passes Raises simple1 simple2 simple3 simple4

/-- C92. `test_run_a_primitive_program` never fails. -/
theorem C92_primitive (i : ObjId) (w : World L) (h : w.cond i = none) : Passes (testPrimitive T i) w := by
  simp [testPrimitive, h]
  intros; simp_all

/-- C92. `test_compose` never fails. -/
theorem C92_compose (i j k : ObjId) (w : World L) (h : w.cond i = none) (h' : w.cond j = none) : Passes (testCompose T i j k) w := by
  simp [testCompose, h, h']
  intros; simp_all

/-- C92. `test_cond_eval` (skipped) would never fail with the conditioning trace assigned. -/
theorem C92_cond_eval (i j : ObjId) (w : World L) (h : w.cond i = none) : Passes (testCondEval T i j) w := by
  simp [testCondEval, h]
  intros; simp_all

/-- C92. `test_propose` (skipped) would always end with AttributeError: its proposal is a Program, which has no attribute `_debug`. -/
theorem C92_propose_raises (i j k : ObjId) (w : World L) (h : w.cond i = none) : Raises (testPropose T (simple1 T) i j k) w .attribute := by
  simp [testPropose, h]
  intros; simp_all

/-- C92. If programs had that attribute `test_propose` would never fail, provided that detaching keeps the numbers. -/
theorem C92_propose (b : Bool) (hd : ∀ x, L.detachW x = x) (i j k : ObjId) (w : World L) (h : w.cond i = none) :
    Passes (testPropose T { simple1 T with debugAttr := some b } i j k) w := by
  cases b <;>
  · simp [testPropose, h, hd]
    intros; simp_all

/-- C92. What `test_extend_unconditioned` (skipped) says about the weight always holds. -/
theorem C92_extend_weight (i j k : ObjId) (w : World L) (h : w.cond k = none) : Passes (testExtend T i j k) w := by
  simp [testExtend, h]
  intros; simp_all

/-- C92. What it says about the trace never holds: the trace contains the kernel's variables. -/
theorem C92_extend_keys (i j k : ObjId) (w : World L) (h : w.cond k = none) : Raises (testExtendKeys T i j k) w .assertion := by
  simp [testExtendKeys, h]
  intros; simp_all

/-- C92. `test_extend_conditioned` (skipped) would never fail with the conditioning trace assigned, for distinct objects. -/
theorem C92_extend_conditioned (i1 i2 i3 i4 k1 k2 : ObjId) (w : World L) (h1 : w.cond i1 = none) (h3 : w.cond i3 = none) (h : i2 ≠ k2 ∧ i4 ≠ k2 ∧ i2 ≠ i4) : Passes (testExtendConditioned T i1 i2 i3 i4 k1 k2) w := by
  simp [testExtendConditioned, h1, h3, h, h.1.symm, h.2.1.symm]
  intros; simp_all

/-- C92. `test_extend_propose` (skipped): the call always returns, and its weight is that of the proposal's observations times the extended target over the whole proposal.
The test's assertions leave out the proposal's z_1, and divide by the kernel's density of it: they hold if and only if the two agree. -/
theorem C92_extend_propose (hd : ∀ x, L.detachW x = x) (i1 i2 i3 i4 k1 k2 k3 : ObjId) (w : World L) (h1 : w.cond i1 = none) (h3 : w.cond i3 = none) (h : i2 ≠ k2 ∧ i4 ≠ k2 ∧ i2 ≠ i4)
    (r : Except Err (Out L)) (w' : World L) (hr : Exec.Runs (extendPropose T i1 i2 i3 i4 k1 k2 k3) w r w') :
    ∃ o q p, r = .ok o ∧ sub o "q_out" = .ok q ∧ sub o "p_out" = .ok p ∧ keysAre p.trace ["z_2", "z_3", "x_2", "x_3", "z_1"] = true ∧
      o.logWeight.val = (joint q.trace ["x_1", "x_2", "x_3"]).val + (logJoint p.trace fun _ => true).val - (logJoint q.trace fun _ => true).val ∧
      (extendProposeAsserts o q (p.trace.filterKeys (· != "z_1")) (p.trace.filterKeys (· == "z_1")) p.logWeight ↔
        (joint q.trace ["z_1"]).val = (joint p.trace ["z_1"]).val) := by
  simp [extendPropose, h1, h3, h, h.1.symm, h.2.1.symm, hd] at hr
  obtain ⟨z1, z2, z3, e, -⟩ := hr
  subst e
  refine ⟨_, _, _, rfl, rfl, rfl, ?_, ?_, ?_⟩
  · simp
  · simp
    abel
  · simp [Dict.filterKeys, extendProposeAsserts]
    rw [← sub_eq_zero, ← sub_eq_zero (b := L.logProb (T.normal (T.onesTimes (T.num 1)) (T.ones 1)) z1)]
    refine Eq.congr_left ?_
    abel

/-- C92. They do agree in the test, as `Simple2` returns the number 1 and z_1 is proposed around 1: with the same numbers for `torch.ones(1) * tensor(1.0)` and `torch.ones(1)` the
test's assertions hold. -/
theorem C92_extend_propose_coincidence (hd : ∀ x, L.detachW x = x) (h1 : T.onesTimes (T.num 1) = T.ones 1) (i1 i2 i3 i4 k1 k2 k3 : ObjId) (w : World L)
    (hc : w.cond i1 = none) (h3 : w.cond i3 = none) (h : i2 ≠ k2 ∧ i4 ≠ k2 ∧ i2 ≠ i4)
    (r : Except Err (Out L)) (w' : World L) (hr : Exec.Runs (extendPropose T i1 i2 i3 i4 k1 k2 k3) w r w') :
    ∃ o q p, r = .ok o ∧ sub o "q_out" = .ok q ∧ sub o "p_out" = .ok p ∧
      extendProposeAsserts o q (p.trace.filterKeys (· != "z_1")) (p.trace.filterKeys (· == "z_1")) p.logWeight := by
  obtain ⟨o, q, p, e1, e2, e3, -, -, e4⟩ := C92_extend_propose T hd i1 i2 i3 i4 k1 k2 k3 w hc h3 h r w' hr
  refine ⟨o, q, p, e1, e2, e3, e4.2 ?_⟩
  simp [extendPropose, hc, h3, h, h.1.symm, h.2.1.symm, hd] at hr
  obtain ⟨z1, z2, z3, e, -⟩ := hr
  subst e
  simp at e1
  subst e1
  simp at e2 e3
  subst e2 e3
  simp [h1]

/-- C92: there are runs (on new objects): the tests can return. -/
example (v : L.V) (s : Store L) : ∃ w', Exec.Runs (testPrimitive T 0) { cond := fun _ => none, store := s } (.ok ()) w' := by
  simp [testPrimitive]
  exact ⟨v⟩

/-- C92: and the call of `test_extend_propose`. -/
example (v : L.V) (s : Store L) : ∃ r w', Exec.Runs (extendPropose T 1 2 3 4 5 6 7) { cond := fun _ => none, store := s } r w' := by
  simp [extendPropose]
  exact ⟨v⟩

end Tests
end Verif
