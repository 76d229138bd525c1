import Verif.Model.Inference
/-
tests/test_inference.py: its programs and its tests, as code that may raise AssertionError. Tensors are compared by their numbers; the shape `()` and `(1,)` are not
distinguished.
-/
namespace Verif
namespace Tests
variable {L : Lang}

/-- What the test programs take from torch: `torch.ones(1) * k`, `torch.tensor(k)`, `torch.ones(1) * c` for a tensor `c`, and `Normal(loc, scale)`. -/
structure Torch (L : Lang) where
  ones : Nat → L.V
  num : Nat → L.V
  onesTimes : L.V → L.V
  normal : L.V → L.V → L.D

/-- `def model(self, trace, c)`, with or without a default for `c`. -/
def sig : ArgSpec := { args := ["self", "trace", "c"], varargs := false, kwonly := [], varkw := false }

/-- `Simple1` (tests/test_inference.py:20-49). -/
def simple1 (T : Torch L) : ProgSpec L where
  name := "Simple1"
  sig := sig
  debugAttr := none
  model _ _ :=
    .variable "z_1" (T.normal (T.ones 1) (T.ones 1)) none none false fun z1 =>
    .variable "z_2" (T.normal (T.ones 2) (T.ones 2)) none none false fun z2 =>
    .variable "x_1" (T.normal (T.ones 1) (T.ones 1)) (some z1) none false fun _ =>
    .variable "x_2" (T.normal (T.ones 1) (T.ones 1)) (some z2) none false fun _ =>
    .ret (.tensor (T.num 3))

/-- `Simple2` (tests/test_inference.py:52-84). -/
def simple2 (T : Torch L) : ProgSpec L where
  name := "Simple2"
  sig := sig
  debugAttr := none
  model _ _ :=
    .variable "z_2" (T.normal (T.ones 2) (T.ones 2)) none none false fun z2 =>
    .variable "z_3" (T.normal (T.ones 3) (T.ones 3)) none none false fun z3 =>
    .variable "x_2" (T.normal (T.ones 1) (T.ones 1)) (some z2) none false fun _ =>
    .variable "x_3" (T.normal (T.ones 1) (T.ones 1)) (some z3) none false fun _ =>
    .ret (.tensor (T.num 1))

/-- `Simple3` (tests/test_inference.py:87-104). `torch.ones(1) * c` raises TypeError for None, strings, dicts, .. (numbers are not used as inputs in the tests). -/
def simple3 (T : Torch L) : ProgSpec L where
  name := "Simple3"
  sig := sig
  debugAttr := none
  model c _ :=
    match c with
    | .tensor v =>
      .variable "z_3" (T.normal (T.onesTimes v) (T.ones 3)) none none false fun z3 =>
      .variable "x_3" (T.normal (T.ones 1) (T.ones 1)) (some z3) none false fun _ =>
      .ret .none
    | _ => .raise .type

/-- `Simple4` (tests/test_inference.py:107-117). -/
def simple4 (T : Torch L) : ProgSpec L where
  name := "Simple4"
  sig := sig
  debugAttr := none
  model c _ :=
    match c with
    | .tensor v => .variable "z_1" (T.normal (T.onesTimes v) (T.ones 1)) none none false fun _ => .ret .none
    | _ => .raise .type

/-- `set(t.keys()) == {..}` -/
def keysAre (t : Trace L) (s : List String) : Bool := t.keys.all s.contains && s.all t.contains

/-- `t.log_joint(nodes={..})` -/
def joint (t : Trace L) (s : List String) : LW L.W := logJoint t s.contains

/-- `a == b` -/
noncomputable def same (a b : LW L.W) : Bool := open Classical in decide (a.val = b.val)

/-- `torch.equal(a, b)`: TypeError for floats. -/
noncomputable def torchEqual : LW L.W → LW L.W → Except Err Bool
  | .tensor a, .tensor b => .ok (open Classical in decide (a = b))
  | _, _ => .error .type

/-- `out.q_out` and the like: AttributeError if there is no such entry. -/
def sub (o : Out L) (k : String) : Except Err (Out L) :=
  match getL o.subs k with
  | some x => .ok x
  | none => .error .attribute

/-- `obj._cond_trace = t` -/
def setCondTrace (i : ObjId) (t : Trace L) : Exec L Unit := fun w => .ret (.ok (), w.setCond i (some t))

/-- `_debug=True`. -/
def dbg : Kw L := { debug := true }

/-- `test_run_a_primitive_program` (tests/test_inference.py:125-128). -/
noncomputable def testPrimitive (T : Torch L) (i : ObjId) : Exec L Unit := do
  let o ← eval (.prog i (simple1 T)) .none {}
  Exec.assert (keysAre o.trace ["z_1", "z_2", "x_1", "x_2"])
  Exec.assert (same o.logWeight (joint o.trace ["x_1", "x_2"]))

/-- `test_cond_eval` (tests/test_inference.py:131-145; skipped there, as `Condition` no longer exists: NameError). Here the conditioning trace is assigned. -/
noncomputable def testCondEval (T : Torch L) (i j : ObjId) : Exec L Unit := do
  let s1 ← eval (.prog i (simple1 T)) .none {}
  setCondTrace j s1.trace
  let s2 ← eval (.prog j (simple2 T)) .none {}
  Exec.assert (same (joint s2.trace ["x_2", "x_3", "z_2"]) s2.logWeight)
  Exec.assert (!s2.trace.contains "z_1" && !s2.trace.contains "x_1")

/-- `test_propose` (tests/test_inference.py:148-166, skipped there); `s1` is `Simple1()`. -/
noncomputable def testPropose (T : Torch L) (s1 : ProgSpec L) (i j k : ObjId) : Exec L Unit := do
  let q ← Exec.lift (mkPropose k (.prog j (simple2 T)) (.prog i s1) none none .none none false true)
  let o ← eval q .none dbg
  let qOut ← Exec.lift (sub o "q_out")
  let pOut ← Exec.lift (sub o "p_out")
  Exec.assert (keysAre qOut.trace ["z_1", "z_2", "x_1", "x_2"])
  Exec.assert (keysAre pOut.trace ["z_2", "z_3", "x_2", "x_3"])
  let lu1 := joint qOut.trace ["x_1", "x_2", "z_2"]
  let lv := pOut.logWeight.sub (lu1.add (.tensor 0))
  let b ← Exec.lift (torchEqual (qOut.logWeight.add lv) o.logWeight)
  Exec.assert b

/-- `test_compose` (tests/test_inference.py:169-177). -/
noncomputable def testCompose (T : Torch L) (i j k : ObjId) : Exec L Unit := do
  let o ← eval (mkCompose k (.prog j (simple3 T)) (.prog i (simple1 T)) none none .none false) .none dbg
  Exec.assert (keysAre o.trace ["x_1", "x_2", "x_3", "z_1", "z_2", "z_3"])
  let q1 ← Exec.lift (sub o "q1_out")
  let q2 ← Exec.lift (sub o "q2_out")
  let b ← Exec.lift (torchEqual q1.logWeight (joint q1.trace ["x_1", "x_2"]))
  Exec.assert b
  let b ← Exec.lift (torchEqual q2.logWeight (joint q2.trace ["x_3"]))
  Exec.assert b
  let b ← Exec.lift (torchEqual o.logWeight (q1.logWeight.add q2.logWeight))
  Exec.assert b

/-- `test_extend_unconditioned` (tests/test_inference.py:180-187, skipped there), without the assertions about the trace: those say that the kernel's variables are in
`out.trace_star`, which no longer exists, and not in `out.trace`. -/
noncomputable def testExtend (T : Torch L) (i j k : ObjId) : Exec L Unit := do
  let o ← eval (mkExtend k (.prog i (simple2 T)) (.prog j (simple4 T)) none none .none false) .none dbg
  let p ← Exec.lift (sub o "p_out")
  let f ← Exec.lift (sub o "f_out")
  let b ← Exec.lift (torchEqual o.logWeight (p.logWeight.add (logJoint f.trace fun _ => true)))
  Exec.assert b

/-- `test_extend_unconditioned`: its first assertion. -/
def testExtendKeys (T : Torch L) (i j k : ObjId) : Exec L Unit := do
  let o ← eval (mkExtend k (.prog i (simple2 T)) (.prog j (simple4 T)) none none .none false) .none dbg
  Exec.assert (keysAre o.trace ["x_2", "x_3", "z_2", "z_3"])

/-- `test_extend_conditioned` (tests/test_inference.py:190-218; skipped there, as `Condition` no longer exists). Here the conditioning trace is assigned. -/
noncomputable def testExtendConditioned (T : Torch L) (i1 i2 i3 i4 k1 k2 : ObjId) : Exec L Unit := do
  let q ← eval (mkCompose k1 (.prog i3 (simple3 T)) (.prog i1 (simple1 T)) none none .none false) .none dbg
  setCondTrace k2 q.trace
  let o ← eval (mkExtend k2 (.prog i2 (simple2 T)) (.prog i4 (simple4 T)) none none .none false) .none dbg
  Exec.assert (keysAre q.trace ["z_1", "z_2", "z_3", "x_2", "x_3", "x_1"])
  let p ← Exec.lift (sub o "p_out")
  let f ← Exec.lift (sub o "f_out")
  Exec.assert (keysAre p.trace ["z_2", "z_3", "x_2", "x_3"])
  let lw1 := joint p.trace ["z_2", "z_3", "x_2", "x_3"]
  Exec.assert (same lw1 (logJoint p.trace fun _ => true))
  Exec.assert (same lw1 p.logWeight)
  Exec.assert (keysAre f.trace ["z_1"])
  let lw2 := logJoint f.trace fun _ => true
  Exec.assert (same lw2 f.logWeight)
  Exec.assert (same (lw1.add lw2) o.logWeight)

/-- The call of `test_extend_propose` (tests/test_inference.py:221-228, skipped there). -/
def extendPropose (T : Torch L) (i1 i2 i3 i4 k1 k2 k3 : ObjId) : Exec L (Out L) := do
  let q ← Exec.lift (mkPropose k3 (mkExtend k2 (.prog i2 (simple2 T)) (.prog i4 (simple4 T)) none none .none false)
    (mkCompose k1 (.prog i3 (simple3 T)) (.prog i1 (simple1 T)) none none .none false) none none .none none false true)
  eval q .none dbg

/-- The assertions of `test_extend_propose` (tests/test_inference.py:229-259), all of them: `q` is `out.q_out`; `star` is what the test calls `out.p_out.trace_star`, which no
longer exists, and `p` the rest of `out.p_out.trace`; `pWeight` is `out.p_out.log_weight`. -/
def extendProposeAsserts (o q : Out L) (p star : Trace L) (pWeight : LW L.W) : Prop :=
  let lw1 := (joint q.trace ["x_1", "x_2"]).add (joint q.trace ["x_3"])
  let lw2 := (joint p ["z_2", "z_3", "x_2", "x_3"]).add (joint star ["z_1"])
  let lu1 := joint q.trace ["x_2", "x_3", "x_1", "z_2", "z_3"]
  let luStar := joint star ["z_1"]
  keysAre q.trace ["z_1", "z_2", "z_3", "x_2", "x_3", "x_1"] = true ∧ lw1.val = q.logWeight.val ∧
    keysAre p ["z_2", "z_3", "x_2", "x_3"] = true ∧ keysAre star ["z_1"] = true ∧ lw2.val = pWeight.val ∧
    (lw1.add (lw2.sub (lu1.add luStar))).val = o.logWeight.val

end Tests
end Verif
