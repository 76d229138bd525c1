import Verif.Model.Program
/-
combinators/inference.py
-/
namespace Verif

/-- The `type` entry of an `Out` (combinators/program.py:111 stores a name; combinators/inference.py:145,234,300,433
store the class). -/
inductive OutTy where
  | program (name : String)
  | resample | extend | compose | propose
deriving DecidableEq

/-- The extra entries of a Propose result (combinators/inference.py:418-435). -/
structure ProposeX (L : Lang) where
  nodes : List String
  lv : LW L.W
  lw : L.W
  proposalTrace : Trace L
  targetTrace : Trace L
  forwardTrace : Option (Trace L)

/-- `Out` as the combinators build it (combinators/out.py:137-157): `loss`, `ix` and the marginal entries are absent for
some types. `subs` are the `*_out` entries added when debugging. -/
inductive Out (L : Lang) where
  | mk (trace : Trace L) (logWeight : LW L.W) (output : PyVal L) (type : OutTy) (ix : Option (PyVal L))
      (loss : Option L.Lo) (marginal : Option (List String × PyVal L)) (px : Option (ProposeX L))
      (subs : List (String × Out L))

namespace Out
variable {L : Lang}
def trace : Out L → Trace L | mk t _ _ _ _ _ _ _ _ => t
def logWeight : Out L → LW L.W | mk _ w _ _ _ _ _ _ _ => w
def output : Out L → PyVal L | mk _ _ o _ _ _ _ _ _ => o
def type : Out L → OutTy | mk _ _ _ t _ _ _ _ _ => t
def ix : Out L → Option (PyVal L) | mk _ _ _ _ i _ _ _ _ => i
def loss : Out L → Option L.Lo | mk _ _ _ _ _ l _ _ _ => l
/-- `(marginal_keys, marginal_out)` -/
def marginal : Out L → Option (List String × PyVal L) | mk _ _ _ _ _ _ m _ _ => m
def px : Out L → Option (ProposeX L) | mk _ _ _ _ _ _ _ p _ => p
def subs : Out L → List (String × Out L) | mk _ _ _ _ _ _ _ _ s => s
/-- `out["loss"] = l` -/
def setLoss (l : L.Lo) : Out L → Out L | mk t w o ty i _ m p s => mk t w o ty i (some l) m p s
/-- `out[..] = ..` for the debugging entries -/
def setSubs (s : List (String × Out L)) : Out L → Out L | mk t w o ty i l m p _ => mk t w o ty i l m p s

@[simp] theorem trace_mk (t : Trace L) (w o ty i l m p s) : (mk t w o ty i l m p s).trace = t := rfl
@[simp] theorem logWeight_mk (t : Trace L) (w o ty i l m p s) : (mk t w o ty i l m p s).logWeight = w := rfl
@[simp] theorem output_mk (t : Trace L) (w o ty i l m p s) : (mk t w o ty i l m p s).output = o := rfl
@[simp] theorem type_mk (t : Trace L) (w o ty i l m p s) : (mk t w o ty i l m p s).type = ty := rfl
@[simp] theorem ix_mk (t : Trace L) (w o ty i l m p s) : (mk t w o ty i l m p s).ix = i := rfl
@[simp] theorem loss_mk (t : Trace L) (w o ty i l m p s) : (mk t w o ty i l m p s).loss = l := rfl
@[simp] theorem marginal_mk (t : Trace L) (w o ty i l m p s) : (mk t w o ty i l m p s).marginal = m := rfl
@[simp] theorem px_mk (t : Trace L) (w o ty i l m p s) : (mk t w o ty i l m p s).px = p := rfl
@[simp] theorem subs_mk (t : Trace L) (w o ty i l m p s) : (mk t w o ty i l m p s).subs = s := rfl
@[simp] theorem setLoss_mk (t : Trace L) (w o ty i l m p s) (x : L.Lo) :
    (mk t w o ty i l m p s).setLoss x = mk t w o ty i (some x) m p s := rfl
@[simp] theorem setSubs_mk (t : Trace L) (w o ty i l m p s) (x : List (String × Out L)) :
    (mk t w o ty i l m p s).setSubs x = mk t w o ty i l m p x := rfl
end Out

/-- Attributes every combinator object has (combinators/inference.py:48-62), and its identity. -/
structure Attrs (L : Lang) where
  id : ObjId
  lossFn : Out L → L.Lo → Except Err L.Lo
  loss0 : L.Lo
  ix : PyVal L
  debug : Bool

/-- A resampler object: `resampler(trace, log_weight, sample_dims=.., batch_dim=..)`
(combinators/inference.py:118-124, combinators/resamplers.py:27-32). It may draw and raise. -/
abbrev ResamplerFn (L : Lang) :=
  PyVal L → PyVal L → Trace L → LW L.W → Comp L (Except Err (Trace L × LW L.W))

/-- Program and combinator objects. The children are Python object references: equal `ObjId`s mean the same object. -/
inductive Node (L : Lang) where
  | prog (id : ObjId) (s : ProgSpec L)
  | resample (a : Attrs L) (r : ResamplerFn L) (q : Node L)
  | extend (a : Attrs L) (p f : Node L)
  | compose (a : Attrs L) (q2 q1 : Node L)
  | propose (a : Attrs L) (transf : Trace L → Kw L → Except Err (Trace L)) (noReruns : Bool) (p q : Node L)

namespace Node
variable {L : Lang}

def id : Node L → ObjId
  | prog i _ => i
  | resample a _ _ | extend a _ _ | compose a _ _ | propose a _ _ _ _ => a.id

/-- Reading `obj._debug`: every combinator has it, a Program only if the user added it
(combinators/inference.py:60,430). `none` is AttributeError. -/
def debugAttr : Node L → Option Bool
  | prog _ s => s.debugAttr
  | resample a _ _ | extend a _ _ | compose a _ _ | propose a _ _ _ _ => some a.debug

/-- `isinstance(obj, Extend)` -/
def isExtend : Node L → Bool
  | extend .. => true
  | _ => false

/-- `isinstance(obj, Compose)` -/
def isCompose : Node L → Bool
  | compose .. => true
  | _ => false

/-- What `dispatch` can inspect. -/
def callable : Node L → Callable
  | prog _ s => .program moduleCallSpec programForwardSpec s.sig
  | _ => .function infCallSpec

end Node

/-- `lambda _, fin: fin` (combinators/inference.py:50,168,255,322). -/
def idLoss {L : Lang} : Out L → L.Lo → Except Err L.Lo := fun _ fin => .ok fin

/-- `Inf.__init__` (combinators/inference.py:48-62). -/
def mkAttrs {L : Lang} (id : ObjId) (lossFn : Option (Out L → L.Lo → Except Err L.Lo)) (loss0 : Option L.Lo)
    (ix : PyVal L) (debug : Bool) : Attrs L :=
  { id, lossFn := lossFn.getD idLoss, loss0 := loss0.getD 0, ix, debug }

/-- `Resample(q, ix, loss0, resampler, .., _debug)`; no loss function is passed (combinators/inference.py:77-93). -/
def mkResample {L : Lang} (id : ObjId) (r : ResamplerFn L) (q : Node L) (loss0 : Option L.Lo) (ix : PyVal L)
    (debug : Bool) : Node L :=
  .resample (mkAttrs id none loss0 ix debug) r q

/-- `Extend(p, f, loss_fn, loss0, ix, _debug)` (combinators/inference.py:164-176). -/
def mkExtend {L : Lang} (id : ObjId) (p f : Node L) (lossFn : Option (Out L → L.Lo → Except Err L.Lo))
    (loss0 : Option L.Lo) (ix : PyVal L) (debug : Bool) : Node L :=
  .extend (mkAttrs id lossFn loss0 ix debug) p f

/-- `Compose(q2, q1, loss_fn, loss0, ix, _debug)` (combinators/inference.py:251-262). -/
def mkCompose {L : Lang} (id : ObjId) (q2 q1 : Node L) (lossFn : Option (Out L → L.Lo → Except Err L.Lo))
    (loss0 : Option L.Lo) (ix : PyVal L) (debug : Bool) : Node L :=
  .compose (mkAttrs id lossFn loss0 ix debug) q2 q1

/-- `Propose(p, q, ..)` (combinators/inference.py:318-337). -/
def mkPropose {L : Lang} (id : ObjId) (p q : Node L) (lossFn : Option (Out L → L.Lo → Except Err L.Lo))
    (loss0 : Option L.Lo) (ix : PyVal L) (transf : Option (Trace L → Kw L → Except Err (Trace L)))
    (debug : Bool) (noReruns : Bool) : Except Err (Node L) :=
  if p.isCompose then .error .assertion
  else .ok (.propose (mkAttrs id lossFn loss0 ix debug) (transf.getD fun t _ => .ok t) noReruns p q)

section
variable {L : Lang}

/-- `self.ix if self.ix is not None else ix` (combinators/inference.py:107,190,276,362). -/
def pickIx (own passed : PyVal L) : PyVal L :=
  match own with
  | .none => passed
  | x => x

/-- `dict(_debug=_debug, ix=ix, **shape_kwargs)` with the chosen `ix`, and `**shared_kwargs`
(combinators/inference.py:106-116,189-203,275-287,361-374). The `_debug` passed on is the call's, not the object's. -/
def childKw (a : Attrs L) (kw : Kw L) : Kw L := { kw with ix := pickIx a.ix kw.ix }

/-- `out["loss"] = self.foldr_loss(out, self.loss0 if "loss" not in sub else sub["loss"])`
(combinators/inference.py:153-155,239-241,306-308,438-440). -/
def foldLoss (a : Attrs L) (out sub : Out L) : Except Err (Out L) :=
  match a.lossFn out (sub.loss.getD a.loss0) with
  | .ok l => .ok (out.setLoss l)
  | .error e => .error e

/-- `isinstance(v, torch.Tensor)` -/
def isTensor : PyVal L → Bool
  | .tensor _ => true
  | _ => false

/-- `c2[rs_out_addr] = tr_2[rs_out_addr].value`, for one entry of the output (combinators/inference.py:134-138). -/
def resampleEntry (tr2 : Trace L) (e : String × PyVal L) : PyVal L :=
  match tr2.get? e.1 with
  | some rv => .tensor rv.value
  | none => e.2

/-- The resampled outputs (combinators/inference.py:132-138): the output must be a dict, and each entry named like a
trace entry must be a tensor and is replaced by the trace's value. -/
def resampleOutput (c1 : PyVal L) (tr2 : Trace L) : Except Err (PyVal L) :=
  match c1 with
  | .dict kvs =>
    if kvs.any (fun e => tr2.contains e.1 && !isTensor e.2) then .error .assertion
    else .ok (.dict (kvs.map fun e => (e.1, resampleEntry tr2 e)))
  | _ => .error .assertion

/-- The part of Resample's `__call__` after the call to `q` (combinators/inference.py:118-160). -/
def resampleRest (a : Attrs L) (r : ResamplerFn L) (kw : Kw L) (qOut : Out L) : Exec L (Out L) := do
  let (tr2, lw2) ← Exec.liftComp (r kw.sampleDims kw.batchDim qOut.trace qOut.logWeight)
  let c2 ← Exec.lift (resampleOutput qOut.output tr2)
  Exec.onStore (·.resampleUpdate qOut.trace tr2)
  let out := Out.mk tr2 lw2 c2 .resample (some (pickIx a.ix kw.ix)) none none none []
  let out ← Exec.lift (foldLoss a out qOut)
  return if kw.debug || a.debug then out.setSubs [("q_out", qOut)] else out

/-- `f_out.log_weight == 0.0` as an asserted condition (combinators/inference.py:206). -/
def zeroWeight (lw : LW L.W) : Bool :=
  match lw with
  | .float0 => true
  | .tensor w => L.isZero w

/-- The two assertions on the kernel's result (combinators/inference.py:205-214). `assert w == 0.0` on a tensor that
is not a single zero raises; AssertionError stands for both that and torch's RuntimeError for several elements. -/
def extendCheckF (cond : Option (Trace L)) (fOut : Out L) : Except Err Unit :=
  match cond with
  | none =>
    if !(zeroWeight fOut.logWeight) then .error .assertion
    else if fOut.trace.entries.any (fun e => e.2.prov == .observed || e.2.prov == .reused) then .error .assertion
    else .ok ()
  | some _ =>
    if fOut.trace.entries.any (fun e => e.2.prov == .observed) then .error .assertion else .ok ()

/-- `len(set(a.keys()).intersection(set(b.keys()))) == 0` (combinators/inference.py:217,292). -/
def disjointKeys (a b : Trace L) : Bool := a.keys.all (fun k => !b.contains k)

/-- The part of Extend's `__call__` after the calls to `p` and `f` (combinators/inference.py:205-247). `cond` is
`self._cond_trace` as read on line 205. -/
def extendRest (a : Attrs L) (kw : Kw L) (cond : Option (Trace L)) (pOut fOut : Out L) : Except Err (Out L) := do
  extendCheckF cond fOut
  if !disjointKeys fOut.trace pOut.trace then .error .assertion
  let logU2 := logJoint fOut.trace (tauAddrs fOut.trace)
  let tr ← copytraces .firstWriteWins (fun _ => false) [pOut.trace, fOut.trace]
  let out := Out.mk tr (pOut.logWeight.add logU2) fOut.output .extend (some (pickIx a.ix kw.ix)) none
    (some (pOut.trace.keys, pOut.output)) none []
  let out ← foldLoss a out pOut
  return if kw.debug || a.debug then out.setSubs [("p_out", pOut), ("f_out", fOut)] else out

/-- The part of Compose's `__call__` after the calls to `q1` and `q2` (combinators/inference.py:289-314). -/
def composeRest (a : Attrs L) (kw : Kw L) (q1Out q2Out : Out L) : Except Err (Out L) := do
  let tr ← copytraces .lastWriteWins (fun _ => false) [q2Out.trace, q1Out.trace]
  if !disjointKeys q2Out.trace q1Out.trace then .error .assertion
  let out := Out.mk tr (q1Out.logWeight.add q2Out.logWeight) q2Out.output .compose (some (pickIx a.ix kw.ix))
    none none none []
  let out ← foldLoss a out q1Out
  return if kw.debug || a.debug then out.setSubs [("q1_out", q1Out), ("q2_out", q2Out)] else out

/-- `rho_1 - (tau_1 - tau_2)` (combinators/inference.py:376-384). -/
def proposeNodes (q p : Trace L) (k : String) : Bool :=
  q.contains k && !(tauAddrs q k && !tauAddrs p k)

/-- `Propose.marginalize` (combinators/inference.py:339-348): output and trace. `"marginal_keys" in p_out` is asserted
for an Extend. -/
def marginalize (p : Node L) (pOut : Out L) : Except Err (PyVal L × Trace L) :=
  if p.isExtend then
    match pOut.marginal with
    | some (keys, mOut) => do
      let tr ← copytraces .noOverlaps (fun k => pOut.trace.contains k && !keys.contains k) [pOut.trace]
      return (mOut, tr)
    | none => .error .assertion
  else .ok (pOut.output, pOut.trace)

/-- Detaching the output, one dict level deep (combinators/inference.py:398-409). -/
def detachOutput (m : PyVal L) : PyVal L :=
  match m with
  | .tensor v => .tensor (L.detachV v)
  | .dict kvs => .dict (kvs.map fun e => (e.1, match e.2 with | .tensor v => .tensor (L.detachV v) | x => x))
  | x => x

/-- `lw_out.detach()`: a float has no such attribute (combinators/inference.py:416). -/
def detachLW (lw : LW L.W) : Except Err (LW L.W) :=
  match lw with
  | .tensor w => .ok (.tensor (L.detachW w))
  | .float0 => .error .attribute

/-- `lw_1.detach() if isinstance(lw_1, torch.Tensor) else torch.tensor(lw_1)` (combinators/inference.py:423-425). -/
def incomingLw (lw : LW L.W) : L.W :=
  match lw with
  | .tensor w => L.detachW w
  | .float0 => 0

/-- `q_out.q2_out.trace if self.q._debug and q_out.type == Compose else None` (combinators/inference.py:429-431). -/
def forwardTrace (q : Node L) (qOut : Out L) : Except Err (Option (Trace L)) :=
  match q.debugAttr with
  | none => .error .attribute
  | some false => .ok none
  | some true =>
    if qOut.type = .compose then
      match getL qOut.subs "q2_out" with
      | some o => .ok (some o.trace)
      | none => .error .attribute
    else .ok none

/-- The part of Propose's `__call__` after the calls to `q` and `p` (combinators/inference.py:376-446). -/
def proposeRest (a : Attrs L) (transf : Trace L → Kw L → Except Err (Trace L)) (noReruns : Bool) (p q : Node L)
    (kw : Kw L) (qOut pOut : Out L) : Except Err (Out L) := do
  let nodes := proposeNodes qOut.trace pOut.trace
  let qTrace ← transf qOut.trace { childKw a kw with shared := [] }
  let lu1 := logJoint qTrace nodes
  let lw1 := qOut.logWeight
  let lv := pOut.logWeight.sub lu1
  let lwOut := lw1.add lv
  let (mOut, mTrace) ← marginalize p pOut
  let newOut := detachOutput mOut
  let tr ← (if noReruns then .ok mTrace else rerunDetached mTrace : Except Err (Trace L))
  let lw ← detachLW lwOut
  let propTr ← copytrace1 qOut.trace
  let targTr ← copytrace1 pOut.trace
  let fwd ← forwardTrace q qOut
  let px : ProposeX L :=
    { nodes := qOut.trace.keys.filter nodes, lv := lv, lw := incomingLw lw1,
      proposalTrace := propTr, targetTrace := targTr, forwardTrace := fwd }
  let out := Out.mk tr lw newOut .propose (some (pickIx a.ix kw.ix)) none none (some px) []
  let out ← foldLoss a out qOut
  return if kw.debug || a.debug then out.setSubs [("q_out", qOut), ("p_out", pOut)] else out

/-- `dispatch(obj, c, **kwargs)` / `obj(c, **kwargs)` for program and combinator objects:
`Program.__call__` (combinators/program.py:60-112) and the four `__call__`s of combinators/inference.py. -/
def eval : Node L → PyVal L → Kw L → Exec L (Out L)
  | .prog i s, c, kw => do
    let cond ← Exec.getCond i
    let (t, lw, o) ← programForward s cond c kw.sampleDims kw.batchDim kw.reparam
      ([("_debug", .bool kw.debug), ("ix", kw.ix)] ++ kw.shared)
    return Out.mk t lw o (.program s.name) none none none none []
  | .resample a r q, c, kw => do
    -- called directly, not through `dispatch` (combinators/inference.py:116)
    let qOut ← eval q c (childKw a kw)
    resampleRest a r kw qOut
  | .extend a p f, c, kw => do
    let cond ← Exec.getCond a.id
    let (pOut, fOut) ← Exec.withSub p.id cond (do
      let cond' ← Exec.getCond a.id
      Exec.withSub f.id cond' (do
        let pOut ← eval p c (dispatchKw p.callable (childKw a kw))
        let fOut ← eval f pOut.output (dispatchKw f.callable (childKw a kw))
        return (pOut, fOut)))
    let cond'' ← Exec.getCond a.id
    Exec.lift (extendRest a kw cond'' pOut fOut)
  | .compose a q2 q1, c, kw => do
    let q1Out ← eval q1 c (dispatchKw q1.callable (childKw a kw))
    let q2Out ← eval q2 q1Out.output (dispatchKw q2.callable (childKw a kw))
    Exec.lift (composeRest a kw q1Out q2Out)
  | .propose a transf noReruns p q, c, kw => do
    let qOut ← eval q c (dispatchKw q.callable (childKw a kw))
    let pOut ← Exec.withSub p.id (some qOut.trace) (eval p c (dispatchKw p.callable (childKw a kw)))
    Exec.lift (proposeRest a transf noReruns p q kw qOut pOut)

end
end Verif
