import Verif.Model.Annealing
import Verif.Model.TestSuite
/-
tests/test_annealing.py: nested variational inference written out without combinators.
-/
namespace Verif
namespace Tests
variable {L : Lang}

/-- `out.trace[name]` -/
def rvOf (o : Out L) (name : String) : Except Err (RV L) :=
  match o.trace.get? name with
  | some rv => .ok rv
  | none => .error .key

/-- What `compute_nvi_weight` returns (tests/test_annealing.py:174). -/
structure NviOut (L : Lang) where
  lw : LW L.W
  lwBefore : LW L.W
  trace : Trace L
  target : Out L
  proposal : Out L
  forward : Out L
  reverse : Out L

/-- `compute_nvi_weight` (tests/test_annealing.py:124-174); `a` and `b` are `proposal.name` and `target.name`. The resampler is `Systematic()`, here a parameter. -/
def computeNviWeight (proposal target forward reverse : Node L) (a b : String) (lwIn : LW L.W) (resample : Option (ResamplerFn L)) (kw : Kw L) : Exec L (NviOut L) := do
  let g0 ← eval proposal .none kw
  let g0rv ← Exec.lift (rvOf g0 a)
  let f12 ← eval forward (outDict a g0rv.value) kw
  let f12rv ← Exec.lift (rvOf f12 b)
  setCondTrace target.id f12.trace
  let g1 ← eval target .none kw
  let g1rv ← Exec.lift (rvOf g1 b)
  setCondTrace reverse.id g0.trace
  let r21 ← eval reverse (outDict b g1rv.value) kw
  let r21rv ← Exec.lift (rvOf r21 a)
  let lw := (LW.tensor ((g1rv.logProb + r21rv.logProb) - (g0rv.logProb + f12rv.logProb))).add lwIn
  match resample with
  | none => return ⟨lw, lw, g1.trace, g1, g0, f12, r21⟩
  | some r => do
    let (t, lw') ← Exec.liftComp (r kw.sampleDims kw.batchDim g1.trace lw)
    return ⟨lw', lw, t, g1, g0, f12, r21⟩

/-- `targets[k]._cond_trace = copytraces(cond_trace) if cond_trace is not None else None` (tests/test_annealing.py:60-62) -/
def setCondCopy (i : ObjId) (t : Option (Trace L)) : Exec L Unit :=
  match t with
  | none => fun w => .ret (.ok (), w.setCond i none)
  | some t => do
    let t ← Exec.lift (copytrace1 t)
    setCondTrace i t

/-- The loop of `test_K_step_nvi` (tests/test_annealing.py:59-84): after `K` steps the conditioning trace, the log weight, and what the calls returned. -/
def nviLoop (targets forwards reverses : Nat → Node L) (name : Nat → String) (resample : Option (ResamplerFn L)) (kw : Kw L) :
    Nat → Exec L (Option (Trace L) × LW L.W × List (NviOut L))
  | 0 => pure (none, .float0, [])
  | k + 1 => do
    let (cond, lw, outs) ← nviLoop targets forwards reverses name resample kw k
    setCondCopy (targets k).id cond
    let o ← computeNviWeight (targets k) (targets (k + 1)) (forwards k) (reverses k) (name k) (name (k + 1)) lw resample kw
    return (some o.trace, o.lw, outs ++ [o])

/-- `stats["lw"][-(k + 1)]` (tests/test_annealing.py:98) -/
def statLw (rows : List (StatRow L)) (k : Nat) : Except Err (LW L.W) :=
  match rows.reverse[k]? with
  | some r => .ok r.lw
  | none => .error .index

end Tests
end Verif
