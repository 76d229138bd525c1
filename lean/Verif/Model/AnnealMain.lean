import Verif.Model.Annealing
/-
experiments/annealing/main.py: nvi_test, and the quantities nvi_train watches.
-/
namespace Verif
variable {L : Lang}

/-- What `nvi_test` returns (experiments/annealing/main.py:116): per step the loss, the effective sample size and the evidence
estimate, the named samples, and the result itself. `lw` is what the two metrics are computed from. -/
structure TestReport (L : Lang) (R : Type) where
  lw : List L.W
  loss : List L.Lo
  ess : List R
  lZHat : List R
  samples : List (String × L.V)
  out : Out L

/-- `proposal_traces[t]["g{}".format(t + 1)].value` with its name (experiments/annealing/main.py:112-115). -/
def sampleOf (r : StatRow L) (t : Nat) : Except Err (String × L.V) :=
  match r.proposalTrace.get? ("g" ++ toString (t + 1)) with
  | some rv => .ok ("g" ++ toString (t + 1), rv.value)
  | none => .error .key

/-- The part of `nvi_test` after the call (experiments/annealing/main.py:105-116). `ess` and `lz` are `effective_sample_size` and
`log_Z_hat` along the sample dimension of one row: stacking adds a dimension in front, hence `sample_dims + 1`. All rows have the
same shape, so that stacking does not fail. -/
def testReport {R : Type} (ess lz : L.W → R) (out : Out L) : Except Err (TestReport L R) := do
  let rows ← getStats out
  let samples ← rows.zipIdx.mapM fun e => sampleOf e.1 e.2
  return { lw := rows.map (·.lw.val), loss := rows.map (·.loss), ess := rows.map fun r => ess r.lw.val,
           lZHat := rows.map fun r => lz r.lw.val, samples, out }

/-- `nvi_test(vsmc_program, sample_shape, batch_dim, sample_dims)` (experiments/annealing/main.py:97-116). `kw` has the sample shape and
the dimensions; the call is made with the input None and `_debug=True`. -/
def nviTest {R : Type} (ess lz : L.W → R) (nd : Node L) (kw : Kw L) : Exec L (TestReport L R) :=
  Exec.bind (eval nd .none { kw with debug := true }) fun out => Exec.lift (testReport ess lz out)

/-- The log weight `nvi_train` computes its progress from (experiments/annealing/main.py:65): `out.type` is a class, never equal to
the string "Resample", so that it is always `out.log_weight`. -/
def trainLw (out : Out L) : LW L.W := out.logWeight

end Verif
