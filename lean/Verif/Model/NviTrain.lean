import Verif.Model.AnnealMain
/-
experiments/annealing/main.py: nvi_train.
-/
namespace Verif
variable {L : Lang} {Θ : Type}

/-- What `nvi_train` works on. `Θ` are the parameters of the targets and kernels and the state of the optimiser. -/
structure Trainer (L : Lang) (Θ : Type) where
  /-- `q` as it behaves with the given parameters -/
  q : Θ → Node L
  /-- `optimizer.zero_grad(); loss.backward(); optimizer.step()` for the mean of `out.loss` -/
  update : Θ → Out L → Except Err Θ
  /-- whether the effective sample size of a log weight is a single number, so that `.item()` returns: one batch element -/
  single : L.W → Bool

/-- One round of the loop (experiments/annealing/main.py:53-89): the call, the optimiser's step, the numbers for the progress bar, the
statistics. `out.loss` is missing in the result of a Program, and a float has no effective sample size. -/
def trainRound (T : Trainer L Θ) (kw : Kw L) (θ : Θ) : Exec L (Θ × List (StatRow L)) :=
  Exec.bind (eval (T.q θ) .none { kw with debug := true }) fun out => Exec.lift <|
    match out.loss, trainLw out with
    | none, _ => .error .attribute
    | some _, .float0 => .error .type
    | some _, .tensor lw =>
      match T.update θ out with
      | .error e => .error e
      | .ok θ' =>
        if T.single lw then
          match getStats out with
          | .error e => .error e
          | .ok rows => .ok (θ', rows)
        else .error .value

/-- The loop (experiments/annealing/main.py:52-89): the rows of every iteration. -/
def trainRounds (T : Trainer L Θ) (kw : Kw L) : Nat → Θ → Exec L (Θ × List (List (StatRow L)))
  | 0, θ => Exec.pure (θ, [])
  | n + 1, θ =>
    Exec.bind (trainRound T kw θ) fun r => Exec.bind (trainRounds T kw n r.1) fun rs => Exec.pure (rs.1, r.2 :: rs.2)

/-- What `nvi_train` returns besides `q` (experiments/annealing/main.py:91-93): per iteration and step the loss, the effective sample size and the
evidence estimate; and the parameters that `q` has then. -/
structure TrainReport (L : Lang) (Θ R : Type) where
  params : Θ
  loss : List (List L.Lo)
  ess : List (List R)
  lZHat : List (List R)

/-- `nvi_train(q, targets, forwards, reverses, sample_shape, batch_dim, sample_dims, iterations)` (experiments/annealing/main.py:26-94). The first call
only serves to find shapes. Creating the optimiser does not raise (see `Model/Adam`); the tensors of an iteration have the shapes of the first
call's, so that they fit into their place in `full_losses` and `full_lws`; `sample_dims=2` is the sample dimension of a row there if it was
dimension 0. A negative number of iterations raises and is not modelled. -/
def nviTrain {R : Type} (ess lz : L.W → R) (T : Trainer L Θ) (kw : Kw L) (iterations : Nat) (θ : Θ) : Exec L (TrainReport L Θ R) :=
  Exec.bind (eval (T.q θ) .none { kw with debug := true }) fun out => Exec.bind (Exec.lift (getStats out)) fun _ =>
    Exec.bind (trainRounds T kw iterations θ) fun r => Exec.pure
      { params := r.1, loss := r.2.map fun rows => rows.map (·.loss), ess := r.2.map fun rows => rows.map fun x => ess x.lw.val,
        lZHat := r.2.map fun rows => rows.map fun x => lz x.lw.val }

end Verif
