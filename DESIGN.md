# Formal model of probtorch/combinators in Lean 4

## 1. Shape of the development

`lean/Verif/Model/` is a model of the code, function by function; each definition cites the file and lines it was written from and
says where it simplifies. `lean/Verif/Spec/` holds the independent specifications the properties are stated in.
`lean/Verif/Proofs/` are lemmas. `lean/Verif/Props/` are the property theorems (`Cxx_...`), each file with concrete non-trivial cases
that meet the hypotheses. `properties.jsonl` has the properties in English, `MANIFEST.json` which theorems prove them,
`seeded/LOG.jsonl` the realistic wrong programs the theorems were tested against.

Basic decisions:

* **Values, distributions, weights** are a parameter `Lang` of the combinators: types of tensors `V`, log weights `W` (a commutative
  group), distributions `D`, losses `Lo` (a commutative monoid), uniform offsets `U`, with `logProb`, `detach` as functions. The
  combinator properties hold for every `Lang`. Properties about numbers instantiate it: `TLang` (tensors indexed by particle and batch
  element over the reals), `PLang` (one particle, real log weights), `PopLang` (tensors of independently drawn particles).
* **A model** (`Program.model`) is an arbitrary terminating interaction tree `MTree`: it may branch on every value it samples, on the
  conditioning trace, on its own trace and on the global store, and may raise anywhere.
* **Randomness** is a free monad `Comp` of draws and uniform offsets. "For every random outcome" is a quantifier over its leaves;
  expectations are folds over the same tree.
* **State**: the `_cond_trace` slots are indexed by object identity (`ObjId`), so objects can be shared and slots left behind; the
  global store is a dict. Exceptions are results, with the state at the point of the exception.
* **Combinator graphs** are `Node`s; `eval` is the code's evaluator with mutable slots, `evalP` the pure one (C05 relates them).

## 2. What is modelled

| file in /repo | modelled (module) | not modelled |
|---|---|---|
| `combinators/inference.py` | `Inf`, `Resample`, `Extend`, `Compose`, `Propose`, `marginalize`, loss folding, `_debug`, `ix` (`Model/Inference`) | `__repr__` |
| `combinators/program.py` | `Conditionable`, `WithSubstitution`, `Program.forward`, `check_passable_kwarg`, `dispatch` (`Model/Program`, slots in `Model/Comp`) | class hierarchy of `nn.Module` |
| `combinators/resamplers.py` | `Systematic.__call__`, `ancestor_indices_systematic`, `Resampler.pick` (`Model/Resampler` numbers, `Model/Shapes` shapes, `Model/TensorResampler` on tensors, `Model/FloatResampler` in floating point) | device placement |
| `tests/` | test_inference.py (`Model/TestSuite`), test_resamplers.py (`Props/TestResamplers`), `compute_nvi_weight` and the loop of test_annealing.py (`Model/TestAnnealing`) | test_adhoc_programs.py (a string), fixtures |
| `combinators/out.py` | `PropertyDict`, `show_nest`, `GlobalStore`, `Out` (`Model/Out`, `Model/Store`) | `GlobalStore.__repr__` |
| `combinators/metrics.py` | all (`Model/Metrics`; on tensors `Model/TensorMetrics`; in floating point `Model/FloatMetrics`) | |
| `combinators/trace/utils.py` | `maybe_sample`, `valeq`, `trace_eq`, `WriteMode`, `copytraces`, `rerun_with_detached_values`, `distprops*` as far as used (`Model/Core`, `Model/Annealing`), `show*` (`Model/Display`) | |
| `combinators/utils.py` | `save_models`, `load_models`, `models_as_dict`, `propagate` (`Model/Utils`, `Model/Propagate`), `adam` with the registration of parameters (`Model/Adam`), `ppr_show` (`Model/Display`) | what `Adam.step` does, `git_root`, `runtime`, `seed`, `exit0`, `is_smoketest` |
| `combinators/tensor/utils.py` | all (`Model/Display`) | what is hashed, numpy arrays |
| `experiments/annealing/models.py` | `Density`, `Distribution`, `ConditionalMultivariateNormal.model` (`Model/Annealing`), `Tempered`, `GMM` density, `RingGMM`, `anneal_between`, `paper_model` (`Model/Path`; in floating point `Model/FloatPath`), `ResMLPJ` and new kernels (`Model/Kernel`), the model of the paper with its parameters (`Model/Paper`), `GMM.sample` (`Model/GmmSample`) | `mk_model`, `repr`s |
| `experiments/annealing/vsmc.py` | `vsmc` (`Model/Annealing`) | |
| `experiments/annealing/objectives.py` | `_estimate_mc`, `_eval0`, `_eval1`, `_eval_nrep`, `nvo_avo`, `nvo_rkl`, `nvo_rkl_mod` (`Model/Objectives`), `_eval_detached`, `stl_trace` (`Model/Annealing`) | |
| `experiments/annealing/utils.py` | `traverse_proposals`, `get_stats` (`Model/Annealing`), the paths of `save/load_nvi_model` (`Model/Cli`) | |
| `experiments/annealing/main.py` | `nvi_test`, `nvi_train` (`Model/AnnealMain`, `Model/NviTrain`), the script and its arguments (`Model/Cli`) | what an optimiser step does, progress bars |
| `experiments/annealing/plotting.py`, `scripts/` | `get_file_prefix`, `from_file_prefix`, the choice of files in `load_metrics` (`Model/Cli`); the table of results (`Model/Tabulate`) | plots |
| `experiments/apgs/models.py` | `init_models`, the `model` methods of `Enc_coor`, `Enc_digit`, `DecoderFull`, `get_z_where`, `get_z_what_val` (`Model/Apg`); what of them is detached for training (`Model/ApgGrad`); the layers, convolutions and distributions of these classes for one particle (`Model/ApgNets`) and on tensors (`Model/ApgTensor`); pixel probabilities in floating point (`Model/FloatPixels`) | initial values of the layers |
| `experiments/apgs/gibbs.py`, `objectives.py`, `utils.py` | all (`Model/Apg`, `Model/ApgKeys`, weak references that die in `Model/ApgWeak`, the arithmetic of the losses in `Model/ApgLoss`) | who else keeps a tensor alive |
| `experiments/apgs/affine_transformer.py` | coordinate maps, grid sampling at the nearest pixel, the only mode the code uses (`Model/Affine`); on tensors (`Model/ApgTensor`) | |
| `experiments/apgs/dataset/simulator.py` | `sim_trajectory`, `sim_trajectories`, `sim_one_sequence`, `sim_save_data`, `load_resize_shapes`, the script (`Model/Simulator`, `Model/SimFrames`, `Model/SimMain`; trajectories in float32 `Model/FloatSim`) | reading and resizing image files, `viz_data` |
| `experiments/apgs/main.py` | `num_batches` and the minibatch slices of `train_apg`, `get_data_paths` (`Model/ApgTrain`), the metric ess, `train_apg`, `cleanup`, `get_mean_shape`, `get_model_version` (`Model/ApgLoop`), `test_gibbs_sweep`, the script and its arguments (`Model/ApgCli`) | what an optimiser step does, progress bars |
| `experiments/apgs/plotting.py` | the rectangles of `viz_samples` (`Model/Viz`) | matplotlib |
| `experiments/apgs/notebooks/evaluate_saved_model.py` | the script, `get_samples` (`Model/ApgEval`) | what it would show |
| `experiments/startup.py`, `setup.py`, other notebooks | | all |

## 3. Method per property

* C01, C02, C03 (programs): big-step relation of `Program.forward`, induction on the interaction tree. Spec: `Spec/Program`, `Spec/Events`.
* C04 (hygiene): induction over the object graph for every outcome. C05: refinement of `eval` by `evalP`; counterexample graph for
  the excluded sharing. C06: corollary of the evaluator's equations. Spec: `Spec/Lexical`.
* C07-C12: complete descriptions of all outcomes of one combinator, by inversion of the evaluator. Spec: `Spec/Combinators`.
* C13, C14, C16: structural induction over nests. Spec: `Spec/Nests`.
* C15: functions on signatures and kwargs. C17, C18, C40: induction over lists of traces. Spec: `Spec/Trace`. C33: decision logic.
* C19, C25, C26, C47: Systematic on tensors indexed by particle and batch element, and on shapes.
* C20-C22: exact arithmetic in a linearly ordered field; C23, C48: integral over the offset.
* C24, C27, C28: real analysis (exp, log, Cauchy-Schwarz, Jensen).
* C29 (proper weighting), C55 (populations): see section 4.
* C30, C36, C53: induction over the number of kernels of the `vsmc` builder. C57: the invariant of the same induction with the laws
  of C55. Spec: `Spec/Annealing`, `Spec/AnnealPop`. C56: exact computation of two expectations.
* C31, C32, C34: refinement to finite maps over operation histories.
* C35: block matrices and Mathlib's multivariate Gaussians.
* C37, C52: exact reals. C38, C39: Frechet derivatives, `detach` freezing at the current point. C58: the
  derivative of a divergence over finite types, by score identities. Spec: `Spec/KlStep`. C59: C30 and C38 combined; Jensen. C51: substring lemmas and traces.
* C60: soundness of a typing relation on nests (names with provenances, tensor weights, outputs) by induction on derivations; the main
  premises shown necessary. Spec: `Spec/Typing`.
* C61: a relation between computations (same draws, related results, or failure on both sides) that is closed under bind; each law by
  running the shared parts in lockstep and case analysis on the checks of the combinators.
* C41, C54: address bookkeeping of the sampler by induction over sweeps and time steps; with too few or too many frames the failing encoder is found in the initial chain and its exception passes through everything built on it. C42: string lemmas. Spec: `Spec/Apg`.
* C43-C46, C49, C50: exact arithmetic, loops as recursion or big-step relations over infinite sequences of draws.
* C62: Markov's inequality, and 1 + x ≤ exp x (Jensen) where the mean of the weight is bounded as an upper mean: expectations with upper
  integrals satisfy the same laws, so that the proofs of C29 and C55 apply to them unchanged.
* C63: the induction of C30 also collects the rows of get_stats; expectations over later draws of a chain integrate to one.
* C64: `Like` relates a run, draw by draw, to the written-out algorithm (`Spec/ApgLaw`); steps of many particles from the runs of the parts
  (`Spec/ApgIncrement`). C65: each step of the algorithm keeps the identity of integrals; the density of a position cancels against the
  reverse kernel's (`Spec/ApgWeights`).
* C66: the step lemmas of C64 also follow the loss through Compose, Propose and Resample (`Spec/ApgLoss`); the arithmetic is real analysis.
* C67: the script is a list of steps each of which may raise (`Model/Cli`); names are cut at their underscores, whose number is known because decimal numerals have none (`Proofs/Strings`).
* C68: the step lemmas of C64 record what Propose keeps of its proposal (`Recorded` in `Spec/Apg`); after systematic resampling that is constant.
* C69: the loops are recursive functions that return events and how they end (`Model/ApgLoop`); induction over minibatches, files and epochs, and a simulation of the run without `smoketest` by the run with it.
* C70: the programs are run symbolically, for any world. C71: real analysis on the network's formulas, then C30 with a telescoping sum.
* C72: product measures; a permutation relates the rows drawn component by component to the draws of the components.
* C73: the loop is a recursion over the iterations; each call is described by C36, C63 (any resampler) or C30 (none). C74: modules are trees of parameter names, and groups are lists without repetitions.
* C75: the induction of C55 for parts without Resample is done for any way to put the particles together that draws respect (`IsLawOf`); here products and sums over pairs. Then Chebyshev's inequality. C76: the chain of C30 under the same laws; the law of one chain is a nested integral (`Spec/AnnealChains`). All chains of a batch element together have a product law (`Proofs/ChainLaw`), so the strong law of large numbers gives the limits (`Proofs/LargeNumbers`, `Proofs/SampleSize`; with infinite variance the squares' averages exceed those of their truncations).
* C77: as C67; the test is a list of calls that the environment may make raise (`Model/ApgCli`).
* C78: the law of a chain (C76) is an integral over paths; the divergence is the mean of exp u - 1 - u for the log weight u relative to log Z (`klDiv_path`), and the mean of exp u is one. Lower and upper means of both agree, which gives the mean of -u without measurability of a whole run.
* C79: the normal distribution in the plane is a product of two (`dens_mvn`), softplus is positive, networks are measurable, so the hypotheses of C57, C63 and C78 hold for all parameters; the constants of tempered targets by Hölder's inequality.
* C80: with random walks the weight telescopes; the second moment is an integral of the walk applied K times to exp(|x|²/50) (the walk is reversible); each step sends exp(|x|²/(2s)) to a multiple of exp(|x|²/(2(s-1))), until s = 1. A tempered target squared is exp(-(1-β)|x|²/25) times the ring to the power 2β, which lies between constants times one component and the sum of the components to that power.
* C81: the model bodies run statement by statement; the loops over objects and times by induction, with the trace so far as the list of its entries.
* C82: the layers are measurable and Gaussian kernels normalised, so the networks are `Tractable` (`Proofs/ApgNets`) and C65 applies; densities factor over frames, objects and coordinates, and nested integrals become integrals over products by Fubini.
* C83: the law of C64 without sweeps is an integral against the proposal's density. Infinite variance: `2ab ≤ a² + b²` with `a` the weight and `b` a truncated test function of the first coordinate bounds the second moment from below by integrals that grow without bound.
* C84: the number of steps `k + u` below a bound differs from the bound by at most one; averages by summation by parts.
* C85: a logical relation between the nest and its part, kept by every function of the model up to `eval`; the law because the marginal of a product measure is the product over the part.
* C86: element by element: each tensor operation is characterised by its elements at multi-indices, and these are composed.
* C87: as C86; loops over objects and times by invariants on the elements written so far.
* C88: rounding is monotone, so cumulated weights stay in order and end at exactly 1; a particle of weight zero adds nothing, exactly; accuracy by an error analysis of softmax (any order of summation), of the cumulated sums and of the steps, and counting integers in intervals. For float32 the assumptions are proved from round-to-nearest-even with subnormals.
* C89: overflow and underflow of single exponentials, carried through sums in any order; bounds of the logarithms that occur. The accuracy: forward error analysis of each rounding, with relative errors for sums of positive numbers.
* C90: structural induction over nested values; a sorted permutation of the variables. C91: exact reals, from C43.
* C92: the tests are computations that may raise AssertionError; each is evaluated symbolically. The resampler tests from C86 and C28.
* C93: induction over the steps; each step by the equations of the programs of an annealing model, with the conditioning traces that the loop assigns; then C30 and C36.
* C94: executions that neither read nor change the world are closed under sequencing (`Proofs/Repeated`), so by C05 a call is one; then nested integrals with constants pulled out, Chebyshev and Markov, C55 and C57.
* C95: the 32 prefixes are evaluated once; the loops are `mapM`s over the groups with metrics, so the table follows from the row of a group. The printed rows by induction with the last label.
* C96: the proof of C30 repeated with the transformed distribution in the weight (`Proofs/AnnealStl`), then every part of the loss of a step is traced back to the parameters it varies with. Spec: `Spec/Gradients`.
* C97: from the lemmas about `along` and `reduce` of C86. Spec: `Spec/TensorMetrics`.
* C98: the step theorems of C66 hold for any language of tensors; here log weights and distributions are functions of the parameters (`Model/ApgGrad`), and induction over the steps that `gibbs_sweeps` adds sums their losses.
  Spec: `Spec/ApgTrained`.
* C99: a computation whose draws are independent across particles and batch elements has the product law (`Proofs/LaneLaw`, by induction over draws); the step theorems of C66 give the particle of each lane
  (`Proofs/ApgLanes`), the strong law of large numbers the convergence (`Proofs/LargeNumbers`). Spec: `Spec/ApgLanes`.
* C100: the script's statements in order (`Model/ApgEval`); the trace of C41 contains what `get_samples` reads.
* C101: one axis at a time: reading a frame's pixel is a shift before rounding (`Props/SimFrames`). The law in C49 is that of the first success among independent repetitions (`Props/SimStart`).
* C102: a file system of lists; the file names and the paths they resolve to are followed into `get_data_paths` and the epoch loop of C69 (`Props/SimMain`, `Props/SimCli`).
* C103: the run lemmas of C41 once more for programs whose reads fail when no trace at hand holds the tensor; a relation between computations (`Upto`) gives that a nest with dying references either raises that error or does the same, for any nest (`Proofs/ApgWeak`, `Proofs/WeakNode`, `Props/ApgWeak`).
* C104: rounding errors of `arange`, `logit` and `sigmoid` in the IEEE formats of C88, added up; exact values at n = 50 (`Model/FloatPath`, `Proofs/FloatPath`, `Props/FloatPath`).
* C105: the invariant of C44 up to a deviation that grows by the rounding errors of one step; folding is 1-Lipschitz (`Model/FloatSim`, `Props/FloatSim`).
* C106: adding less than half of the last place of a float changes nothing (`round_absorb`); relative errors survive clamping; log 2⁻²³ > -16 (`Model/FloatPixels`, `Props/FloatPixels`).

## 4. Proper weighting (C29, C55, C57)

`Spec/Weighting` defines, for one particle, the expectation `expect` over all draws of a computation, and — without reference to the
evaluator — the unnormalised measure `target` that a nest stands for, as an integral operator; `always`/`alwaysN` say that something
holds of every run. `Fits` is the class of nests covered: programs, Compose with different names, Propose whose proposal is any such nest
and whose target is a program extended by kernels, and Resample. C29 is `expect (eval n) (exp log_weight * h(trace, output)) = target n h`
for every measurable test function `h`. Values carry an arbitrary s-finite base measure, so sums and
Lebesgue integrals are both covered; `Spec/Measurable` says what it means for a model, a nest or `h` to be measurable, by looking at families
of values, traces and models that depend measurably on a parameter (`PlotPy`, `PlotEnv`, `PlotTree`); with countably many values all models
are (`Proofs/MeasurableDiscrete`). The proof disintegrates the target along the names of the proposal (`Proofs/Weighting`, `Measurable`, `WeightingNode`) and
is by induction over the nest (`Proofs/WeightingRun`).

For vectorised programs `Spec/Lanes` defines a lane: a map from tensors to one particle's values. `Proofs/WeightingRun` is for any law of
the draws and any family of lanes; `Proofs/Population` adds resamplers that move whole lanes and keep weighted sums in expectation;
`Proofs/PopulationLaw` proves that independent draws and systematic resampling with uniform offsets are an instance.

## 5. Findings about the code

Things the proofs brought up that a user of the library would not expect:

* `Propose` reads `self.q._debug`; a plain Program has no such attribute, so Propose with a Program as proposal always raises
  AttributeError, although the constructor accepts it (C11). `lw_out.detach()` fails if the weight is the Python float 0.0.
* `WithSubstitution.__exit__` resets to None instead of restoring, so sharing a conditioned object below itself changes results (C05).
  Only Program and Extend read `_cond_trace` (C06).
* An address that is OBSERVED in the conditioning trace but sampled by the target is reused, but its density is not counted (C02); this
  biases Propose (`C29_observed_by_proposal`). A conditioned Extend counts the densities of kernel variables it samples itself
  (`C29_uncovered_kernel`), and an unconditioned Extend that is not the target of a Propose counts its kernel's densities although it
  sampled them (`C29_extend_counts_twice`).
* Resample does not permute OBSERVED variables, but the following Propose divides by their log probabilities: the weights are biased as soon
  as a resampled proposal observes something (C25, C56). The APG sampler is built this way. Output entries that are not named
  in the trace keep their order as well.
* Systematic with `batch_dim=None` returns weights of shape n x 1; adding an n-vector broadcasts to n x n (C26, C47).
* At offset exactly 0, which `torch.rand` can return, particle 0 is selected even with weight zero and the floor/ceil bounds on
  offspring widen (C21, C22).
* A Compose as the kernel of an Extend works without conditioning, but as the target of a Propose it samples anew and the weight is no
  longer proper (C61): Compose is not Conditionable.
* Compose takes its loss from q1 only, Extend from p, Propose and Resample from q (C13). The object's `_debug` does not reach its parts,
  the call's does; get_stats on a resampling `vsmc` therefore needs the call-level flag (C36).
* `valeq` never uses `check_exist` (C33). `traverse_proposals` names an undefined `Condition` (C36). `nvo_rkl_mod` uses an undefined
  `sample_dim` and never returns (C39). `stl_trace` tests addresses as substrings of `g{ix+1}`, so `g1` is dropped at step 9 (C51).
* `_eval_detached` passes `rv.reparameterized` as the third positional argument of RandomVariable.
* PropertyDict attributes are shadowed by dict methods; the repr of an empty one raises (C32).
* GMM's density is the sum, not the mean, of its components: its normalising constant is their number (C52). `anneal_between` with one
  target divides by zero (C37).
* `anneal_between` with e.g. 50 targets computes a superfluous beta of 1.0 by rounding; only the zip keeps it from `Tempered`, which would raise (C104_extra).
* In nvo_rkl the term with `grad_log_Z1` is proved to drop out (C38), and the derivative of the divergence needs such a term: the loss
  differentiates to the divergence plus log Z1 (C58). It matters when the proposal's density is trained, i.e. with `optimize_path`.
  nvo_rkl_mod has the term but never returns (C39). A forward kernel that is not reparameterised gets no score term.
* nvo_rkl normalises the increments by their unweighted mean. From the second step on this is not an estimate of Z2/Z1 unless the
  incoming weights are equal, and the total loss can be negative (C59).
* `nvi_test` with `sample_dims=-1` takes its metrics over the steps (C97_test_negative); the default `sample_dims` of the metrics is the last dimension, that of the batch elements
  (C97_default).
* With `nvo_rkl`, `vsmc` does not train forward kernels whose draws are not reparameterised (C96_rkl): `stl_trace` detaches the distribution and the value is a constant. The kernels of
  the paper's model are reparameterised.
* `gibbs_sweeps` resamples with `normalize_weights=True`: the log weights it returns are only those since the last resampling (with one
  particle, of the last step: C64) and do not estimate the evidence (C65). The increments subtract the frames' log_prob of the slot, not of
  the ancestor (C64).
* The APG decoder scores positions after `ix.t+1` as steps from time `ix.t` (C54). With T = 0 frames the sampler always raises KeyError.
* `get_data_paths` confuses e.g. 3 and 30 objects (C50). `sim_trajectories` with fewer than three objects never returns (C49).
  `sim_save_data` with a non-positive chunk size raises (C45); it can be called once per simulator only, and raises IndexError with fewer shapes than objects (C101). `train_apg` drops the last incomplete batch, and divides by zero at
  batch size 0 (C46).
* The velocities `sim_trajectory` returns are one step ahead: `V_new` is a view of `V[t]`, so row 0 is not the initial velocity if the first move bounces (C44_velocity_row).
* `--saving_path video` (no slash) writes `videoseq-….pt` into the working directory, and training finds nothing in `video` (C102_no_slash); files of earlier, larger runs stay and are
  trained on (C102_stale); a run that fails has already replaced `mean_shape.pt` (C102_raises).
* The simulator renders with `align_corners=False`, the decoder with `align_corners=True` and a mirrored first axis: even with the true shape and position the decoder's frame differs from
  the simulator's near the border (C101_decoder_corner).
* `train_apg` reports the effective sample size of `out.lw`, the weight that entered the last step. Directly after resampling it is constant,
  so the number reported is always the sample size (C68).
* `train_apg` opens its log in ./results before it makes that directory: without `smoketest` the first run raises FileNotFoundError. The line
  printed by a smoke test divides by the number of minibatches of the file, not of the steps made. `data_dir` needs a slash at its end for
  mean_shape.pt only (C69).
* `GMM.sample` with a shape of three or more dimensions returns too many points: `zs.shape[1:-1]` is appended to counts that already cover all
  dimensions (C72).
* Conditioning an annealing program on an OBSERVED variable gives weight 0.0, not its log density (C70).
* Annealing between ends with trainable parameters fails in nvi_train as soon as there is an intermediate target: `Tempered` registers both
  ends, so that adam gets their parameters twice and raises ValueError (C74). `Enc_coor` avoids this by keeping its decoder behind a lambda.
* nvi_train works with a single batch element only: `.item()` raises otherwise, after the first optimiser step was made (C73).
* `test_gibbs_sweep` never loads trained weights (read, not modelled).
* `experiments/apgs/main.py`: `--test=False` runs the test, and the test runs untrained models: no parameters are read (C77). It takes the first `.pt` file of the directory without looking at its settings.
* The evidence estimates of a new annealing model have infinite variance with 26 targets or more, and those for intermediate targets from step 25 on (from step 24 with 104 targets or more) (C80), so what nvi_test prints for such a model before training (or with very little training) does not settle with the number of particles as usual.
* `DecoderFull` is not a generative model by itself: without the encoders' values in the global store it raises KeyError, without an appearance in its conditioning trace it raises ValueError (what it draws lacks the sample, batch and object dimensions), and with both it draws each position that the conditioning trace lacks around a stored position instead of the one it has just drawn, and returns the stored ones (C81).
* The `+ EPS` of `DecoderFull` (1e-9) does not keep pixel probabilities away from 0 and 1: torch's clamping to [2⁻²³, 1 - 2⁻²³] does. For saturated pixels `recon_frames + EPS` exceeds 1 in exact arithmetic; in float32 it rounds to 1, in float64 validation of `Bernoulli` rejects it with ValueError (C82, `C106_float32`, `C106_float64`).
* The importance weights of the experiment have infinite variance as soon as the network for the positions has a scale of at most 1/√2 for the first object in the first frame; an accurate proposal is narrower than that (C83).
* Systematic resampling of particles whose order is correlated with their weights does not converge: with weights 1, 3, 1, 3, ... the error of the share of the light particles is 1/4 for every offset and every number of particles (C84_noise). The code neither sorts nor shuffles.
* `log_Z_hat` exponentiates without subtracting the maximum: in float32 it is -inf when all log weights are at most -110 and +inf when one is at least 89 (C89). The annealing experiment stays in between; log weights of models of images do not.
* If every particle has log weight -inf, or one has NaN or +inf, resampling raises RuntimeError from `gather`, without a hint of the cause (C88); a trace without resampled variables passes and the log weight becomes -inf, +inf or NaN.
* `trace_utils.show` passes an argument that `tensor_utils.show` lacks and raises for every trace that is not empty; `showvals`, `showprobs`, `showdists` ignore their options; `ppr(x, m=...)` ignores `m` inside lists, dicts and outputs; `showRV` with `dists` opens three parentheses and closes one (C90).
* Five of the seven tests in tests/test_inference.py are skipped. `test_propose` would always raise AttributeError (its proposal is a Program); the others use `Condition` or `trace_star`, which no longer exist; `test_extend_unconditioned` would also fail without that, as the trace of Extend contains the kernel's variables; the weight in `test_extend_propose` is right only because two densities agree by coincidence (C92).
* tests/test_annealing.py is skipped and calls `nvi_declarative`, which does not exist; `test_K_step_nvi` compares its step k with the row of `get_stats` for step K - 1 - k (C93), and `test_1_step_nvi` unpacks seven results into two names, which raises ValueError (read, not modelled).
* `experiments/apgs/notebooks/evaluate_saved_model.py` passes `use_markov_blanket` to `init_models`, which has no such parameter, and imports a package that does not exist, so it always raises (C100).
* `experiments/annealing/main.py` line 65 compares `out.type` with a string and is always False (read, not modelled).
* The flags of `experiments/annealing/main.py` have `type=bool`, so that `--resample=False` turns resampling on (C67_options).
* `--sample_budget` is used for file names only; training always has 288 particles to divide among the targets (C67_run, C67_budget).
* The message for an unknown objective leaves out `nvo_rkl_mod`, which is accepted (C67_objective).
* `scripts/tabulate_and_plot.py` collects runs by prefix, so that 200000 iterations count among 20000 (C67_prefix), and reads only the first digit of the number of targets (C67_from_prefix). It imports `nvi_declarative`, `test` and `combinators.objectives`, none of which exist (read, not modelled). In `main` it compares the objective with "nvo", which it never is, so that all models are tested with `nvo_rkl` (C95_table); all rows of `nvo_avo` look alike (C95_labels); metrics without a saved model end in a TypeError (C95_no_weights).

## 6. Trusted base

Lean's kernel, and the axioms listed per theorem in section 8; these are at most `propext`, `Classical.choice` and `Quot.sound`. No axioms
of our own, no `sorry`, `native_decide` or `bv_decide`. Mathlib's definitions of measures, integrals, matrices, derivatives and Gaussian
laws occur in the statements. Everything else that is trusted is the reading of the code, recorded at each definition.

## 7. Assumptions about code outside /repo

* probtorch is not in the repository. `Trace` is an ordered dict of random variables; `Trace.variable` with a value records it as OBSERVED
  unless another provenance is passed, without one reuses the conditioning trace's value (REUSED) when the name is there and samples
  otherwise (the behaviour `maybe_sample` has in this repository); a duplicate name raises. `_inject` overwrites (the repository's own
  tests re-inject names). `log_joint(nodes)` is the sum of the log_probs of the named nodes, and the Python float `0.0` for no nodes.
* Tensor arithmetic is exact, except in `Model/FloatResampler`, `Model/FloatMetrics`, `Model/FloatPath`, `Model/FloatSim` and `Model/FloatPixels` (C88, C89, C104, C105, C106; `exp`, `log`, `sin` and `cos` correctly rounded, `arange`, `logit` and `sigmoid` as torch computes them on the CPU): IEEE 754 numbers with infinities and NaN, rounding as a parameter and as float32 (`Model/Ieee`), any order of summation. Shapes and broadcasting are modelled only in `Model/Shapes` (C26, C47) and `Model/Tensor` (C86, C87).
* Calls terminate: no object is below itself, models are well-founded trees.
* torch distributions draw independently per element, `torch.rand` is uniform on [0,1).
* Python: dicts keep insertion order; keyword arguments bind by name; exceptions leave `with` blocks through `__exit__`.

## 8. Theorems and axioms

P = propext, C = Classical.choice, Q = Quot.sound.

| property | theorems (axioms) |
|---|---|
| C01 | `C01_unconditioned_weight` (PQ), `C01_float_iff` (PCQ) |
| C02 | `C02_every_model` (PQ), `C02_conditioned_weight` (PQ), `C02_values_provenance_draws` (PQ), `C02_weight_reused` (PQ) |
| C03 | `C03_needs_restriction` (PQ), `C03_replay` (PQ) |
| C04 | `C04_hygiene` (PQ) |
| C05 | `C05_lexical` (PCQ), `C05_evalP_pure` (PQ), `C05_not_lexical_in_general` (PQ) |
| C06 | `C06_not_conditionable` (PCQ) |
| C07 | `C07_compose` (PCQ), `C07_compose_ok` (PCQ) |
| C08 | `C08_extend` (PCQ), `C08_extend_ok` (PCQ) |
| C09 | `C09_importance_weight` (PCQ), `C09_transformed` (PCQ) |
| C10 | `C10_marginalises` (PCQ), `C10_plain_target` (PCQ) |
| C11 | `C11_constructor` (PQ), `C11_plain_program_proposal` (PCQ), `C11_debug_read_succeeds` (PCQ) |
| C12 | `C12_detached` (PCQ), `C12_nested_not_detached` (PQ) |
| C13 | `C13_loss_fold` (PCQ), `C13_resample_passes_loss` (PQ) |
| C14 | `C14_index_scoping` (PCQ) |
| C15 | `C15_dispatch_function` (PQ), `C15_dispatch_module` (PCQ), `C15_dispatch_program` (PCQ), `C15_received` (P), `C15_model_receives` (PQ), `C15_positional_clash` (PQ), `C15_arity` (PQ) |
| C16 | `C16_debug_invisible` (PCQ), `C16_sub_results` (PCQ) |
| C17 | `C17_last_write_wins` (PQ), `C17_first_write_wins` (PQ) |
| C18 | `C18_no_overlaps` (PQ), `C18_copy_identity` (PQ) |
| C19 | `C19_structure` (PCQ), `C19_returns` (PCQ), `C19_refuses` (PCQ) |
| C20 | `C20_ancestors` (PCQ), `C20_total` (PCQ) |
| C21 | `C21_offspring` (PCQ), `C21_offset_zero` (PCQ), `C21_equal_weights` (PCQ), `C21_equal_weights_offset_zero` (PCQ) |
| C22 | `C22_zero_weight` (PCQ), `C22_exception` (PCQ) |
| C23 | `C23_expected_offspring` (PCQ), `C23_unbiased` (PCQ) |
| C24 | `C24_resampled_weights` (PCQ), `C24_normalized` (PCQ) |
| C25 | `C25_aligned` (PCQ), `C25_observed_misaligned` (PCQ) |
| C26 | `C26_batch` (PQ), `C26_batch_returns` (PQ), `C26_no_batch` (PQ), `C26_batch_iff` (PCQ) |
| C27 | `C27_formula` (PCQ), `C27_bounds` (PCQ), `C27_max_iff` (PCQ), `C27_shift` (PCQ) |
| C28 | `C28_shift` (PCQ), `C28_bounds` (PCQ), `C28_equal` (PCQ) |
| C29 | `C29_properly_weighted` (PCQ), `C29_normaliser` (PCQ), `C29_extend_counts_twice` (PCQ), `C29_uncovered_kernel` (PCQ), `C29_observed_by_proposal` (PCQ) |
| C30 | `C30_vsmc` (PCQ), `C30_weight_sum` (PCQ) |
| C31 | `C31_dict` (PQ), `C31_get_hooks` (P), `C31_set_hooks` (PQ), `C31_set_hook` (none), `C31_resample_hook` (none) |
| C32 | `C32_attribute_is_item` (PQ), `C32_shadowed` (PQ), `C32_out_items` (PCQ), `C32_iter` (PCQ), `C32_repr` (PQ) |
| C33 | `C33_never_false` (P), `C33_true_iff` (PCQ), `C33_check_exist_ignored` (P) |
| C34 | `C34_keys_distinct` (PCQ), `C34_every_model` (PCQ), `C34_every_model_dict` (PCQ), `C34_roundtrip` (PCQ) |
| C35 | `C35_joint` (PCQ), `C35_marginal` (PCQ), `C35_reverse` (PCQ), `C35_posSemidef` (PCQ), `C35_posDef` (PCQ) |
| C36 | `C36_get_stats` (PCQ), `C36_needs_debug` (PCQ), `C36_traverse` (PQ) |
| C37 | `C37_tempered` (PCQ), `C37_path` (PCQ), `C37_exact` (PCQ), `C37_too_few` (PCQ), `C37_paper_names` (PCQ) |
| C38 | `C38_eval0` (PCQ), `C38_eval1` (PCQ), `C38_avo` (PCQ), `C38_rkl_value` (PCQ), `C38_rkl_grad` (PCQ) |
| C39 | `C39_rkl_mod` (PCQ) |
| C40 | `C40_rerun` (PQ) |
| C41 | `C41_store_weak` (PQ), `C41_gibbs` (PCQ), `C41_stages` (PCQ), `C41_no_timesteps` (PCQ), `C41_short` (PCQ), `C41_long` (PCQ), `C41_systematic` (PCQ) |
| C42 | `C42_z_where_injective` (PCQ), `C42_z_what_injective` (PCQ), `C42_kinds_disjoint` (PCQ), `C42_names` (P), `C42_missing_argument` (P) |
| C43 | `C43_inverse` (PCQ), `C43_crop_of_paste` (PCQ), `C43_paste` (PCQ) |
| C44 | `C44_velocity` (PCQ), `C44_velocity_row` (PCQ), `C44_in_box` (PCQ), `C44_reflection` (PCQ), `C44_no_timesteps` (PCQ), `C44_patch_inside` (PCQ), `C44_pixel` (PCQ) |
| C45 | `C45_saves_all` (PCQ), `C45_full_chunks` (PCQ), `C45_bad_chunk_size` (PQ), `C45_names_distinct` (PCQ) |
| C46 | `C46_used` (PQ), `C46_sizes` (PQ), `C46_disjoint` (PQ), `C46_all_used_iff` (PQ), `C46_zero` (P) |
| C47 | `C47_outer_sum` (PQ), `C47_same_shape` (PQ) |
| C48 | `C48_weighted_average` (PCQ) |
| C49 | `C49_rounds` (PCQ), `C49_law` (PCQ), `C49_terminates` (PCQ), `C49_separated` (PCQ), `C49_needs_three` (PCQ) |
| C50 | `C50_chosen_iff` (PCQ), `C50_exact_below_ten` (PCQ), `C50_empty` (PCQ) |
| C51 | `C51_stl_trace` (PCQ), `C51_stl_drops` (PCQ), `C51_stl_cases` (PCQ) |
| C52 | `C52_density` (PCQ), `C52_normaliser` (PCQ), `C52_components` (PCQ), `C52_ring` (PCQ) |
| C53 | `C53_losses` (PCQ) |
| C54 | `C54_prior` (PCQ) |
| C55 | `C55_population` (PCQ), `C55_log_Z_hat` (PCQ) |
| C56 | `C56_observed_resampling_biased` (PCQ) |
| C57 | `C57_vsmc_resampled` (PCQ) |
| C58 | `C58_kl_gradient` (PCQ), `C58_kl_value` (PCQ), `C58_at_optimum` (PCQ), `C58_metric_gradient` (PCQ), `C58_leaves_optimum` (PCQ) |
| C59 | `C59_avo_returns` (PCQ), `C59_rkl_returns` (PCQ), `C59_avo_loss` (PCQ), `C59_avo_bound` (PCQ), `C59_rkl_loss` (PCQ), `C59_rkl_first` (PCQ), `C59_vsmc_avo` (PCQ), `C59_vsmc_rkl` (PCQ), `C59_rkl_negative` (PCQ) |
| C60 | `C60_well_typed` (PCQ), `C60_compose_exact` (PCQ), `C60_extend_exact` (PCQ), `C60_propose_exact` (PCQ), `C60_systematic` (PCQ), `C60_vsmc` (PCQ), `C60_properly_weighted` (PCQ), `C60_population` (PCQ) |
| C61 | `C61_compose_assoc` (PCQ), `C61_compose_identity` (PCQ), `C61_compose_identity_right` (PCQ), `C61_extend_twice` (PCQ), `C61_self_proposal` (PCQ), `C61_telescope` (PCQ), `C61_same_expectation` (PCQ), `C61_compose_kernel_conditioned` (PCQ) |
| C62 | `C62_overestimate` (PCQ), `C62_elbo` (PCQ), `C62_population_overestimate` (PCQ), `C62_population_elbo` (PCQ), `C62_vsmc` (PCQ) |
| C63 | `C63_nvi_test` (PCQ), `C63_train` (PCQ), `C63_prefix` (PCQ), `C63_weighted_samples` (PCQ), `C63_evidence` (PCQ) |
| C64 | `C64_program` (PCQ), `C64_last` (PCQ), `C64_position` (PCQ), `C64_appearance` (PCQ), `C64_stale` (PCQ), `C64_systematic` (PCQ) |
| C65 | `C65_proper` (PCQ), `C65_evidence` (PCQ), `C65_no_sweeps` (PCQ), `C65_normalized` (PCQ), `C65_biased` (PCQ) |
| C66 | `C66_start` (PCQ), `C66_position` (PCQ), `C66_appearance` (PCQ), `C66_needs_debug` (P), `C66_needs_propose` (P), `C66_shift` (PCQ), `C66_equal` (PCQ), `C66_range` (PCQ), `C66_gradient` (PCQ) |
| C67 | `Cli.C67_int` (PCQ), `Cli.C67_options` (PCQ), `Cli.C67_exits` (PCQ), `Cli.C67_names` (PCQ), `Cli.C67_reload` (PCQ), `Cli.C67_run` (PCQ), `Cli.C67_particles` (PQ), `Cli.C67_order` (PCQ), `Cli.C67_budget` (PCQ), `Cli.C67_objective` (PCQ), `Cli.C67_stops` (PCQ), `Cli.C67_no_targets` (PCQ), `Cli.C67_prefix` (PCQ), `Cli.C67_from_prefix` (PCQ), `Cli.C67_from_prefix_mod` (PCQ), `Cli.C67_normpath_keeps` (PQ), `Cli.C67_int_iff` (PCQ) |
| C68 | `C68_no_sweeps` (PCQ), `C68_ess` (PCQ), `C68_blind` (PCQ) |
| C69 | `C69_run` (PCQ), `C69_counts` (PCQ), `C69_constant_ess` (PCQ), `C69_smoke` (PCQ), `C69_raises` (PCQ), `C69_timesteps` (PCQ), `C69_sample_size` (PCQ), `C69_names` (PCQ), `C69_setup` (PCQ) |
| C70 | `C70_density` (PCQ), `C70_distribution` (PCQ), `C70_kernel` (PCQ), `C70_maybe_sample` (PQ) |
| C71 | `C71_random_walk` (PCQ), `C71_large_variance` (PCQ), `C71_symmetric` (PCQ), `C71_untrained` (PCQ) |
| C72 | `C72_independent` (PCQ), `C72_shape` (PQ) |
| C73 | `C73_nvi_train` (PCQ), `C73_chains` (PCQ) |
| C74 | `C74_adam` (PCQ), `C74_paper` (PCQ), `C74_learnable_ends` (PCQ), `C74_apg` (PCQ) |
| C75 | `C75_independent` (PCQ), `C75_second_moment` (PCQ), `C75_deviation` (PCQ), `C75_bounded` (PCQ), `C75_log_Z_hat` (PCQ) |
| C76 | `C76_chains` (PCQ), `C76_deviation` (PCQ), `C76_self_normalised` (PCQ), `C76_consistent` (PCQ), `C76_report` (PCQ), `C76_bounded` (PCQ), `C76_joint` (PCQ), `C76_mean_converges` (PCQ), `C76_posterior_converges` (PCQ), `C76_report_converges` (PCQ), `C76_ess_converges` (PCQ) |
| C77 | `ApgCli.C77_options` (PCQ), `ApgCli.C77_exits` (PCQ), `ApgCli.C77_train` (PCQ), `ApgCli.C77_test` (PCQ), `ApgCli.C77_frames` (PQ), `ApgCli.C77_no_data` (PCQ), `ApgCli.C77_particles` (PCQ) |
| C78 | `C78_avo` (PCQ), `C78_optimal` (PCQ), `C78_attained` (PCQ) |
| C79 | `C79_converges` (PCQ), `C79_samples` (PCQ), `C79_evidence` (PCQ), `C79_new` (PCQ), `C79_resampled` (PCQ), `C79_report` (PCQ), `C79_avo` (PCQ) |
| C80 | `C80_ess` (PCQ), `C80_variance` (PCQ), `C80_consistent` (PCQ), `C80_steps` (PCQ), `C80_new_steps` (PCQ) |
| C81 | `C81_coor_input` (PCQ), `C81_coor_forward` (PCQ), `C81_coor_reverse` (PCQ), `C81_digit_input` (PCQ), `C81_digit` (PCQ), `C81_decoder_alone` (PCQ), `C81_decoder_one` (PCQ), `C81_decoder_drawn` (PCQ), `C81_decoder_free` (PCQ) |
| C82 | `C82_density` (PCQ), `C82_relabel` (PCQ), `C82_proposals` (PCQ), `C82_likelihood` (PCQ), `C82_evidence_range` (PCQ), `C82_proper` (PCQ), `C82_evidence` (PCQ) |
| C83 | `C83_law` (PCQ), `C83_infinite` (PCQ) |
| C84 | `C84_first` (PCQ), `C84_average` (PCQ), `C84_sorted` (PCQ), `C84_particles` (PCQ), `C84_noise` (PCQ) |
| C85 | `C85_part` (PCQ), `C85_runs` (PCQ), `C85_extends` (PCQ), `C85_systematic` (PCQ), `C85_zero_weight` (PCQ), `C85_batch_dim` (PCQ), `C85_law` (PCQ), `C85_independent` (PCQ) |
| C86 | `Nd.C86_pick` (PCQ), `Nd.C86_pick_along` (PCQ), `Nd.C86_pick_shape` (PQ), `Nd.C86_pick_range` (PCQ), `Nd.C86_ancestors` (PCQ), `Nd.C86_systematic` (PCQ), `Nd.C86_unbatched` (PCQ), `Nd.C86_refuses` (PCQ) |
| C87 | `Nd.C87_digit_to_frame` (PCQ), `Nd.C87_frame_to_digit` (PCQ), `Nd.C87_conv_kernel` (PCQ), `Nd.C87_conv_kernel_prior` (PCQ), `Nd.C87_coor_nets` (PCQ), `Nd.C87_coor` (PCQ), `Nd.C87_enc_coor` (PCQ), `Nd.C87_frame_size` (PCQ), `Nd.C87_enc_digit` (PCQ), `Nd.C87_decoder` (PCQ) |
| C88 | `Fp.C88_in_range` (PCQ), `Fp.C88_raises` (PCQ), `Fp.C88_offspring` (PCQ), `Fp.C88_float32` (PCQ) |
| C89 | `Fp.C89_new_weight_close` (PCQ), `Fp.C89_ess_close` (PCQ), `Fp.C89_ess_percent` (PCQ), `Fp.C89_ess_exact` (PCQ), `Fp.C89_log_z_close` (PCQ), `Fp.C89_overflow` (PCQ), `Fp.C89_underflow` (PCQ), `Fp.C89_low_float32` (PCQ), `Fp.C89_high_float32` (PCQ), `Fp.C89_ess_float32` (PCQ), `Fp.C89_ess_nan` (PCQ), `Fp.C89_new_weight_float32` (PCQ), `Fp.C89_exact` (PCQ), `Fp.C89_new_weight_infinite` (PCQ) |
| C90 | `Disp.C90_show` (PCQ), `Disp.C90_options` (PCQ), `Disp.C90_showall` (PCQ), `Disp.C90_show_only` (PCQ), `Disp.C90_tensor` (PCQ), `Disp.C90_rv_options` (PCQ), `Disp.C90_mode` (PCQ), `Disp.C90_ppr` (PCQ), `Disp.C90_autodevice` (PCQ), `Disp.C90_kw_autodevice` (PCQ), `Disp.C90_letters` (PCQ) |
| C91 | `C91_rectangles` (PCQ), `C91_colors` (PCQ), `C91_default` (PCQ), `C91_around_shape` (PCQ) |
| C92 | `Tests.C92_resample_with_batch` (PCQ), `Tests.C92_resample_without_batch` (PCQ), `Tests.C92_offspring` (PCQ), `Tests.C92_names` (PQ), `Tests.C92_primitive` (PCQ), `Tests.C92_compose` (PCQ), `Tests.C92_cond_eval` (PCQ), `Tests.C92_propose_raises` (PCQ), `Tests.C92_propose` (PCQ), `Tests.C92_extend_weight` (PCQ), `Tests.C92_extend_keys` (PCQ), `Tests.C92_extend_conditioned` (PCQ), `Tests.C92_extend_propose` (PCQ), `Tests.C92_extend_propose_coincidence` (PCQ) |
| C93 | `Tests.C93_loop` (PCQ), `Tests.C93_agrees` (PCQ) |
| C94 | `C94_stateless` (PCQ), `C94_independent` (PCQ), `C94_average` (PCQ), `C94_second_moment` (PCQ), `C94_deviation` (PCQ), `C94_all_overestimate` (PCQ), `C94_evidence` (PCQ), `C94_evidence_overestimate` (PCQ), `C94_vsmc_reusable` (PQ), `C94_store_matters` (PQ), `C94_vsmc` (PCQ) |
| C95 | `Tabulate.C95_exclusive` (PCQ), `Tabulate.C95_table` (PCQ), `Tabulate.C95_no_weights` (PCQ), `Tabulate.C95_labels` (PCQ), `Tabulate.C95_print` (PCQ) |
| C96 | `C96_avo` (PCQ), `C96_rkl` (PCQ), `C96_gradient` (PCQ), `C96_not_joint` (PCQ) |
| C97 | `Nd.C97_lanes` (PCQ), `Nd.C97_raises` (PCQ), `Nd.C97_bounds` (PCQ), `Nd.C97_test` (PCQ), `Nd.C97_test_negative` (PCQ), `Nd.C97_train` (PCQ), `Nd.C97_default` (PCQ) |
| C98 | `C98_coor` (PCQ), `C98_digit` (PCQ), `C98_dec` (PCQ), `C98_loss` (PCQ), `C98_decoder_gradient` (PCQ), `C98_coor_gradient` (PCQ), `C98_digit_gradient` (PCQ), `C98_needs_detach` (PCQ) |
| C99 | `C99_law` (PCQ), `C99_unbiased` (PCQ), `C99_consistent` (PCQ), `C99_posterior` (PCQ), `C99_bouncing_evidence` (PCQ), `C99_bouncing_posterior` (PCQ), `C99_ess` (PCQ), `C99_bouncing_ess` (PCQ) |
| C100 | `ApgEval.C100_raises` (PCQ), `ApgEval.C100_type_error` (PCQ), `ApgEval.C100_repaired` (PCQ), `ApgEval.C100_samples` (PCQ) |
| C101 | `C101_shift` (PCQ), `C101_copy` (PCQ), `C101_tie_rows` (PCQ), `C101_tie_columns` (PCQ), `C101_decoder_near` (PCQ), `C101_decoder_centre` (PCQ), `C101_decoder_corner` (PCQ), `C101_video` (PCQ), `C101_few_shapes` (PCQ), `C101_choice` (PCQ), `C101_load` (PCQ), `C101_padding` (PCQ), `C101_load_again` (PCQ), `C101_no_ties` (PCQ), `C101_almost_surely` (PCQ) |
| C102 | `SimMain.C102_options` (PCQ), `SimMain.C102_exits` (PCQ), `SimMain.C102_files` (PCQ), `SimMain.C102_all` (PQ), `SimMain.C102_training` (PCQ), `SimMain.C102_stale` (PCQ), `SimMain.C102_no_slash` (PCQ), `SimMain.C102_raises` (PCQ), `SimMain.C102_run` (PCQ), `SimMain.C102_defaults` (PCQ) |
| C103 | `C103_nest` (PCQ), `C103_alive` (PCQ), `C103_same` (PCQ), `C103_reruns` (PQ), `C103_hook` (PQ) |
| C104 | `Fp.C104_path` (PCQ), `Fp.C104_extra` (PCQ), `Fp.C104_too_many` (PCQ) |
| C105 | `Fp.C105_box` (PCQ), `Fp.C105_exact` (PCQ) |
| C106 | `Fp.C106_float32` (PCQ), `Fp.C106_float64` (PCQ) |
