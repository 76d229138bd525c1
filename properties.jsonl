{"id": "C01", "title": "Unconditioned program weight", "statement": "Calling a Program that has no conditioning trace returns a log_weight equal to the sum of the log_probs of exactly the OBSERVED variables of the returned trace; sampled variables contribute nothing.", "quantifier": "every model (any value-dependent control flow), every input, every kwargs, every random outcome", "why_tests_cant": "models branch on sampled values, so there are unboundedly many traces", "anchors": ["combinators/program.py: Program.forward", "tests/test_inference.py: test_run_a_primitive_program"]}
{"id": "C02", "title": "Conditioned program weight and value reuse", "statement": "Calling a Program with a conditioning trace: an address that the model samples and that the conditioning trace holds takes the trace's value with provenance REUSED and consumes no randomness; every other sampled address is SAMPLED and draws once; an address given a value takes it, as OBSERVED unless the model names another provenance. The trace is exactly what the calls of trace.variable and the variables injected by hand leave. log_weight is the sum of the log_probs of the OBSERVED variables and of those whose address the conditioning trace holds as non-OBSERVED; for models that only use trace.variable, without naming provenances, the latter are those reused from a non-OBSERVED variable.", "quantifier": "every model (also models that read their traces, inject variables or sample outside of the trace), conditioning trace, input and random outcome", "why_tests_cant": "every pair of model and trace is a different case", "anchors": ["combinators/program.py: Program.forward", "combinators/trace/utils.py: maybe_sample"]}
{"id": "C03", "title": "Replay", "statement": "Conditioning a Program on a trace that the same Program produced (same input and kwargs, and the same contents of the global store) reproduces the same addresses in the same order, the same values and log_probs and the same output, draws no random number, and gives log_weight equal to the trace's full log_joint. A model that samples outside of its trace draws again, and one that asks for its conditioning trace may return something else.", "quantifier": "every model that uses its trace through trace.variable (values given or not, any provenances) and possibly the global store; every input and first run, conditioned or not; witnesses for other models", "why_tests_cant": "replay must hold for every trace the model can produce", "anchors": ["combinators/program.py: Program.forward, WithSubstitution"]}
{"id": "C04", "title": "Substitution hygiene, also under exceptions", "statement": "If no object of a combinator graph holds a conditioning trace before a call, none does after it, whether the call returns or raises, at whatever point it raises.", "quantifier": "every combinator graph (including graphs that share objects), every input, every random outcome, every raising point", "why_tests_cant": "exceptions can surface at any statement of any nested model", "anchors": ["combinators/program.py: WithSubstitution", "combinators/inference.py: Extend.__call__, Propose.__call__"]}
{"id": "C05", "title": "Substitution is lexically scoped", "statement": "For graphs in which no object is conditioned while it is also reachable below the conditioned object, a call behaves exactly like a pure evaluator that passes the conditioning trace down as an argument; in general it does not, because leaving a substitution context resets to None instead of restoring.", "quantifier": "every graph meeting the sharing condition; a concrete graph violating it", "why_tests_cant": "sharing patterns and nestings are unbounded", "anchors": ["combinators/program.py: WithSubstitution.__enter__, __exit__", "combinators/inference.py: Extend.__call__"]}
{"id": "C06", "title": "Only Programs and Extend are conditionable", "statement": "A conditioning trace placed on a Compose, Propose or Resample object has no effect on the result of calling it.", "quantifier": "every such object, every trace, input and outcome", "why_tests_cant": "all graphs and traces", "anchors": ["combinators/inference.py: Compose, Propose, Resample", "combinators/program.py: Conditionable"]}
{"id": "C07", "title": "Compose", "statement": "A Compose that returns has: q2 was run on q1's output; log_weight = q1's + q2's; output = q2's; trace addresses = disjoint union of both with each variable unchanged. If the two traces share an address the call raises.", "quantifier": "every q1, q2, input, outcome", "why_tests_cant": "arbitrary sub-combinators", "anchors": ["combinators/inference.py: Compose.__call__", "tests/test_inference.py: test_compose"]}
{"id": "C08", "title": "Extend", "statement": "An Extend that returns has: f was run on p's output; log_weight = p's log_weight + sum of all log_probs in f's trace; output = f's output; trace = disjoint union; f's trace has no OBSERVED variable and, if unconditioned, no REUSED one; marginal keys/output are p's. Overlap or an OBSERVED variable in f raises.", "quantifier": "every p, f, input, conditioning trace, outcome", "why_tests_cant": "arbitrary programs", "anchors": ["combinators/inference.py: Extend.__call__"]}
{"id": "C09", "title": "Propose importance weight", "statement": "A Propose that returns has log_weight = q.log_weight + p.log_weight - sum of q's log_probs over the addresses that are OBSERVED in q or are latent in both q and p, where p was run conditioned on q's trace with the same input.", "quantifier": "every p, q, input, outcome", "why_tests_cant": "arbitrary nesting on both sides", "anchors": ["combinators/inference.py: Propose.__call__", "tests/test_inference.py: test_propose (skipped)"]}
{"id": "C10", "title": "Propose marginalises extensions", "statement": "The trace returned by Propose(Extend(p, f), q) holds exactly p's part of the target trace (none of f's addresses) and its output is p's output; with a plain Program p it is p's whole trace and output.", "quantifier": "every p, f, q", "why_tests_cant": "arbitrary programs", "anchors": ["combinators/inference.py: Propose.marginalize"]}
{"id": "C11", "title": "Which proposals Propose accepts", "statement": "Propose reads a _debug attribute on its proposal, so a Propose whose proposal is a plain Program (no such attribute) never returns normally, although the constructor accepts it; with a combinator proposal this read never fails.", "quantifier": "every p, every plain Program q, every input and outcome", "why_tests_cant": "must hold for all programs", "anchors": ["combinators/inference.py: Propose.__call__ lines 429-431", "combinators/program.py: Program"]}
{"id": "C12", "title": "Propose detaches what it passes on", "statement": "The log_weight returned by Propose is detached, and so are a tensor output and every tensor stored directly in a dict output; non-tensors are passed unchanged; the incremental weight lv is not detached. Tensors nested deeper in the output dict are not detached.", "quantifier": "every p, q, output value", "why_tests_cant": "all output structures", "anchors": ["combinators/inference.py: Propose.__call__ lines 395-410"]}
{"id": "C13", "title": "Loss accumulation", "statement": "The loss of a nest of combinators is the right fold of the loss functions along its proposal spine (Compose to q1, Propose and Resample to q, Extend to p) starting from the innermost combinator's loss0; losses of the other branches never contribute.", "quantifier": "every nest, every loss function", "why_tests_cant": "unbounded nesting", "anchors": ["combinators/inference.py: Inf, *.__call__ out['loss']"]}
{"id": "C14", "title": "Index scoping", "statement": "The ix received by a program is that of the nearest enclosing combinator with a non-None ix on its path, and the caller's ix if there is none.", "quantifier": "every nest, every choice of indices", "why_tests_cant": "unbounded nesting", "anchors": ["combinators/inference.py: *.__call__ ix handling"]}
{"id": "C15", "title": "Keyword filtering", "statement": "A Program's model receives exactly those of the call's keyword arguments that its signature can take by name (all when it has **kwargs); dispatch to a plain function passes exactly the accepted ones; dispatch to a Program passes on what __call__ or forward accept and of the rest what model accepts. A model that takes fewer than three positional arguments (self, trace, input) and no *args raises TypeError on every call.", "quantifier": "every signature, every kwargs", "why_tests_cant": "all signatures and argument sets", "anchors": ["combinators/program.py: check_passable_kwarg, dispatch, Program.forward"]}
{"id": "C16", "title": "Debugging does not change results", "statement": "Switching the constructor's or the call's _debug flag changes no trace, weight, output or loss; it only adds the sub-results (for models and loss functions that do not look at the flag or the added entries).", "quantifier": "every nest, input, outcome", "why_tests_cant": "every combination of flags on unbounded nests", "anchors": ["combinators/inference.py: debugging"]}
{"id": "C17", "title": "copytraces merges", "statement": "copytraces returns the union of its traces without the excluded addresses; on a repeated address LastWriteWins keeps the last, FirstWriteWins the first variable; addresses appear in order of first occurrence.", "quantifier": "every list of traces, exclusion set, mode", "why_tests_cant": "unbounded lists", "anchors": ["combinators/trace/utils.py: copytraces"]}
{"id": "C18", "title": "copytraces NoOverlaps", "statement": "With mode NoOverlaps copytraces raises if and only if two of its traces share a non-excluded address; a copy of one trace equals it.", "quantifier": "every list of traces", "why_tests_cant": "unbounded lists", "anchors": ["combinators/trace/utils.py: copytraces"]}
{"id": "C19", "title": "Resample keeps the trace structure", "statement": "Resample keeps the address set and order of the trace, the provenance, distribution and flags of every variable, and leaves OBSERVED or non-resamplable variables untouched; its output dict has the same keys, and every output entry whose key is a trace address equals the resampled variable's value. Systematic raises AssertionError for sample_dims other than 0 and for weights with two dimensions without a batch_dim, AttributeError for the Python float 0.0 as weight, and otherwise returns.", "quantifier": "every trace, weights, output dict and random outcome", "why_tests_cant": "all traces", "anchors": ["combinators/resamplers.py: Systematic.__call__", "combinators/inference.py: Resample.__call__"]}
{"id": "C20", "title": "Systematic ancestors are valid and sorted", "statement": "Every ancestor index is a valid particle index, there are exactly n of them, and they are non-decreasing within a batch element.", "quantifier": "every particle count n>=1, weights, offset u in [0,1)", "why_tests_cant": "all real weight vectors and offsets", "anchors": ["combinators/resamplers.py: Systematic.ancestor_indices_systematic"]}
{"id": "C21", "title": "Systematic offspring counts", "statement": "For an offset 0 < u < 1 particle i gets at least floor(n*w_i) and at most ceil(n*w_i) offspring, where w is the normalised weight, and equal weights give every particle exactly one offspring. At u = 0, which torch.rand can return, the bounds are floor-1 and floor+1, and equal weights give particle 0 two offspring and the last particle none.", "quantifier": "every n, weights, offset", "why_tests_cant": "all real weight vectors", "anchors": ["combinators/resamplers.py: Systematic.ancestor_indices_systematic"]}
{"id": "C22", "title": "Zero-weight particles die", "statement": "A particle of weight zero is never selected, except particle 0 when the offset u is exactly 0, in which case it is.", "quantifier": "every n, weights, offset; the exceptional witness", "why_tests_cant": "measure-zero boundary", "anchors": ["combinators/resamplers.py: searchsorted right=False"]}
{"id": "C23", "title": "Systematic resampling is unbiased", "statement": "The expected number of offspring of particle i over a uniform offset is n*w_i, hence the resampled equally weighted estimate of any function has the same expectation as the weighted estimate.", "quantifier": "every n, weights, test function", "why_tests_cant": "an integral over all offsets", "anchors": ["combinators/resamplers.py: Systematic"]}
{"id": "C24", "title": "Resampled weights preserve the evidence estimate", "statement": "Every resampled log weight equals log of the mean of the incoming weights, so log_Z_hat is unchanged and the effective sample size becomes n; with normalize_weights every log weight is -log n.", "quantifier": "every n>=1, every log weight vector", "why_tests_cant": "all real vectors", "anchors": ["combinators/resamplers.py: Systematic.__call__ lines 111-118", "combinators/metrics.py"]}
{"id": "C25", "title": "Particles stay aligned", "statement": "After resampling, slot s of every resampled variable holds value and log_prob of one and the same ancestor particle a(s), for all variables and output entries at once. OBSERVED variables keep the old order, so their log_probs are not aligned with the resampled particles.", "quantifier": "every trace, weights, outcome; a witness for the OBSERVED case", "why_tests_cant": "joint over all variables", "anchors": ["combinators/resamplers.py: Systematic.__call__, pick"]}
{"id": "C26", "title": "Shape of resampled weights", "statement": "Which shapes systematic resampling accepts and what comes back. With a batch dimension: n x b weights with dimension 1 (or -1), square weights also with dimension 0, and n-vectors with dimension 0 if every variable starts with n x n; the log weight keeps its shape. With batch_dim=None exactly the n-vectors, and the weight comes back as n x 1. Everything else raises.", "quantifier": "every shape of weights and variables, every dimension", "why_tests_cant": "all shapes", "anchors": ["combinators/resamplers.py: Systematic.__call__ lines 65-69,111-118"]}
{"id": "C27", "title": "Effective sample size", "statement": "effective_sample_size equals (sum w)^2/sum w^2, lies in [1, n], is n exactly for equal weights, and does not change when a constant is added to all log weights.", "quantifier": "every n>=1, every real log weight vector", "why_tests_cant": "all real vectors", "anchors": ["combinators/metrics.py: effective_sample_size"]}
{"id": "C28", "title": "Evidence estimate", "statement": "log_Z_hat(lw + c) = log_Z_hat(lw) + c; it lies between the mean and the maximum of lw.", "quantifier": "every n>=1, lw, c", "why_tests_cant": "all real vectors", "anchors": ["combinators/metrics.py: log_Z_hat, Z_hat"]}
{"id": "C29", "title": "Proper weighting of nested combinators", "statement": "For every nest of Program, Compose and Propose (to any depth, the proposal of a Propose may be any such nest and its target a program extended any number of times by kernels with Extend) whose call does not raise, the expectation of exp(log_weight)*h(trace, output) equals the integral of h against the unnormalised density of what the nest targets (Propose: its target without the kernels); in particular the mean of exp(log_weight) is the target's normalising constant. Needed: parts of a Compose have different names; a proposal samples everything its target's kernels sample and observes nothing its target samples. Without these, and for an Extend outside of a Propose, the claim is false.", "quantifier": "every nest, every model with value-dependent structure, every non-negative measurable h, every base measure (discrete or continuous) and normalised density", "why_tests_cant": "an identity between expectations over all random outcomes; a test can only estimate it for a few models with sampling noise", "anchors": ["combinators/inference.py: Compose, Extend, Propose", "combinators/program.py: Program.forward"]}
{"id": "C30", "title": "K-step nested variational inference weight", "statement": "vsmc on an annealing model with K kernels (K+1 targets) and no resampling never raises if the objective returns for every step's result, draws z_0 from g_0 and each z_{k+1} from the forward kernel at z_k, and returns log weight equal to the sum over k of [g_{k+1}(z_{k+1}) + r_k(z_k|z_{k+1})] - [g_k(z_k) + f_k(z_{k+1}|z_k)] for the values drawn, whether or not stl_trace transforms the proposal traces. The loss is the sum of the objective's values on the steps, each step's result having the index, increment, incoming weight, proposal and target densities of that step.", "quantifier": "every K, targets, kernels, objective that returns (nvo_avo and nvo_rkl do, C59), random outcome", "why_tests_cant": "unbounded K; the repository's test is skipped", "anchors": ["experiments/annealing/vsmc.py: vsmc", "tests/test_annealing.py: test_K_step_nvi, compute_nvi_weight"]}
{"id": "C31", "title": "GlobalStore is a dict with hooks", "statement": "With default hooks the global store behaves like a dict over every history; pre/post hooks run around the access in order; a post_get hook's non-None result replaces the value; setting an unknown hook raises and changes nothing. Resample's notification calls the resample_update hook with the traces before and after, in this order, and raises what it raises.", "quantifier": "every operation history and hooks", "why_tests_cant": "unbounded histories", "anchors": ["combinators/out.py: GlobalStore"]}
{"id": "C32", "title": "Out and PropertyDict", "statement": "Attribute and item access of a PropertyDict agree for every name that is not an attribute of dict itself; extras override trace/log_weight/output of the same name; iterating an Out yields trace, log_weight, output and the present optional extras.", "quantifier": "every sequence of sets, deletes and gets", "why_tests_cant": "unbounded histories", "anchors": ["combinators/out.py: PropertyDict, Out"]}
{"id": "C33", "title": "valeq", "statement": "valeq returns True or raises, never False; it returns True iff all compared names exist in both traces with equal values; without nodes and strict it compares the shared names only; check_exist has no effect.", "quantifier": "every pair of traces, node set and flags", "why_tests_cant": "all traces", "anchors": ["combinators/trace/utils.py: valeq, trace_eq"]}
{"id": "C34", "title": "Model checkpoint keys", "statement": "models_as_dict maps every model to its own key (no two collide, whatever the names) and save_models followed by load_models with the same structure gives every model back its own state.", "quantifier": "every list of lists of models and names", "why_tests_cant": "all names and sizes", "anchors": ["combinators/utils.py: models_as_dict, save_models, load_models"]}
{"id": "C35", "title": "Linear-Gaussian propagation", "statement": "propagate returns the exact mean and covariance of (x, Fx+t+noise), its marginal, and in reverse order the same joint with blocks swapped; the covariance is symmetric and positive semidefinite.", "quantifier": "every dimension, mean, covariances, F", "why_tests_cant": "all matrices", "anchors": ["combinators/utils.py: propagate"]}
{"id": "C36", "title": "get_stats order", "statement": "On the result of a run of vsmc with K steps, called with _debug=True or built without resampling, get_stats lists exactly K entries, innermost proposal first (entry i is the Propose with index i, its proposal started from entry i-1's result). With resampling, two or more steps and no call-level _debug it raises AttributeError. traverse_proposals ends well exactly when it reaches a Compose of which both parts or none come from a combinator; reaching a plain program it raises NameError, an Extend ValueError, and AttributeError where _debug did not keep the parts.", "quantifier": "every K, with and without resampling", "why_tests_cant": "unbounded nesting", "anchors": ["experiments/annealing/utils.py: traverse_proposals, get_stats"]}
{"id": "C37", "title": "Annealing path", "statement": "Tempered accepts exactly beta in (0,1) and is the beta-weighted interpolation of the end densities. For every n>=2, anneal_between returns exactly n targets: the given ends and, named g1..g{n-2}, interpolations with strictly increasing weights in (0,1) (k/(n-1) with exact arithmetic; any rounding of the step with (n-2)*step<1 gives the same structure). n=1 raises ZeroDivisionError and n<=0 RuntimeError. paper_model(n) has targets g0..g{n-1} in order and n-1 kernels linking consecutive ones.", "quantifier": "every n, densities, beta, point, rounding of the step", "why_tests_cant": "all n", "anchors": ["experiments/annealing/models.py: anneal_between, Tempered"]}
{"id": "C38", "title": "Surrogate terms", "statement": "_eval0(e) has value 0 and the derivative of e, _eval1(e) has value 1 and the derivative of e; nvo_avo is minus the mean of lv. Whenever nvo_rkl returns, its value is the self-normalised estimate of -(lv - log mean exp lv) whatever the surrogate terms, and its derivative is the score-function gradient with the loss value as baseline, minus the weighted derivative of lv, plus the target's log-Z gradient when the target is improper; the log-Z1 term drops out of both.", "quantifier": "every result object, weights, parameter point, derivatives", "why_tests_cant": "all values and derivatives", "anchors": ["experiments/annealing/objectives.py: _eval0, _eval1, nvo_rkl, nvo_avo"]}
{"id": "C39", "title": "nvo_rkl_mod never returns", "statement": "nvo_rkl_mod never returns a value, and raises NameError for every input on which nvo_rkl would return.", "quantifier": "every input", "why_tests_cant": "all inputs", "anchors": ["experiments/annealing/objectives.py: nvo_rkl_mod line 160"]}
{"id": "C40", "title": "rerun_with_detached_values", "statement": "It keeps addresses, order, provenance and distribution, detaches every value and recomputes log_prob from the detached value; it raises exactly when a variable is neither a RandomVariable nor an ImproperRandomVariable.", "quantifier": "every trace", "why_tests_cant": "all traces", "anchors": ["combinators/trace/utils.py: rerun_with_detached_values"]}
{"id": "C41", "title": "APG addresses never collide", "statement": "For every number of timesteps T>=1 and sweeps, gibbs_sweeps builds an object and running it on frames with T time steps raises nothing (no address-overlap assertion, no missing key) except what the resampler itself raises; after the Propose of sweep s at time t the trace holds exactly the positions of sweep s up to t, those of sweep s-1 after t, the appearance of sweep s-1 and the reconstruction, and finally those of the last sweep; the store refers to exactly the trace's positions. With T=0 the object is built but every run raises KeyError; with frames of fewer than T time steps every run raises IndexError, and with frames of more than T every run raises KeyError. With the experiment's hooks the global store accepts weak references only (AssertionError otherwise, nothing changed). With the resampler that Resample makes for itself and the dimensions train_apg passes, nothing is raised at all.", "quantifier": "every T, num_sweeps, network, loss, resampler that keeps addresses, run", "why_tests_cant": "unbounded T and sweeps", "anchors": ["experiments/apgs/gibbs.py: gibbs_sweeps", "experiments/apgs/models.py"]}
{"id": "C42", "title": "APG keys are injective", "statement": "key.z_where(t, sweep) and key.z_what(sweep) give different strings for different arguments, and differ from each other and from recon. The names are z_where_{t}_{sweep} and z_what_{sweep}; a missing argument raises AssertionError.", "quantifier": "all naturals", "why_tests_cant": "all naturals", "anchors": ["experiments/apgs/utils.py: key"]}
{"id": "C43", "title": "Affine transformer maps are inverse", "statement": "For every z_where the digit-to-frame and frame-to-digit coordinate maps are mutually inverse; cropping a pasted digit at the same position gives the digit back exactly, for nearest-pixel sampling and positions in [-1,1]; a pasted frame shows the nearest pixel of the digit within the digit's square and is zero more than half a pixel of the digit outside of it.", "quantifier": "all pixel sizes >0, all z_where, all points", "why_tests_cant": "all reals", "anchors": ["experiments/apgs/affine_transformer.py: Affine_Transformer"]}
{"id": "C44", "title": "Bouncing stays in the box", "statement": "In sim_trajectory every position coordinate stays in [-1,1] and the speed is |dv| at all times, when the initial position is in the box and |dv| <= 2; the trajectory is exactly free flight folded by reflections at the walls. Row t of the returned velocities is the velocity after the move from frame t to frame t+1 (the last row repeats the one before), so it is not the displacement of that move at a bounce. The shape's whole patch then stays inside the frame, and pixels are in [0,1].", "quantifier": "every number of timesteps, start, velocity", "why_tests_cant": "unbounded steps", "anchors": ["experiments/apgs/dataset/simulator.py: sim_trajectory"]}
{"id": "C45", "title": "Chunked saving", "statement": "sim_save_data writes exactly num_seqs sequences in chunks of at most chunk_size, all but the last full, under distinct names; with chunk_size <= 0 it writes nothing, and raises iff num_seqs > 0.", "quantifier": "all num_seqs, chunk_size", "why_tests_cant": "all naturals", "anchors": ["experiments/apgs/dataset/simulator.py: sim_save_data"]}
{"id": "C46", "title": "Minibatches", "statement": "In a training epoch no sequence is used twice, batches after the first condition have exactly batch_size elements, and all sequences are used iff N <= batch_size or batch_size divides N.", "quantifier": "all N, batch sizes, permutations", "why_tests_cant": "all sizes", "anchors": ["experiments/apgs/main.py: train_apg"]}
{"id": "C47", "title": "Weights after unbatched resampling broadcast", "statement": "Resampling without a batch dimension returns n x 1 weights; adding an n-vector of incremental weights to them, as Propose does, gives for n != 1 an n x n tensor whose entry (i, j) combines particle i's weight with particle j's increment. When the two shapes agree (e.g. with a batch dimension) the sum is per particle.", "quantifier": "every n != 1, all weights and increments; every common shape", "why_tests_cant": "all shapes and values", "anchors": ["combinators/resamplers.py: Systematic.__call__", "combinators/inference.py: Propose.__call__ lw_1 + lv"]}
{"id": "C48", "title": "Resampling preserves weighted averages in expectation", "statement": "For every real function of a particle's resampled variables, the weighted average (1/n) sum exp(lw) f over the particles after systematic resampling has, over a uniform offset, exactly the value of the weighted average before resampling.", "quantifier": "every trace, weights, batch element, function", "why_tests_cant": "an integral over all offsets, all functions", "anchors": ["combinators/resamplers.py: Systematic.__call__"]}
{"id": "C49", "title": "Rejection of initial positions", "statement": "When sim_trajectories accepts, the first three initial positions are pairwise more than sqrt(0.5) apart; with fewer than three objects it never returns normally, whatever is drawn. With three objects or more it returns with probability one; the number of rounds is geometric with a positive success probability p, 1/p in the mean, and the accepted positions have the law of independent uniform points conditioned on this separation of the first three.", "quantifier": "every sequence of draws, number of objects", "why_tests_cant": "an unbounded rejection loop over all random draws", "anchors": ["experiments/apgs/dataset/simulator.py: sim_trajectories"]}
{"id": "C50", "title": "Choice of data files", "statement": "get_data_paths takes a generated file for (timesteps, objects) iff it was made with the same number of timesteps and the decimal form of objects is a prefix of the file's: exact for files of fewer than ten objects, and confusing e.g. 3 with 30 otherwise. It raises ValueError iff nothing matches.", "quantifier": "all directory listings and numbers", "why_tests_cant": "all numbers and listings", "anchors": ["experiments/apgs/main.py: get_data_paths", "experiments/apgs/dataset/simulator.py: sim_save_data"]}
{"id": "C51", "title": "stl_trace keeps the right variables", "statement": "On the proposal trace of step k of vsmc (entries g_k and g_{k+1}) stl_trace keeps g_k unchanged and replaces g_{k+1} by the same value and log probability under detached parameters. In general its exclude_nodes string makes it drop every address that is a substring of g{ix+1} (g1 when ix+1 is 10). Without g{ix+1} it raises KeyError, if that has no distribution ValueError, and AssertionError if detaching changes its log probability; nothing else in the trace changes.", "quantifier": "every k, values, distributions, traces", "why_tests_cant": "all indices and addresses", "anchors": ["experiments/annealing/objectives.py: stl_trace, _eval_detached", "combinators/trace/utils.py: copytraces"]}
{"id": "C52", "title": "Mixture density and its normaliser", "statement": "GMM's log density is the log of the plain sum of its components' densities, so with normalised components its normalising constant is the number of components, not 1; RingGMM puts count components on the circle of the given radius, starting at (0, radius), and count=0 raises ZeroDivisionError. As many covariances as means are needed (AssertionError), the i-th component having the i-th of each.", "quantifier": "every list of components, point, base measure, radius, count", "why_tests_cant": "an integral over all points; all component lists", "anchors": ["experiments/annealing/models.py: GMM, RingGMM"]}
{"id": "C53", "title": "Losses of an annealed sampler accumulate step by step", "statement": "On every successful run of vsmc's object (called with _debug=True or without resampling) the loss of the result is the sum over the steps of the objective applied to that step's Propose result, and get_stats lists the running sums in order; neither Compose, Extend nor Resample adds anything.", "quantifier": "every K>=1, kernels, targets, objective, transformation, resampler, run", "why_tests_cant": "all K and objectives", "anchors": ["experiments/annealing/vsmc.py: vsmc", "combinators/inference.py: Inf.foldr_loss, Propose, Compose, Resample", "experiments/annealing/utils.py"]}
{"id": "C54", "title": "Decoder prior of the positions", "statement": "In every Propose of sweep s at time t, the decoder scores the position at time 0 by its prior and each position up to t+1 as a step from the position before it, but every position after t+1 as a step from the position at time t rather than from the position before it: the two branches of get_z_where for t > ix.t are the same.", "quantifier": "every T, s, t, network, run", "why_tests_cant": "all T, s, t and draws; needs T>=3 to show", "anchors": ["experiments/apgs/models.py: _Decoder.get_z_where", "experiments/apgs/gibbs.py: gibbs_sweeps"]}
{"id": "C55", "title": "Populations with systematic resampling are properly weighted", "statement": "Take a vectorised nest of Program, Compose, Propose, Extend (as a target) and Resample with Systematic(normalize_weights=False), for n particles, whose particles all behave like one nest for a single particle, and whose call does not raise. In expectation over every draw and every resampling offset, the mean over the particles of exp(log_weight)*h(trace, output) is the integral of h against the unnormalised measure which the nest for a single particle targets. In particular exp(log_Z_hat) is unbiased for its normalising constant. What is resampled must not observe anything (see C56).", "quantifier": "every nest with resampling anywhere in proposals, every number of particles, every batch element, every non-negative measurable h, discrete or continuous values", "why_tests_cant": "an identity between expectations over all draws and over continuous resampling offsets, whose ancestor indices are dependent; a Monte Carlo test cannot separate a small bias from noise", "anchors": ["combinators/resamplers.py: Systematic", "combinators/inference.py: Resample, Propose, Compose", "combinators/metrics.py: log_Z_hat"]}
{"id": "C56", "title": "Resampling a proposal with observed variables makes the weights wrong", "statement": "Proper weighting fails if a resampled proposal observes a variable: Resample leaves OBSERVED variables where they are while the following Propose divides by the proposal's observed log probabilities, now those of other particles. For a coin 'x' and an observed 'y' (heads with probability 3/4 or 1/2) with two particles, Propose(m, Resample(m)) never raises and satisfies all other conditions of C55, but the mean weight has the expectation 41/64 instead of the normalising constant 5/8.", "quantifier": "over all draws and offsets of this program (a counterexample to the claim C55 without its restriction)", "why_tests_cant": "the bias (1/64) is an integral over the offset; a run shows plausible weights and no error", "anchors": ["combinators/resamplers.py: Systematic", "combinators/inference.py: Resample, Propose", "experiments/apgs/gibbs.py:31-73"]}
{"id": "C57", "title": "Annealed SMC with resampling is unbiased for any number of steps", "statement": "vsmc with resample=True, any number K of steps and any number of particles, for every annealing model (normalised initial distribution and kernels, arbitrary targets), with or without stl_trace: the call never raises, leaves all state as it was, returns exactly the last target's variable, and the mean over the particles of exp(log_weight)*h(z_K) is in expectation the integral of h against the last target's density. The mean weight is an unbiased estimate of the last normalising constant, whatever the kernels and intermediate targets.", "quantifier": "every K, every number of particles, every annealing model with discrete or continuous values, every measurable h, every objective that returns on each step's result and every optional trace transformation of the experiment", "why_tests_cant": "over all numbers of steps and all random outcomes including the offsets of each resampling", "anchors": ["experiments/annealing/vsmc.py: vsmc", "experiments/annealing/models.py", "combinators/inference.py", "combinators/resamplers.py"]}
{"id": "C58", "title": "What nvo_rkl minimises", "statement": "For a step with enumerated outcomes (one particle per pair of values, weighted by the proposal's probability; smooth densities, normalised kernels), whenever nvo_rkl returns, its derivative is the derivative of KL(g1/Z1 q || g2/Z2 r) plus the derivative of log Z1 minus the score term of the forward kernel; with a reparameterised forward kernel it is the divergence's derivative plus that of log Z1. Its value is the divergence with log(Z2/Z1) replaced by the log of the unweighted mean of exp(lv). So the minimum of the divergence is not a stationary point when Z1 depends on trained parameters (optimize_path); an instance has divergence 0 and loss derivative 1/2.", "quantifier": "every finite step, densities, kernels, parameter point, derivatives; particles enumerating the outcomes", "why_tests_cant": "identity of derivatives for all densities; a loss that goes down says nothing about its stationary points", "anchors": ["experiments/annealing/objectives.py: nvo_rkl", "experiments/annealing/models.py: mk_model, anneal_between"]}
{"id": "C59", "title": "Loss of a whole annealed run", "statement": "vsmc without resampling never raises with nvo_avo nor, given at least one particle, with nvo_rkl. With nvo_avo the loss is minus the mean over the particles of the sum of the increments, as a function of the parameters; its value is minus the mean of the result's log weight, and minus the loss is at most log_Z_hat of that log weight. With nvo_rkl the value is the sum over the steps of the mean of -(increment - log_Z_hat of the increments) under the normalised weights the step starts with; with one step it is never negative, with three steps it can be negative although it stands for a sum of divergences.", "quantifier": "every K>=1, number of particles, batch, annealing model, random outcome, parameter point", "why_tests_cant": "all K and values; the tests of the objectives use fixed steps", "anchors": ["experiments/annealing/vsmc.py: vsmc", "experiments/annealing/objectives.py: nvo_avo, nvo_rkl", "combinators/metrics.py: log_Z_hat"]}
{"id": "C60", "title": "Static conditions under which calls never raise", "statement": "If a nest of programs and combinators follows a static discipline on names (each program binds the same names in every run; Compose and Extend combine disjoint names; a kernel of Extend observes nothing and, without conditioning, reuses nothing; a Propose's proposal object has a _debug attribute and at least one density makes its weight a tensor; Resample gets a tensor weight, a resampler that keeps names and a dict output of tensors; loss functions return), then every call returns, leaves no conditioning trace behind, and its trace holds exactly the predicted names with the predicted provenances; the log weight is a tensor exactly when predicted. Systematic is such a resampler, and every nest vsmc builds follows the discipline. Without the disjointness, the kernel condition, the _debug attribute or the tensor weight every call raises. For disciplined nests C29 and C55 need no assumption that nothing is raised.", "quantifier": "every nest, program, input, keyword arguments, conditioning trace with the given names, random outcome; every number of annealing steps", "why_tests_cant": "nests of any depth and models with unbounded branching; a test that returns once says nothing about the other outcomes", "anchors": ["combinators/inference.py: Resample, Extend, Compose, Propose", "combinators/program.py: Program.forward", "combinators/resamplers.py: Systematic", "experiments/annealing/vsmc.py: vsmc"]}
{"id": "C61", "title": "Algebraic laws of the combinators", "statement": "With the default attributes (no loss function, no index) Compose is associative: both bracketings of three objects make the same draws and return the same variables, log weight, output and loss, or both raise. A program that records nothing and returns its input is a unit of Compose; on the right of it only up to the loss, which is lost. Called without a conditioning trace, extending twice by programs is extending once by their composition; as the target of a Propose it is not (Compose does not pass the conditioning trace on: mean weight 5/4 instead of 1). A program proposed by itself weighs its observations alone. In two nested Proposes the first target's densities cancel when the second target reuses what the proposal provided. Sides that agree have the same expectations of everything computed from their results.", "quantifier": "every object, input, keyword arguments, world and random outcome", "why_tests_cant": "equations between nests for all programs and outcomes", "anchors": ["combinators/inference.py: Extend, Compose, Propose"]}
{"id": "C62", "title": "Weights bound the evidence", "statement": "For every nest of programs, Compose and Propose that is properly weighted (C29) the log weight exceeds the log of the target's normalising constant by a with probability at most exp(-a), and its mean is at most the log of the normalising constant if everything is drawn from normalised distributions: the mean log weight, which the variational objectives maximise, is a lower bound of the log evidence. The same holds for log_Z_hat of a population of particles that is resampled anywhere with Systematic(normalize_weights=False) (C55), and for vsmc with resampling for every number of particles and steps (C57).", "quantifier": "every nest, input, base measure, threshold, number of particles and of steps", "why_tests_cant": "probabilities and means over all runs; a test sees finitely many runs and rare overestimates dominate the mean", "anchors": ["combinators/inference.py: Propose, Compose, Resample", "combinators/metrics.py: log_Z_hat", "experiments/annealing/objectives.py: nvo_rkl"]}
{"id": "C63", "title": "What nvi_test reports", "statement": "nvi_test, applied to vsmc without resampling as main.py does, never raises when there are at least two targets, and reports for each step t the log weight of annealed importance sampling after t+1 steps, its effective sample size and evidence estimate, the sum of the losses up to there, and the value drawn at that step under the name g(t+1); with one target it always raises NameError. What it reports about step t is distributed as the result of vsmc with t+1 steps: the samples weighted by exp(lw) represent the density of g(t+1), exp of the evidence estimate is unbiased for its normalising constant, and the mean of the evidence estimate is at most the log of that constant. The loss and log weight that nvi_train watches are those of the last row of get_stats, with or without resampling.", "quantifier": "every annealing model, number of steps, objective that returns, keyword arguments and random outcome; every number of particles and batch elements", "why_tests_cant": "identities for all draws and expectations over all runs", "anchors": ["experiments/annealing/main.py: nvi_test, nvi_train", "experiments/annealing/utils.py: get_stats"]}
{"id": "C64", "title": "The log weights of the amortized Gibbs sampler, step by step", "statement": "Every Propose of gibbs_sweeps comes from a result of the Propose before, resampled to a trace t1 and log weight lw1: it draws one new position (or the appearance) from the kernel, and its log weight is lw1 plus the log joint of the new values plus the reverse kernel's density of the replaced value, minus all log_probs in t1 and the kernel's density of the new value. In t1 the log_probs of positions and appearance of a slot are those of its ancestor, but the frames' log_prob is still the slot's own, so their sum is the ancestor's joint only up to the difference of two likelihoods. With one particle the sampler draws exactly as the written-out algorithm (importance sampling, then sweeps) and returns its values and log weight; because gibbs_sweeps tells Resample to normalize weights, each resampling sets the log weight of a single particle to 0, and with at least one sweep the returned log weight is that of the last step alone.", "quantifier": "every number of time steps >= 1, sweeps, objects and particles, networks, resampler that keeps addresses and provenances, keyword arguments and random outcome", "why_tests_cant": "identities for all draws, sequence lengths and sweeps", "anchors": ["experiments/apgs/gibbs.py: gibbs_sweeps", "experiments/apgs/models.py", "combinators/resamplers.py: Systematic.__call__", "combinators/inference.py: Resample, Propose"]}
{"id": "C65", "title": "What the weights of the amortized Gibbs sampler estimate", "statement": "For one particle: importance sampling alone (no sweeps) is properly weighted for the generative model of positions, appearance and frames, and so is the sampler with any number of sweeps if resampling keeps the weight (normalize_weights=False): the expectation of the weight times any function of positions and appearance is the integral of the function against the model's density, in particular the expected weight is the evidence, although the steps in between use other priors (C54). As the code is, with normalize_weights=True, the expected weight of a sampler with at least one sweep is another number: an average, over the particles before the last step, of the model's density integrated over the appearance, divided by the model's density of the particle and multiplied by the kernel's density; in an example it is 4/3 where the evidence is 1/2.", "quantifier": "every number of time steps >= 1 and of sweeps, base measures (one per distribution; sigma-finite for positions, s-finite for appearance), measurable network densities with normalised kernels, measurable function", "why_tests_cant": "an identity between integrals over all runs", "anchors": ["experiments/apgs/gibbs.py: gibbs_sweeps", "experiments/apgs/models.py", "combinators/inference.py: Resample, Propose, Extend, Compose"]}
{"id": "C66", "title": "The losses of the amortized Gibbs sampler", "statement": "The loss of the initial importance sampling is loss_is at the returned log weight, the log density of all that was drawn and the log joint with the frames; the loss of every later Propose is that of the Propose before, which resampling passes on, plus loss_apg at the returned log weight, the forward kernel's log density of the one value drawn and the log density of the frames given the returned values. So no step is missed or counted twice, whatever the resampler does. loss_apg raises AssertionError if the Compose of the proposal did not keep its parts (_debug=True is needed), and both raise AttributeError on the result of anything but a Propose. The arithmetic: a loss is minus an average over particles, with the normalised weights, and over the batch, of the two log densities; adding a constant to the log weights of a batch element changes nothing, equal weights give the plain average, the loss lies between the extremes of what it averages, and its derivative in a parameter is the weighted average of the derivatives with the weights held fixed.", "quantifier": "every number of time steps >= 1, sweeps, objects, particles and batch elements, networks, resampler that keeps addresses and provenances, keyword arguments and random outcome", "why_tests_cant": "identities for all draws, sequence lengths, sweeps and weights", "anchors": ["experiments/apgs/objectives.py: loss_is, loss_apg", "experiments/apgs/gibbs.py: gibbs_sweeps", "combinators/inference.py: Propose, Resample, Compose"]}
{"id": "C67", "title": "What a command line of the annealing experiment runs and how its results are named", "statement": "The value of every option is the last one given, under its name or an unambiguous beginning of it, or the default; the parser exits exactly for unknown or ambiguous options, for help, and for an integer option with something else. A flag (resample, optimize_path, train_and_test, smoketest) is on for every text except the empty one, so --resample=False turns resampling on. A run that completes trains with 288 particles divided by the number of targets, rounded down, whatever --sample_budget says, which changes nothing but file names; it saves the model, or with train_and_test off loads it; it tests a program built anew without resampling, with 1000 particles and 100 batches, unless smoketest is on; it plots only runs with resampling, an optimised path and 8 targets. An objective that is none of the three ends the run with TypeError before anything but making directories. Two runs have the same name exactly if they agree in resample, optimize_path, objective, sample_budget, num_targets, iterations and seed, and one reads the model another wrote exactly in that case. The script that collects metrics takes a file for a group exactly if the settings agree and the digits of its number of iterations begin with those of the group's, so that runs of 200000 iterations count among those of 20000; reading a group's prefix back gives its settings, except that the number of targets is right only below ten and that prefixes with nvo_rkl_mod raise ValueError. An exception of any step ends the run there: the steps before it have happened and none after it do; with train_and_test on and --num_targets=0 the run ends with an exception before anything is trained, saved, tested or plotted. An integer option takes exactly the decimal numerals, with single underscores allowed between two digits, an optional sign in front and white space around, and reads the number written.", "quantifier": "every command line of arguments --option=value, set of existing directories, and behaviour of the steps (any may raise)", "why_tests_cant": "injectivity of names and equivalences over all settings", "anchors": ["experiments/annealing/main.py: __main__", "experiments/annealing/utils.py: save_nvi_model, load_nvi_model", "combinators/utils.py: save_models, load_models", "experiments/annealing/scripts/tabulate_and_plot.py: get_file_prefix, from_file_prefix, load_metrics"]}
{"id": "C68", "title": "The effective sample size that APG training reports", "statement": "train_apg computes its metric ess from the attribute lw of what gibbs_sweeps returns. That is the log weight which entered the last step, directly after resampling, and with the resampler that Resample makes for itself it is the same for all particles. So with at least one sweep the metric is the number of particles in every iteration, whatever the networks, frames and weights are; it says nothing about the weights returned, whose effective sample size can be smaller. Without sweeps the metric is 0.", "quantifier": "every network, number of particles, batch elements, timesteps and sweeps, input, loss function and run", "why_tests_cant": "a test sees a plausible number between 1 and the sample size; that it cannot vary is a statement about all runs", "anchors": ["experiments/apgs/main.py: train_apg", "experiments/apgs/gibbs.py: gibbs_sweeps", "combinators/inference.py: Propose, Resample", "combinators/metrics.py: effective_sample_size"]}
{"id": "C69", "title": "What a training run of the APG sampler does", "statement": "A run of train_apg without smoketest that ends without an exception reads, in each of num_epochs epochs, every data file once in some order, makes one optimiser step for each minibatch of a random order of the file's sequences, then saves the parameters and prints the means of the metrics over exactly these steps; so the numbers of steps, checkpoints and printed lines are determined by the numbers of sequences, and a metric that is the same in all steps (as the effective sample size is, C68) is what every line says. The loops raise only what a step or reading a file raises, AssertionError for a file with another number of timesteps, and ZeroDivisionError for batch size 0. With smoketest the run does the same except for printing, up to and including step number max(1, iterations), prints one line whose sums are divided by the number of minibatches of the last file even if only some were used, and returns without saving; with fewer steps it prints nothing. Before the loops the run raises unless the budget allows a particle per sweep and one, data_dir + 'mean_shape.pt' (no separator) can be read, some file fits, and ./results exists already or smoketest is on. Two runs share checkpoint and log file exactly if they agree in timesteps, objects, sweeps and particles.", "quantifier": "all arguments, data files, shuffles, permutations and behaviours of a step (any may raise)", "why_tests_cant": "whole runs over all configurations", "anchors": ["experiments/apgs/main.py: train_apg, get_model_version, get_mean_shape, get_data_paths, cleanup"]}
{"id": "C70", "title": "Programs of the annealing experiment on their own", "statement": "A Density, Tempered or GMM called without a conditioning trace, or with one that lacks its variable, raises AssertionError; otherwise it draws nothing, takes the value over as REUSED, and its log weight is its log density there. A Distribution or a kernel draws exactly one value with log weight 0.0, unless the conditioning trace has its variable: then it draws nothing, takes the value over and the log weight is the log_prob there. In all cases the log weight is 0.0 if the conditioning trace had the variable as OBSERVED. A kernel raises KeyError if its input lacks the variable it starts from. Without `reparameterized`, maybe_sample goes by the distribution's has_rsample.", "quantifier": "all names, densities, distributions, networks, inputs, keyword arguments and worlds", "why_tests_cant": "all values and conditioning traces", "anchors": ["experiments/annealing/models.py: Density, Distribution, ConditionalMultivariateNormal", "combinators/trace/utils.py: maybe_sample"]}
{"id": "C71", "title": "Annealing kernels before training", "statement": "A new ConditionalMultivariateNormal is a random walk whatever its network's remaining parameters: its mean is its input and its covariance the diagonal of `cov` (too small by less than e^-20 where softplus is linear). Forward and reverse kernels with the same covariance are therefore each other's reverse, and an untrained vsmc run with the kernels of paper_model gives every particle the log weight log g_K(z_K) - log g_0(z_0): the targets in between have no effect on it.", "quantifier": "all networks, covariances with positive diagonal, targets, numbers of steps, particles", "why_tests_cant": "all real parameters and step counts", "anchors": ["experiments/annealing/models.py: ResMLPJ, ConditionalMultivariateNormal, paper_model", "experiments/annealing/vsmc.py: vsmc"]}
{"id": "C72", "title": "Samples of a mixture", "statement": "The n points that GMM.sample([n]) returns are independent draws from the mixture of the components with equal weights, although the code draws them component by component. The number of points is what was asked for exactly if the shape has at most two dimensions or its inner dimensions are 1 (or it is empty).", "quantifier": "all numbers of components and points, all component distributions, all shapes", "why_tests_cant": "equality of probability distributions", "anchors": ["experiments/annealing/models.py: GMM.sample"]}
{"id": "C73", "title": "What training an annealing model does", "statement": "A run of nvi_train on what vsmc builds with K >= 1 steps that returns is exactly this: one call for the shapes whose result is thrown away and that changes no parameter, then `iterations` calls with `_debug=True`, the i-th with the parameters after i updates, each followed by an update from that call's result. The report has one row of K entries per iteration, taken from that iteration's result with the parameters before its update; its last entries are the loss and the metrics of the log weight of the result. Without resampling the calls never raise, and the entries are the metrics of the log weight of annealed importance sampling after each step and the sum of the losses so far; everything raised comes from an update or from .item() with more than one batch element. With a single target it raises NameError.", "quantifier": "all models, kernels, losses, resamplers, keyword arguments, numbers of steps and iterations, update rules", "why_tests_cant": "all executions and parameter trajectories", "anchors": ["experiments/annealing/main.py: nvi_train", "experiments/annealing/utils.py: get_stats"]}
{"id": "C74", "title": "What the optimisers train", "statement": "adam(models) raises AttributeError if an entry is no nn.Module (a combinator, say), ValueError if the list is empty or two entries share a parameter; otherwise it trains every parameter below the listed modules, each exactly once. nvi_train's optimiser on paper_model with two or more targets does not raise and trains exactly the six tensors of each kernel's network and, with optimize_path, one logit per intermediate target. When annealing between ends that have parameters, with three or more targets, it raises ValueError. train_apg's optimiser trains the six tensors of the decoder, the ten of Enc_coor and the eight of Enc_digit, each once; if Enc_coor registered the decoder it would raise.", "quantifier": "all lists of modules; all numbers of targets; all end distributions", "why_tests_cant": "all module trees and path lengths", "anchors": ["combinators/utils.py: adam", "experiments/annealing/main.py: nvi_train", "experiments/annealing/models.py: Tempered, paper_model", "experiments/apgs/models.py: Enc_coor, Enc_digit, DecoderFull", "experiments/apgs/models.py: init_models", "experiments/apgs/main.py: train_apg"]}
{"id": "C75", "title": "Particles are independent, and how far estimates are off", "statement": "In a call of a vectorised nest without resampling that does not raise, the particles are independent: the expectation of a product over any set of particles of exp(log_weight) times a function of the particle's trace and output is the product of the integrals against the particles' targets. Hence the second moment of the sum over the n particles of a batch element is that of the single particles plus n(n-1) times the square of the target's integral T. The mean over the particles differs from T by eps or more with probability at most (V - T^2) / (n eps^2), where V is the particles' mean second moment; V is at most B times the integral of the squared function if no weight exceeds B. In particular exp(log_Z_hat) is within eps of the normalising constant Z except with probability (B Z - Z^2) / (n eps^2).", "quantifier": "all nests without Resample, all numbers of particles and batch elements, discrete or continuous values", "why_tests_cant": "expectations over all draws, all n", "anchors": ["combinators/inference.py", "combinators/metrics.py: log_Z_hat"]}
{"id": "C76", "title": "vsmc without resampling is annealed importance sampling with independent chains", "statement": "vsmc without resampling, called with n particles and any number of steps: the particles' log weights and last values are jointly distributed as n independent chains of annealed importance sampling. The weighted mean of a non-negative function over the particles differs from its integral T against the last target by eps or more with probability at most (V - T^2) / (n eps^2), V being the second moment for one chain; the same holds for exp of every evidence estimate that nvi_test reports. As n grows, weighted means, self-normalised averages and the reported evidence estimates converge in probability for every function with a mean, whatever the vectorisation, batch size, loss and arguments; no second moment need exist. The reported effective sample size as a fraction of n converges to Z^2 / V, Z being the target's normalising constant: to 0 exactly if the variance is infinite.", "quantifier": "all models, kernels, numbers of steps, particles and batch elements; discrete or continuous values", "why_tests_cant": "distributions over all draws and limits in the number of particles", "anchors": ["experiments/annealing/vsmc.py: vsmc", "experiments/annealing/main.py: nvi_test", "combinators/inference.py"]}
{"id": "C77", "title": "What a command line of the APG experiment runs", "statement": "For every command line of --option=value arguments that the script accepts, each setting is the last value given for the option (or for an unambiguous beginning of its name), converted, or the default; the flags --test and --smoketest are on for every non-empty text, so --test=False runs the test. The parser exits exactly for unknown or ambiguous options, --help, or a value that is not the number wanted. A run without --test that ends seeds the generators and calls train_apg with exactly these settings. A run with --test that ends reads data_dir + 'mean_shape.pt', lists data_dir + '/video/', reads the first .pt file of the listing whatever it was made for, builds new models with the same arguments training would use, and calls the sampler once on the first timesteps of all sequences, as many as asked for or as there are, repeated budget // (num_sweeps + 1) times; it reads no parameters, so the models are untrained, and saves nothing. Without a .pt file it raises IndexError.", "quantifier": "all command lines, directories, files", "why_tests_cant": "all command lines and file systems", "anchors": ["experiments/apgs/main.py: test_gibbs_sweep and the script"]}
{"id": "C78", "title": "What nvo_avo minimises", "statement": "vsmc of K >= 1 steps without resampling, with nvo_avo as the loss and n >= 1 particles, whatever the kernels and targets: over all draws, the loss of a batch element has the mean KL(Q || P) - log Z, where Q is the distribution of the path sampled (initial distribution, then forward kernels), P the extended target (last target, then reverse kernels) and Z the normalising constant of the last target. So the mean loss is never below -log Z, it equals -log Z exactly if Q = P, and then the loss is -log Z in every run with probability one.", "quantifier": "all annealing models, numbers of steps and particles", "why_tests_cant": "expectation over all draws; all models", "anchors": ["experiments/annealing/objectives.py: nvo_avo", "experiments/annealing/vsmc.py: vsmc"]}
{"id": "C79", "title": "The annealing experiment of the paper estimates its evidence, whatever its parameters", "statement": "For the model that mk_model(K+1) makes (initial normal distribution with variance 25, tempered targets, ring of eight normals of radius 10, kernels with ResMLPJ networks), with any values of the network parameters and of the logits, before, during and after training, any number of particles and any batch element: kernels are normalised distributions whatever their parameters; the ring has normalising constant 8 and a tempered target a positive one of at most 8 to the power of its inverse temperature; vsmc with systematic resampling never raises on it, its mean weight is 8 and weighted functions of the last values have their integral over the ring as mean; the evidence estimates nvi_test reports have mean at most log 8 for the last target (exp of it has mean exactly 8), and at most the inverse temperature times log 8 for tempered ones; tested without resampling, the estimate for the last target converges to log 8 as the number of particles grows and self-normalised averages converge to means under the ring; the mean loss of nvo_avo is the divergence of the sampled paths from the extended target minus log 8. So log 8, not 0, is the value a perfect model reports. A new model has the targets of paper_model and kernels that are random walks.", "quantifier": "all parameters, numbers of targets, particles and batch elements, test functions", "why_tests_cant": "expectations over all draws, for all parameter values", "anchors": ["experiments/annealing/models.py: paper_model, mk_model, ResMLPJ, ConditionalMultivariateNormal, Tempered, RingGMM", "experiments/annealing/main.py: nvi_test"]}
{"id": "C80", "title": "Variance of the evidence estimates of a new annealing model", "statement": "For the model that mk_model makes, before training (kernels as initialised), tested without resampling with any number of particles: the evidence estimate exp(log_Z_hat) for the ring has a finite second moment exactly if there are at most 25 targets. With at most 25 targets the estimate converges to 8: an estimate from n particles is off by ε or more with probability at most V/(nε²), where V depends on the number of targets only. With 26 targets or more the variance is infinite for every number of particles. The estimate for the target after m steps, with inverse temperature β, has a finite second moment exactly if m < 25 and 1/(2(25-m)) < (1-β)/25 + 2β; with the inverse temperatures of paper_model and at most 103 targets this says m < 25, with more targets the estimate for m = 24 has infinite variance too. The reported effective sample size as a fraction of the number of particles converges: to a positive number with at most 25 targets, to 0 with more.", "quantifier": "all numbers of targets, particles, networks before initialisation, logits", "why_tests_cant": "finiteness of a moment", "anchors": ["experiments/annealing/models.py: paper_model, ConditionalMultivariateNormal.__init__, ResMLPJ.initialize_", "experiments/annealing/main.py: nvi_test"]}
{"id": "C81", "title": "The programs of the bouncing shapes experiment, called on their own", "statement": "Enc_coor raises KeyError without frames or (after sweep 0) without the appearance of the sweep before, IndexError when the frames do not have the time (negative times count from the end), ValueError for a direction other than forward and reverse, and draws and stores nothing then. Forward it draws the objects' positions one after the other, each given those before, whatever the conditioning trace; they become one SAMPLED variable in the trace and the store, and the input is returned, in sweep 0 with the positions added. In reverse it raises TypeError without a conditioning trace and KeyError when that lacks the positions of the sweep before; otherwise it draws nothing, gives them their density under the kernel and returns None. Enc_digit raises KeyError without frames or when the position of some frame is missing; its one variable is this sweep's appearance (forward, then also put in the store) or the last sweep's (in reverse), taken over if the conditioning trace has it and otherwise drawn. DecoderFull cannot be run on its own: while the store lacks this sweep's position of time 0 every call raises, whatever the conditioning trace (KeyError; with one frame and no appearance in the conditioning trace ValueError); with positions in the store every call raises ValueError unless the conditioning trace has the appearance, because an appearance that it draws lacks the sample, batch and object dimensions. With positions in the store and an appearance in the conditioning trace but no positions, it draws each position around the stored position of the time before, not around the one it has drawn, weighs the appearance and the frames given what it has drawn, and returns the stored positions.", "quantifier": "all networks, numbers of objects and frames, indices (time, sweep, direction), inputs, keyword arguments, stores and conditioning traces, and all draws", "why_tests_cant": "The programs are only ever run inside the sampler, which always fills the store and conditions the decoder; the behaviour outside depends on stores, indices and traces that no test enumerates.", "anchors": ["experiments/apgs/models.py:115-200", "experiments/apgs/models.py:225-252", "experiments/apgs/models.py:293-398", "experiments/apgs/utils.py:66-76", "combinators/program.py:60-112"]}
{"id": "C82", "title": "The generative model and the proposals of the bouncing shapes experiment, with their networks", "statement": "Whatever the parameters of the networks: the density with which DecoderFull is scored is that of Gaussian random walks (first position standard normal, steps of standard deviation 0.2 per coordinate), standard normal appearance, and independent pixels lit with the brightness of the shapes pasted at their positions, brightness adding up where shapes overlap and the probability kept between 2^-23 and 1 - 2^-23; it does not change when the objects are relabelled. The kernels propose positions around means strictly between -1 and 1 with positive scales, and appearances with positive scales. The density of frames with pixels in [0, 1] is at least 2^-23 to the number of pixels and at most 1, so no weight is 0 or infinite. The networks satisfy the conditions of C65, so the sampler (with resampling that keeps the weight) is properly weighted for that generative model for any parameters, trained or not, and its expected weight is the density of the frames.", "quantifier": "all parameters of all layers, mean shapes, sizes (pixels, hidden units, appearance, objects, time steps >= 1, sweeps), frames, measurable functions; for the bounds, frames with values in [0, 1]", "why_tests_cant": "Identities between densities and integrals for all parameters and all positions; a test would see one random initialisation.", "anchors": ["experiments/apgs/models.py:82-112", "experiments/apgs/models.py:115-200", "experiments/apgs/models.py:203-252", "experiments/apgs/models.py:255-398", "experiments/apgs/affine_transformer.py"]}
{"id": "C83", "title": "The law of importance sampling in the bouncing shapes experiment, and its variance", "statement": "Without sweeps a result of the sampler has positions and appearance drawn from the kernels (positions of each frame from the frame alone, then the appearance from frames and positions), and its log weight is the log density of the model minus that of the proposal: this gives the expectation of every function of positions, appearance and log weight. If the network's scale for some coordinate of the first object in the first frame is at most 1/sqrt(2) (the prior's is 1), the weight's expectation is at most 1 but that of its square is infinite, so averages of the weights (and the effective sample size) are unreliable however many particles are used.", "quantifier": "all networks satisfying the conditions of C65, time steps >= 1, measurable functions; for the variance all parameters of all layers with that scale, at least one object, and frames with values in [0, 1]", "why_tests_cant": "An average over finitely many runs is always finite; infinite variance shows only in the tails.", "anchors": ["experiments/apgs/gibbs.py: gibbs_sweeps", "experiments/apgs/models.py:94-109", "experiments/apgs/models.py:276-280"]}
{"id": "C84", "title": "How far systematic resampling moves an average", "statement": "After systematic resampling the first m particles hold their share of the slots up to one slot, for every m and every offset. So the plain average over the slots differs from the weighted average before by at most the total variation of the function along the particles divided by their number; by the range over the number if particles are sorted. Evidence estimate times average of a function of the particle's variables changes by at most that times the evidence estimate. Without such regularity the error does not shrink: with weights 1, 3, 1, 3, ... the particles of weight 1 get half the slots or none, depending on whether the offset is at most 1/2, instead of a quarter, however many particles there are.", "quantifier": "all numbers of particles and batch elements, weights, offsets in [0, 1), functions of particles, traces; for the last sentence all even numbers of particles and offsets in (0, 1)", "why_tests_cant": "A bound for every offset and all weights; that an error persists for every number of particles cannot be seen from finitely many sizes.", "anchors": ["combinators/resamplers.py:56-135"]}
{"id": "C85", "title": "Batch elements do not influence each other", "statement": "Take programs whose distributions, observed values, outputs and improper densities for some batch elements depend on these batch elements only. Then in every nest of Resample, Extend, Compose and Propose, with systematic resampling, the results for these batch elements (traces, log weights, outputs, exceptions) are those of a call with a batch consisting of them, and have the same distribution; they are independent of the results for other batch elements. Also the order of batch elements does not matter. Two exceptions: `assert log_weight == 0.0` on a kernel's tensor passes only for a single 0, so with one particle it raises for several batch elements where for one it may pass; and `batch_dim=0` is rejected unless the sizes of the two dimensions agree.", "quantifier": "all nests, programs treating the batch elements on their own, inputs, keyword arguments other than batch_dim=0, worlds, numbers of particles (for exceptions and laws not 1, unless the number of batch elements agrees on being or not being 1), batch elements chosen in any order, functions of results; losses may mix batch elements", "why_tests_cant": "Independence and equality of distributions over all nests; a resampler that shares its offset across the batch passes every test of a single batch element.", "anchors": ["combinators/resamplers.py:56-135", "combinators/inference.py:95-160", "combinators/inference.py:178-264", "combinators/inference.py:264-345", "combinators/inference.py:350-446", "combinators/program.py:60-130"]}
{"id": "C86", "title": "Systematic resampling of a tensor treats every batch element as the formula says, whatever follows the batch dimension", "statement": "On tensors of any shape beginning with particles and batch elements, the tensor code of `Systematic` (cumulative sum, searchsorted on transposed weights, expand, gather along dimension 0) gives every batch element the particles that the one-batch formula picks from its own weights and offset, for all later dimensions alike, and gives every new log weight the logarithm of the mean weight of its batch element. Shapes are kept, except that log weights without a batch dimension come back with one of size 1. With `normalize_weights=True` every new log weight is minus the logarithm of the number of particles. `pick` rejects values whose shape does not begin with that of the indices (AssertionError) and indices beyond the particles (RuntimeError). `Systematic` raises AssertionError for any other sample dimension than 0, and for log weights that are not vectors if there is no batch dimension.", "quantifier": "all positive numbers of particles, numbers of batch elements, shapes of values, real log weights, and offsets at most 1; batch_dim 1 or -1, or 0 or -2 where the two sizes agree, or None", "why_tests_cant": "Index arithmetic over all shapes; a transposed index or an offset shared between batch elements shows only with several batch elements of differing weights.", "anchors": ["combinators/resamplers.py:40-135"]}
{"id": "C87", "title": "The bouncing-shapes networks treat every particle, batch element, time and object on its own", "statement": "On tensors with all their dimensions the code of `digit_to_frame`, `frame_to_digit`, `get_conv_kernel`, `Enc_coor.model`, `Enc_digit.model` and `DecoderFull.model` succeeds, keeps the shapes, and gives every particle and batch element exactly the distribution that the one-particle formulas give for its own frames, positions and appearance: views, repeats and squeezes pair every shape with its own position, the grouped convolution correlates every frame with its own kernel, and object k's position is drawn given the frame without the objects before it. An appearance without sample, batch and object dimensions gives ValueError, and frames of another size than the networks are built for give RuntimeError in `Enc_coor`, never a distribution.", "quantifier": "all positive numbers of particles and batch elements, numbers of objects and times, frame and shape sizes, network parameters, contents of the tensors, times in the range of Python indices, and ways of drawing", "why_tests_cant": "Index arithmetic over all shapes through views and repeats; a wrong pairing keeps every shape and shows only in the numbers.", "anchors": ["experiments/apgs/models.py:114-176", "experiments/apgs/models.py:225-262", "experiments/apgs/models.py:287-360", "experiments/apgs/affine_transformer.py:71-127"]}
{"id": "C88", "title": "Systematic resampling in floating-point arithmetic: always an existing particle or an error, and close to the exact offspring", "statement": "In floating-point arithmetic `ancestor_indices_systematic`, for log weights that are finite or -inf and not all -inf, gives every slot the index of an existing particle, in order, and never a particle of log weight -inf except particle 0 in slot 0 when the offset is zero; rounding never makes it run past the last particle. With a log weight of NaN or +inf, or with all of them -inf, picking the particles raises RuntimeError instead of returning a wrong population. With float32 tensors and at most 350 particles every particle has between n w - 2 and n w + 2 offspring, where w is its exact normalised weight; for other formats and numbers the bound is 1 + n (8 d + 22 e + 16 n e').", "quantifier": "all numbers of particles, log weights including infinities and NaN, offsets in [0, 1], orders of summation in softmax, and arithmetics with monotone rounding; float32 with float32 or float64 accumulators for up to 2^24 particles (accuracy: up to 350)", "why_tests_cant": "An index out of range or a dead particle would come from rare roundings of cumulative sums; tests sample a few weights.", "anchors": ["combinators/resamplers.py:113-130", "combinators/resamplers.py:41-50"]}
{"id": "C89", "title": "What the metrics and the resampled log weight become in floating point", "statement": "In float32, `log_Z_hat` is -inf whenever all log weights are at most -110 and +inf as soon as one is at least 89 (the others not NaN), although the logarithm of the mean of the weights lies between the smallest and the largest log weight: `log_Z_hat` exponentiates without subtracting the maximum. `effective_sample_size` of log weights that are finite or -inf and not all -inf is a positive finite number, of any other log weights NaN. The log weight that resampling gives is a finite number, at least every old log weight minus log n, whenever the finite log weights are at most 2^100 in size. Up to 2^16 particles the numbers are accurate: `effective_sample_size` differs from one over the sum of the squared exact weights by at most the fraction (34 n + 550)/2^24 (one per cent up to 4900 particles); the new log weight differs from the logarithm of the mean weight by at most (7 n + 3 M + 80)/2^24, where M bounds the finite log weights, plus the error of math.log(n); and so does `log_Z_hat`, by at most (7 n + 100)/2^24, when all log weights lie between -86 and 75. If all log weights are negative infinity the log weight after resampling is negative infinity, and with one of positive infinity it is positive infinity, not NaN.", "quantifier": "all numbers of particles up to 2^24, log weights, orders of summation, float32 with float32 or float64 accumulators", "why_tests_cant": "Overflow and underflow depend on the size of log weights, which in tests are small and in image models are in the thousands.", "anchors": ["combinators/metrics.py:20-31", "combinators/resamplers.py:104-108"]}
{"id": "C90", "title": "What the display functions show, and which device is chosen", "statement": "`ppr` with its default mode shows every value made of tensors, distributions, random variables, traces, outputs, lists and dicts; it raises exactly if a distribution in it has a parameter that is no tensor. The mode and the options have no effect inside lists, dicts and outputs. `showall` lists every variable of a trace once, one per line, in the order of their names, aligned to the right; `showvals`, `showprobs` and `showdists` show only the values, log probabilities and distributions and ignore their options. The letters of the mode choose what is shown of a variable, \"a\" by itself everything. A tensor is shown as its type, its sizes, a mark if it has a gradient function, and a hash. `trace_utils.show` raises TypeError for every trace that is not empty. `autodevice` returns a device unchanged, takes a string as it is, and otherwise chooses the CPU if CUDA is unavailable or hidden by an empty CUDA_VISIBLE_DEVICES; `kw_autodevice` does the same but rejects devices.", "quantifier": "all values, nested arbitrarily; all modes and options; all machines and preferences", "why_tests_cant": "Nesting is unbounded, and the failing combinations are those nobody prints.", "anchors": ["combinators/trace/utils.py:135-206", "combinators/utils.py:80-119", "combinators/tensor/utils.py:25-78"]}
{"id": "C91", "title": "The rectangles of viz_samples lie around the shapes", "statement": "`viz_samples` draws, for every batch element and time, one rectangle per object of the first particle, as large as a shape and in a colour of its own; with more objects than colours (seven by default) it raises IndexError. Every pixel within the rectangle shows a pixel of the shape that `digit_to_frame` pastes at that position, and more than two pixels outside of it nothing of the shape is seen.", "quantifier": "all frame and shape sizes with 1 < shape ≤ frame, positions in [-1, 1]², numbers of batch elements, times and objects", "why_tests_cant": "The rectangle is computed by another formula than the pasting, with its own sign conventions; a test would compare pictures.", "anchors": ["experiments/apgs/plotting.py:18-72", "experiments/apgs/affine_transformer.py:71-98"]}
{"id": "C92", "title": "Which of the project's own tests can fail", "statement": "`test_run_a_primitive_program` and `test_compose` of tests/test_inference.py pass whatever is drawn, and the tests of tests/test_resamplers.py pass in exact arithmetic for any batch size, number of variables and offsets. Of the tests that are skipped, `test_cond_eval` and `test_extend_conditioned` would always pass once the conditioning trace is assigned (`Condition` no longer exists); `test_propose` would always raise AttributeError, and always pass if a program had a `_debug`; what `test_extend_unconditioned` says about the weight always holds, what it says about the trace never. The formula of `test_extend_propose` divides by the kernel's density of z_1 instead of the proposal's: it holds exactly when the two agree, which in that test they do by coincidence.", "quantifier": "all values that can be drawn, all distributions (the numbers of the test programs need not be normal densities), all worlds in which the proposal's programs are not conditioned, all batch sizes and offsets", "why_tests_cant": "A test runs with one seed; whether it depends on the draw is not visible, and a skipped test says nothing.", "anchors": ["tests/test_inference.py:20-260", "tests/test_resamplers.py:21-87"]}
{"id": "C93", "title": "Nested variational inference written out by hand computes what vsmc computes", "statement": "The loop of `test_K_step_nvi` (tests/test_annealing.py), which performs nested variational inference without combinators, never raises without resampling, draws the same Markov chain as the object that `vsmc` builds, and on the same draws ends with the same log weight; row k of `get_stats` on vsmc's result holds the log weight that the loop has after its step k. The test itself compares step k with row -(k + 1), which is the weight after K - k steps: its assertion holds exactly if the weights after k + 1 and after K - k steps are equal.", "quantifier": "all annealing models (initial distribution, targets, kernels), numbers of steps, draws, loss functions that return, with and without stl_trace, keyword arguments without clashes", "why_tests_cant": "The test is skipped, refers to a function that no longer exists, and compares two random numbers for some seeds only.", "anchors": ["tests/test_annealing.py:24-174", "experiments/annealing/vsmc.py:18-32", "experiments/annealing/utils.py:24-61"]}
{"id": "C94", "title": "Calls one after the other are independent, and what averaging over calls gives", "statement": "A call of a nest of combinators whose programs leave the global store alone is a function of its arguments and its own draws: it does not depend on earlier calls and leaves nothing behind for later ones. Hence results of calls made one after the other are independent (expectations of products factorise); the average over k calls has the expectation of one call and differs from it by ε or more with probability at most variance/(k ε²); the average of the evidence estimates of k calls is unbiased, also with Resample, and all k overestimate log Z by a or more with probability at most exp(-a k). Objects built by `vsmc` can be called like this, with or without resampling. A program that uses the global store can return something else when called again.", "quantifier": "all well-scoped nests without store accesses, all arguments and keyword arguments, numbers of calls, worlds in which no object of the nest is being conditioned and Resample's hook does nothing (as in a new store), functions of the results; lists of calls of different nests for independence", "why_tests_cant": "Independence and unbiasedness are statements about all draws of all calls; conditioning traces left behind would show in few runs only.", "anchors": ["combinators/program.py:24-46", "combinators/inference.py:95-160", "combinators/inference.py:178-240", "combinators/inference.py:264-310", "combinators/inference.py:350-424", "combinators/out.py:88-134", "experiments/annealing/vsmc.py:18-32"]}
{"id": "C95", "title": "The table of the annealing experiment's results", "statement": "`tabulate_and_plot.py` prints a header and one row per group of runs (method, objective, number of targets) that has metrics: first the groups without resampling, with the averages over their metrics of the effective sample size and log evidence at the last target, then those with resampling, with the averages over their saved models, each tested again once. No file is counted for two groups. All saved models are tested with `nvo_rkl`, also those trained with `nvo_avo`; all groups of `nvo_avo` have the label `avo`, so that methods cannot be told apart; a group with resampling that has metrics but no saved model makes the script raise TypeError. All rows are printed with the same width, and a line of dashes stands exactly between rows with different labels.", "quantifier": "all directories' contents, all metrics of one size with at least one step, all models and results of testing them, all tables whose labels do not begin with a space", "why_tests_cant": "Which groups are present, which files belong to which, and which branch a name takes depends on the combination of all names in two directories.", "anchors": ["experiments/annealing/scripts/tabulate_and_plot.py:79-116", "experiments/annealing/scripts/tabulate_and_plot.py:119-216"]}
{"id": "C96", "title": "Each step of vsmc trains only its own kernels and the targets next to it", "statement": "`out.loss` of `vsmc` (without resampling) as a function of all parameters of the targets and kernels is a sum of one term per step, `loss_fn` on that step's outcome, and the term of step k does not vary with any parameters other than those of forward kernel k, reverse kernel k, and the targets k and k+1, although the draws of all earlier kernels are inputs of step k and may be reparameterised: with `nvo_avo`, and with `nvo_rkl` together with `stl_trace`. So the derivative in a direction of parameters that only step k uses is that of step k's term alone. With `nvo_rkl` and forward kernels that are not reparameterised, the loss does not vary with the forward kernels at all: they are not trained. The gradient is not that of the free energy of the whole chain, for which a model with two steps is a counterexample.", "quantifier": "all numbers of steps, particles and batch elements, all models with finitely many parameters, all distributions and reparameterisations, all draws", "why_tests_cant": "A derivative that is missing or too many shows in no value the library returns, and the tests compare only values; which paths of the graph are cut is a statement about all parameters and models.", "anchors": ["experiments/annealing/vsmc.py:18-33", "combinators/inference.py:384-430", "combinators/trace/utils.py:247-271", "experiments/annealing/objectives.py:36-135"]}
{"id": "C97", "title": "The metrics of a tensor are the metrics of its vectors along one dimension", "statement": "`effective_sample_size`, `Z_hat` and `log_Z_hat` of a tensor of any shape along a dimension, counted from the front or the back, have the other dimensions as shape, and each element is the metric of the numbers along that dimension; for any other `sample_dims` they raise IndexError. `nvi_test` with a non-negative `sample_dims` returns the metrics of each step; with `sample_dims=-1` it returns metrics over the steps for each particle. `nvi_train` always returns metrics along the first dimension of each log weight. With the default `sample_dims` the metrics of a log weight with particles first and batch elements second are over the batch.", "quantifier": "all shapes, dimensions, numbers of steps and iterations, all log weights", "why_tests_cant": "The tests use one shape and one dimension; taking the metric along a wrong dimension of the same size gives a plausible number.", "anchors": ["combinators/metrics.py:20-31", "experiments/annealing/main.py:91-112"]}
{"id": "C98", "title": "Each loss of the amortized Gibbs sampler trains each network on its own draws only", "statement": "The loss of a call of what `gibbs_sweeps` builds, as a function of the parameters being trained, is a sum of four parts: one that depends only on the position encoder, one only on the appearance encoder, one only on the decoder, and a number. The decoder's part is, after importance sampling and after every step of every sweep, minus the weighted mean log density of the frames; the encoders' parts are minus the weighted mean log densities of the values drawn in their own steps. No gradient reaches a network through the weights, through the draws, through the shapes the decoder hands the position encoder, or through an earlier step. Without the detaching in `get_conv_kernel` the position encoder's loss would train the decoder.", "quantifier": "all networks' parameters, frames, numbers of sweeps, time steps, objects, particles and batch elements, all draws, any resampler that keeps addresses and provenances", "why_tests_cant": "A missing or superfluous detach changes no value, only the gradient; tests compare values, and training with a wrong gradient still lowers some loss.", "anchors": ["experiments/apgs/objectives.py:17-51", "experiments/apgs/models.py:119-124,287-294,378", "experiments/apgs/gibbs.py:30-73"]}
{"id": "C99", "title": "The particles of the amortized Gibbs sampler's importance sampling are independent, and their averages converge", "statement": "Call what `gibbs_sweeps` builds for 0 sweeps with any number of particles and batch elements. Then the particles of all batch elements are independent, and each is distributed as a single particle for its own frames: positions and appearance with the density of the encoders, log weight the decoder's log density minus that. The average over particles of weight times a function of positions and appearance is unbiased for the function's integral against the decoder's density, so for the density of the frames when the function is 1. As the number of particles grows the average converges to it in probability, and the average with normalised weights to the posterior mean, for every function with a mean: no variance need exist. The effective sample size as a fraction of the number of particles converges to the squared density of the frames divided by the second moment of the weight, to 0 if that is infinite. For the experiment's own networks with any parameters this holds without further assumptions, also where C83 shows that the weights have infinite variance, so that the fraction tends to 0 while averages converge.", "quantifier": "all numbers of particles, batch elements and time steps, frames, object identities, hooks and keyword arguments, networks that treat particles and batch elements on their own and have the measurable normalised densities of C82; for the bouncing-shapes networks all parameters and all frames with pixels in [0,1]", "why_tests_cant": "Independence and convergence in probability are about the joint law of all draws; a run cannot show that an average with infinite variance converges.", "anchors": ["experiments/apgs/gibbs.py:31-51,74", "experiments/apgs/models.py:115-200,225-252,366-398", "combinators/inference.py:264-314,350-446"]}
{"id": "C100", "title": "What the script that shows samples of a trained APG model does", "statement": "Whatever the files, evaluate_saved_model.py raises before it makes models: `init_models` has no parameter `use_markov_blanket`, so with a mean shape and a fitting video file the script ends with TypeError. Without this argument it would read the parameters that `train_apg` saves for the same numbers of time steps, objects, sweeps and particles, sample for the videos from the fourth on (for none if the file has at most three) and end with ModuleNotFoundError. Its `get_samples`, applied to what the sampler returns, gives the positions of the last sweep and the decoder's probabilities for exactly these positions and the appearance in the same trace; it raises KeyError for any other number of sweeps.", "quantifier": "all directory contents, tensors and constants; all networks, numbers of time steps and sweeps, resamplers, runs", "why_tests_cant": "The script has no tests; that its two parts of a picture belong together is a statement about all runs of the sampler.", "anchors": ["experiments/apgs/notebooks/evaluate_saved_model.py:24-113", "experiments/apgs/models.py:28-39,366-398", "combinators/utils.py:39-44"]}
{"id": "C101", "title": "What the simulated videos show", "statement": "In the videos of Sim_BShape every shape is shown unscaled: a shape of P pixels at position (x, y) in the box is one exact copy in a frame of F pixels, at row (F-P)(1-y)/2 and column (F-P)(1-x)/2 to the nearest pixel, and a frame is the clamped sum of its objects, each at the point its reflected free flight has reached. Exceptions are offsets exactly between two pixels, where every second row or column is left out; for fixed directions they have probability zero. The decoder of the APG experiment, given the same shape and the position (-x, y), shows it at the same place to within one pixel: exactly in the centre, and with a doubled row and column in the corner at the default sizes. Shapes are the PNG files not blacklisted, padded with zeros; fewer shapes than objects raise IndexError, no shape ValueError, and loading them twice AttributeError.", "quantifier": "all frame, shape and padding sizes, shapes, positions, directions, speeds up to 2, numbers of objects and frames, directory contents", "why_tests_cant": "There are no tests of the simulator; the statements are about all real positions and all images.", "anchors": ["experiments/apgs/dataset/simulator.py:61-86,119-172,193-194", "experiments/apgs/affine_transformer.py:71-98"]}
{"id": "C102", "title": "From the simulator's command line to training", "statement": "Every option of dataset/simulator.py has the last value given, or its default. Running it with n instances in chunks of c writes the mean shape into the working directory and ceil(n/c) videos files into the saving path, c sequences each and the rest in the last; no other file changes. Training on that directory with the same numbers of time steps and objects then takes exactly these files, plus older ones with fitting names: files of an earlier, larger run are not removed and are trained on again. Without older ones each epoch reads every new file once and makes floor(c/b) optimiser steps per full file (one if c <= b), likewise for the rest. The defaults of the two scripts agree (directories, shape and frame size, time steps, objects) when the simulator is run in the dataset directory. A saving path without a final slash leaves its directory as it was and writes into the working directory. With fewer images than objects, fewer than three objects or no time steps an exception is raised after the mean shape has been replaced.", "quantifier": "all command lines, file systems, blacklists, numbers of instances, chunk and batch sizes", "why_tests_cant": "No test runs the scripts; the statement relates two programs through the file system for all arguments.", "anchors": ["experiments/apgs/dataset/simulator.py:174-220,239-283", "experiments/apgs/main.py:32-170"]}
{"id": "C103", "title": "Weak references of the Gibbs sampler never dangle", "statement": "The encoders put weak references to their samples into global_store, and the decoder dereferences them. Suppose a tensor stays alive only while a variable of the running program's own trace or of its conditioning trace holds it (Python's `is`), and reading a dead reference raises. Then for every number of sweeps and of time steps T >= 1, every run of the sampler on frames with T time steps raises nothing except what the resampler raises, and the sampler is the same computation as with references that never die. This rests on _no_reruns=True and on the hook on resampling: without either of them there is a run in which the decoder reads a reference that none of these traces keeps alive.", "quantifier": "all networks, resamplers that keep the addresses, numbers of sweeps and time steps, random outcomes", "why_tests_cant": "Whether a reference is dead depends on garbage collection and on what else happens to hold the tensor; a test run says nothing about other numbers of sweeps or time steps.", "anchors": ["experiments/apgs/models.py:178-187,249-250,310-340,393", "experiments/apgs/utils.py:24-42", "experiments/apgs/gibbs.py:31-73"]}
{"id": "C104", "title": "Annealing path in floating point", "statement": "With Python's floats in binary64 and tensors in binary32, rounding to nearest: for every n from 2 to 65536, anneal_between(left, right, n) raises nothing and returns n targets, the ends and g1..g{n-2} between them. The weights 1 - sigmoid(logit) and sigmoid(logit) that Tempered uses are in (0,1), strictly monotone in k and within 2^-17 of 1 - k/(n-1) and k/(n-1), however torch splits arange into blocks. arange may have one element too many because of rounding (n = 50: 1/(1/49) > 49), with a last value that Tempered would reject; the zip drops it. With more than 2^31 targets it raises AssertionError.", "quantifier": "all n up to 65536, all blocks of arange, float32 or float64 accumulators", "why_tests_cant": "The length of arange depends on how 1/(n-1) is rounded, which differs from n to n; a test tries a few.", "anchors": ["experiments/annealing/models.py:165-196,253-262"]}
{"id": "C105", "title": "Bouncing stays in the box in floating point", "statement": "With float32 tensors, rounding to nearest: in sim_trajectory every position coordinate stays in [-1,1] for ever when the start is in the box and |dv| <= 2. The components of the velocity keep their absolute values exactly. After t steps the position is within t*2^-22 of the free flight with that velocity folded by reflections at the walls, and, for a draw u in [0,1], within t*2^-18 of the exact trajectory of C44 for the same start and u, even if rounding puts a bounce into another step.", "quantifier": "every number of timesteps, start in the box, |dv| <= 2, draw of the angle", "why_tests_cant": "A rounding error near a wall could let a shape escape after any number of steps; runs cover few steps and starts.", "anchors": ["experiments/apgs/dataset/simulator.py:88-117"]}
{"id": "C106", "title": "Pixel probabilities of the bouncing shapes in floating point", "statement": "With float32 tensors, rounding to nearest, the pixel probabilities clamp(brightness, 0, 1) + EPS that DecoderFull passes to Bernoulli are always in [0, 1], so that argument validation never raises; from brightness 1/32 on EPS is lost to rounding, and saturated pixels have probability exactly 1. After torch's clamping, what a pixel is scored with is within a relative error of 2^-22 of the probability in the exact model (C82), and its logits are at most 16 in absolute value, so no frame has an infinite weight. With float64 tensors every saturated pixel has a probability above 1, and the model raises ValueError; brightness up to 1 - 10^-8 is accepted.", "quantifier": "every sum of brightnesses that is a float32 number; for float64 every real number", "why_tests_cant": "Whether the added EPS can push a probability above 1 depends on rounding for every float; tests see a few brightnesses and one dtype.", "anchors": ["experiments/apgs/models.py:366-388"]}
