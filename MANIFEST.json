{
 "claims": [
  {
   "property": "C01",
   "status": "proved",
   "theorems": [
    "Verif.C01_unconditioned_weight",
    "Verif.C01_float_iff"
   ],
   "note": "Weight of an unconditioned run for every model tree; also when it is the Python float 0.0."
  },
  {
   "property": "C02",
   "status": "proved",
   "theorems": [
    "Verif.C02_every_model",
    "Verif.C02_conditioned_weight",
    "Verif.C02_values_provenance_draws",
    "Verif.C02_weight_reused"
   ],
   "note": "C02_every_model describes a run of any model by what it did; C02_values_provenance_draws and C02_weight_reused say it more directly for models that only use trace.variable and the store; the weight formula C02_conditioned_weight is for all models."
  },
  {
   "property": "C03",
   "status": "proved",
   "theorems": [
    "Verif.C03_needs_restriction",
    "Verif.C03_replay"
   ],
   "note": "The class of models is `Replayable`; C03_needs_restriction shows two models outside of it for which the claim is false."
  },
  {
   "property": "C04",
   "status": "proved",
   "theorems": [
    "Verif.C04_hygiene"
   ],
   "note": "All graphs, also with shared objects; all outcomes including exceptions."
  },
  {
   "property": "C05",
   "status": "proved",
   "theorems": [
    "Verif.C05_lexical",
    "Verif.C05_evalP_pure",
    "Verif.C05_not_lexical_in_general"
   ],
   "note": "Refinement under the scoping condition and a concrete graph where it fails without."
  },
  {
   "property": "C06",
   "status": "proved",
   "theorems": [
    "Verif.C06_not_conditionable"
   ],
   "note": "An object is assumed not to be below itself (Python call recursion would not terminate otherwise)."
  },
  {
   "property": "C07",
   "status": "proved",
   "theorems": [
    "Verif.C07_compose",
    "Verif.C07_compose_ok"
   ],
   "note": "Complete description of all outcomes of a Compose call (returns and exceptions), as an equivalence."
  },
  {
   "property": "C08",
   "status": "proved",
   "theorems": [
    "Verif.C08_extend",
    "Verif.C08_extend_ok"
   ],
   "note": "Complete description of all outcomes of an Extend call for conditioned and unconditioned objects."
  },
  {
   "property": "C09",
   "status": "proved",
   "theorems": [
    "Verif.C09_importance_weight",
    "Verif.C09_transformed"
   ],
   "note": "Also with a transf_q_trace, which replaces the densities that are subtracted."
  },
  {
   "property": "C10",
   "status": "proved",
   "theorems": [
    "Verif.C10_marginalises",
    "Verif.C10_plain_target"
   ],
   "note": "Also the rerun case (no_reruns=False)."
  },
  {
   "property": "C11",
   "status": "proved",
   "theorems": [
    "Verif.C11_constructor",
    "Verif.C11_plain_program_proposal",
    "Verif.C11_debug_read_succeeds"
   ],
   "note": "A disagreement with what the constructor suggests; see DESIGN.md."
  },
  {
   "property": "C12",
   "status": "proved",
   "theorems": [
    "Verif.C12_detached",
    "Verif.C12_nested_not_detached"
   ],
   "note": "The nested case is shown not to be detached."
  },
  {
   "property": "C13",
   "status": "proved",
   "theorems": [
    "Verif.C13_loss_fold",
    "Verif.C13_resample_passes_loss"
   ],
   "note": "Fold along the spine for all nests; Resample passes its part's loss on."
  },
  {
   "property": "C14",
   "status": "proved",
   "theorems": [
    "Verif.C14_index_scoping"
   ],
   "note": "Extensional: nests whose models agree on the prescribed arguments behave the same."
  },
  {
   "property": "C15",
   "status": "proved",
   "theorems": [
    "Verif.C15_dispatch_function",
    "Verif.C15_dispatch_module",
    "Verif.C15_dispatch_program",
    "Verif.C15_received",
    "Verif.C15_model_receives",
    "Verif.C15_positional_clash",
    "Verif.C15_arity"
   ],
   "note": "Also the TypeError when a positional parameter has the name of an offered keyword."
  },
  {
   "property": "C16",
   "status": "proved",
   "theorems": [
    "Verif.C16_debug_invisible",
    "Verif.C16_sub_results"
   ],
   "note": "Equality of the trees of draws up to debugging entries."
  },
  {
   "property": "C17",
   "status": "proved",
   "theorems": [
    "Verif.C17_last_write_wins",
    "Verif.C17_first_write_wins"
   ],
   "note": ""
  },
  {
   "property": "C18",
   "status": "proved",
   "theorems": [
    "Verif.C18_no_overlaps",
    "Verif.C18_copy_identity"
   ],
   "note": ""
  },
  {
   "property": "C19",
   "status": "proved",
   "theorems": [
    "Verif.C19_structure",
    "Verif.C19_returns",
    "Verif.C19_refuses"
   ],
   "note": "For the Resample combinator with Systematic in exact arithmetic. An improper variable gets the default reparameterized flag."
  },
  {
   "property": "C20",
   "status": "proved",
   "theorems": [
    "Verif.C20_ancestors",
    "Verif.C20_total"
   ],
   "note": "Any linearly ordered field, any non-negative weights with positive sum."
  },
  {
   "property": "C21",
   "status": "proved",
   "theorems": [
    "Verif.C21_offspring",
    "Verif.C21_offset_zero",
    "Verif.C21_equal_weights",
    "Verif.C21_equal_weights_offset_zero"
   ],
   "note": "Bounds for interior offsets, and the exception at offset 0 with a witness for every n >= 2."
  },
  {
   "property": "C22",
   "status": "proved",
   "theorems": [
    "Verif.C22_zero_weight",
    "Verif.C22_exception"
   ],
   "note": "Both directions: never selected, and the boundary case."
  },
  {
   "property": "C23",
   "status": "proved",
   "theorems": [
    "Verif.C23_expected_offspring",
    "Verif.C23_unbiased"
   ],
   "note": "Lebesgue integral over the offset in [0,1)."
  },
  {
   "property": "C24",
   "status": "proved",
   "theorems": [
    "Verif.C24_resampled_weights",
    "Verif.C24_normalized"
   ],
   "note": "Exact real arithmetic."
  },
  {
   "property": "C25",
   "status": "proved",
   "theorems": [
    "Verif.C25_aligned",
    "Verif.C25_observed_misaligned"
   ],
   "note": "One ancestor map for all permuted variables and output entries; the OBSERVED misalignment has a concrete run."
  },
  {
   "property": "C26",
   "status": "proved",
   "theorems": [
    "Verif.C26_batch",
    "Verif.C26_batch_returns",
    "Verif.C26_no_batch",
    "Verif.C26_batch_iff"
   ],
   "note": "Shape-level model of Systematic with sample_dims = 0; exact characterisation in both modes."
  },
  {
   "property": "C27",
   "status": "proved",
   "theorems": [
    "Verif.C27_formula",
    "Verif.C27_bounds",
    "Verif.C27_max_iff",
    "Verif.C27_shift"
   ],
   "note": "Exact real arithmetic, one vector along sample_dims."
  },
  {
   "property": "C28",
   "status": "proved",
   "theorems": [
    "Verif.C28_shift",
    "Verif.C28_bounds",
    "Verif.C28_equal"
   ],
   "note": "Exact real arithmetic, one vector along sample_dims."
  },
  {
   "property": "C29",
   "status": "proved",
   "theorems": [
    "Verif.C29_properly_weighted",
    "Verif.C29_normaliser",
    "Verif.C29_extend_counts_twice",
    "Verif.C29_uncovered_kernel",
    "Verif.C29_observed_by_proposal"
   ],
   "note": "For every s-finite base measure μ on the values (discrete, continuous or mixed) and each particle of a vectorised nest. Models may branch on all values; `MeasNode` asks that log densities, observed values and results depend measurably on what was drawn (with countably many values this always holds, measNode_countable). Restrictions (`Fits`) are shown necessary by C29_extend_counts_twice, C29_uncovered_kernel and C29_observed_by_proposal, which exhibit nests for which the code's weights are wrong. Trace transformations of Propose may reorder entries. Resample within the nest: C55. Instances beside the theorems: coins (Props/Weighting) and normal distributions on the reals (Props/WeightingNormal)."
  },
  {
   "property": "C30",
   "status": "proved",
   "theorems": [
    "Verif.C30_vsmc",
    "Verif.C30_weight_sum"
   ],
   "note": "Networks, tensors and torch distributions are abstract; detaching is a function on values/weights assumed the identity on numbers only for the closed sum."
  },
  {
   "property": "C31",
   "status": "proved",
   "theorems": [
    "Verif.C31_dict",
    "Verif.C31_get_hooks",
    "Verif.C31_set_hooks",
    "Verif.C31_set_hook",
    "Verif.C31_resample_hook"
   ],
   "note": "Store operations over all histories; hooks are functions on the store."
  },
  {
   "property": "C32",
   "status": "proved",
   "theorems": [
    "Verif.C32_attribute_is_item",
    "Verif.C32_shadowed",
    "Verif.C32_out_items",
    "Verif.C32_iter",
    "Verif.C32_repr"
   ],
   "note": "PropertyDict attribute protocol, Out entries, iteration and repr."
  },
  {
   "property": "C33",
   "status": "proved",
   "theorems": [
    "Verif.C33_never_false",
    "Verif.C33_true_iff",
    "Verif.C33_check_exist_ignored"
   ],
   "note": ""
  },
  {
   "property": "C34",
   "status": "proved",
   "theorems": [
    "Verif.C34_keys_distinct",
    "Verif.C34_every_model",
    "Verif.C34_every_model_dict",
    "Verif.C34_roundtrip"
   ],
   "note": "Keys are injective for all names; save followed by load restores every model's state."
  },
  {
   "property": "C35",
   "status": "proved",
   "theorems": [
    "Verif.C35_joint",
    "Verif.C35_marginal",
    "Verif.C35_reverse",
    "Verif.C35_posSemidef",
    "Verif.C35_posDef"
   ],
   "note": "Joint, marginal and reverse are proved to be the laws of Mathlib's multivariateGaussian, for every affine kernel; covariance blocks are positive (semi)definite."
  },
  {
   "property": "C36",
   "status": "proved",
   "theorems": [
    "Verif.C36_get_stats",
    "Verif.C36_needs_debug",
    "Verif.C36_traverse"
   ],
   "note": "get_stats is modelled as its rows; detaching the loss is not modelled."
  },
  {
   "property": "C37",
   "status": "proved",
   "theorems": [
    "Verif.C37_tempered",
    "Verif.C37_path",
    "Verif.C37_exact",
    "Verif.C37_too_few",
    "Verif.C37_paper_names"
   ],
   "note": "The step 1/(n-1) is a parameter `recip`; C37_exact takes the exact reciprocal. Tempered goes through logit and sigmoid as in the code, over exact reals."
  },
  {
   "property": "C38",
   "status": "proved",
   "theorems": [
    "Verif.C38_eval0",
    "Verif.C38_eval1",
    "Verif.C38_avo",
    "Verif.C38_rkl_value",
    "Verif.C38_rkl_grad"
   ],
   "note": "Weights are functions of a parameter in a normed space, detach freezes at the current point; derivatives are Frechet derivatives."
  },
  {
   "property": "C39",
   "status": "proved",
   "theorems": [
    "Verif.C39_rkl_mod"
   ],
   "note": "The undefined name is reached after reading the inputs; earlier errors keep their own type."
  },
  {
   "property": "C40",
   "status": "proved",
   "theorems": [
    "Verif.C40_rerun"
   ],
   "note": ""
  },
  {
   "property": "C41",
   "status": "proved",
   "theorems": [
    "Verif.C41_store_weak",
    "Verif.C41_gibbs",
    "Verif.C41_stages",
    "Verif.C41_no_timesteps",
    "Verif.C41_short",
    "Verif.C41_long",
    "Verif.C41_systematic"
   ],
   "note": "Programs, hooks, losses and gibbs_sweeps are modelled; networks and tensor shapes are abstract and assumed to fit (torch's own shape errors are not modelled). Weak references do not die. Hypothesis on the resampler: when it returns, the trace has the same addresses (C25 for Systematic)."
  },
  {
   "property": "C42",
   "status": "proved",
   "theorems": [
    "Verif.C42_z_where_injective",
    "Verif.C42_z_what_injective",
    "Verif.C42_kinds_disjoint",
    "Verif.C42_names",
    "Verif.C42_missing_argument"
   ],
   "note": "All integers for t and sweep; also the error of leaving out an argument."
  },
  {
   "property": "C43",
   "status": "proved",
   "theorems": [
    "Verif.C43_inverse",
    "Verif.C43_crop_of_paste",
    "Verif.C43_paste"
   ],
   "note": "Coordinates exact over the reals, with the nearest-pixel sampling the code uses and zero padding; floating-point rounding of coordinates is not modelled."
  },
  {
   "property": "C44",
   "status": "proved",
   "theorems": [
    "Verif.C44_velocity",
    "Verif.C44_velocity_row",
    "Verif.C44_in_box",
    "Verif.C44_reflection",
    "Verif.C44_no_timesteps",
    "Verif.C44_patch_inside",
    "Verif.C44_pixel"
   ],
   "note": "Exact real arithmetic. Includes that the trajectory is the folded free flight, and what the rows of the velocities are."
  },
  {
   "property": "C45",
   "status": "proved",
   "theorems": [
    "Verif.C45_saves_all",
    "Verif.C45_full_chunks",
    "Verif.C45_bad_chunk_size",
    "Verif.C45_names_distinct"
   ],
   "note": "The earlier reading that a non-positive chunk size loops forever was wrong: torch.cat([]) raises in the first round."
  },
  {
   "property": "C46",
   "status": "proved",
   "theorems": [
    "Verif.C46_used",
    "Verif.C46_sizes",
    "Verif.C46_disjoint",
    "Verif.C46_all_used_iff",
    "Verif.C46_zero"
   ],
   "note": "Also the ZeroDivisionError for batch size 0."
  },
  {
   "property": "C47",
   "status": "proved",
   "theorems": [
    "Verif.C47_outer_sum",
    "Verif.C47_same_shape"
   ],
   "note": "Broadcasting model of tensor addition."
  },
  {
   "property": "C48",
   "status": "proved",
   "theorems": [
    "Verif.C48_weighted_average"
   ],
   "note": "Combines C23, C24 and C25 at the level of traces."
  },
  {
   "property": "C49",
   "status": "proved",
   "theorems": [
    "Verif.C49_rounds",
    "Verif.C49_law",
    "Verif.C49_terminates",
    "Verif.C49_separated",
    "Verif.C49_needs_three"
   ],
   "note": "Big-step relation over an arbitrary infinite sequence of draws; for the law the draws are independent and uniform on the closed square, exact reals."
  },
  {
   "property": "C50",
   "status": "proved",
   "theorems": [
    "Verif.C50_chosen_iff",
    "Verif.C50_exact_below_ten",
    "Verif.C50_empty"
   ],
   "note": "Substring test on the exact names sim_save_data writes."
  },
  {
   "property": "C51",
   "status": "proved",
   "theorems": [
    "Verif.C51_stl_trace",
    "Verif.C51_stl_drops",
    "Verif.C51_stl_cases"
   ],
   "note": "Equality of log probabilities under detached parameters is a hypothesis on detachD."
  },
  {
   "property": "C52",
   "status": "proved",
   "theorems": [
    "Verif.C52_density",
    "Verif.C52_normaliser",
    "Verif.C52_components",
    "Verif.C52_ring"
   ],
   "note": "Components are given by log densities with respect to any base measure."
  },
  {
   "property": "C53",
   "status": "proved",
   "theorems": [
    "Verif.C53_losses"
   ],
   "note": "Uses the same hypotheses as C36: forward kernels are programs, the call has _debug=True or no resampler."
  },
  {
   "property": "C54",
   "status": "proved",
   "theorems": [
    "Verif.C54_prior"
   ],
   "note": "The theorem states what the code does. The comment in get_z_where speaks of the log prior of the trajectory; for positions after t+1 the code's density is not that of the trajectory's random walk."
  },
  {
   "property": "C55",
   "status": "proved",
   "theorems": [
    "Verif.C55_population",
    "Verif.C55_log_Z_hat"
   ],
   "note": "Values with any s-finite base measure, discrete or continuous; uniform offsets on [0,1) with Lebesgue measure. The hypothesis LaneNode says that models work elementwise over the particles, Fits and MeasNode are the same as for C29 (shown necessary there) plus: no observed variable below a Resample (necessary: C56). The nest's call must not raise (hok)."
  },
  {
   "property": "C56",
   "status": "proved",
   "theorems": [
    "Verif.C56_observed_resampling_biased"
   ],
   "note": "An exact computation of both expectations. The apgs experiment composes Propose, Resample and programs with observed frames in this way."
  },
  {
   "property": "C57",
   "status": "proved",
   "theorems": [
    "Verif.C57_vsmc_resampled"
   ],
   "note": "Values with any s-finite base measure, log densities measurable. Called with sample_dims=0, batch_dim=1 (batch_dim=None breaks, see C47); no resample hook in the global store. An instance with three steps is computed beside the theorem (expectation e); another one with normal distributions is in Props/PopulationNormal."
  },
  {
   "property": "C58",
   "status": "proved",
   "theorems": [
    "Verif.C58_kl_gradient",
    "Verif.C58_kl_value",
    "Verif.C58_at_optimum",
    "Verif.C58_metric_gradient",
    "Verif.C58_leaves_optimum"
   ],
   "note": "Partly a defect: the code lacks the term -grad log Z1. The sampling of particles is replaced by enumeration with the proposal's probabilities as incoming weights, or for the reparameterised form by enumeration of the noise."
  },
  {
   "property": "C59",
   "status": "proved",
   "theorems": [
    "Verif.C59_avo_returns",
    "Verif.C59_rkl_returns",
    "Verif.C59_avo_loss",
    "Verif.C59_avo_bound",
    "Verif.C59_rkl_loss",
    "Verif.C59_rkl_first",
    "Verif.C59_vsmc_avo",
    "Verif.C59_vsmc_rkl",
    "Verif.C59_rkl_negative"
   ],
   "note": "Numbers are exact reals with a parameter, detach freezes at the current point. The transformation is none or stl_trace. C59_rkl_negative is a counterexample to the reading of the loss as a divergence."
  },
  {
   "property": "C60",
   "status": "proved",
   "theorems": [
    "Verif.C60_well_typed",
    "Verif.C60_compose_exact",
    "Verif.C60_extend_exact",
    "Verif.C60_propose_exact",
    "Verif.C60_systematic",
    "Verif.C60_vsmc",
    "Verif.C60_properly_weighted",
    "Verif.C60_population"
   ],
   "note": "Sufficient, not necessary: the names must be the same in every run of a program and models may not use the global store; the resample_update hook does nothing. The predicted names do not say which class a variable has, so that objectives that need a particular class (nvo_rkl) are covered by C57 and C59 instead."
  },
  {
   "property": "C61",
   "status": "proved",
   "theorems": [
    "Verif.C61_compose_assoc",
    "Verif.C61_compose_identity",
    "Verif.C61_compose_identity_right",
    "Verif.C61_extend_twice",
    "Verif.C61_self_proposal",
    "Verif.C61_telescope",
    "Verif.C61_same_expectation",
    "Verif.C61_compose_kernel_conditioned"
   ],
   "note": "Agreement compares traces as maps from names to variables (the order of entries differs between the two sides), the log weight including whether it is a tensor, the output and the loss; not the recorded sub-results of debug mode, index, type and the address sets kept for Propose. The expectation corollary is for the languages of C29."
  },
  {
   "property": "C62",
   "status": "proved",
   "theorems": [
    "Verif.C62_overestimate",
    "Verif.C62_elbo",
    "Verif.C62_population_overestimate",
    "Verif.C62_population_elbo",
    "Verif.C62_vsmc"
   ],
   "note": "\"Mean at most\" is stated without integrability: the mean excess over the bound is at most the mean shortfall. No measurability of the call beyond that of C29 is assumed (upper integrals are used in the proof). Real arithmetic."
  },
  {
   "property": "C63",
   "status": "proved",
   "theorems": [
    "Verif.C63_nvi_test",
    "Verif.C63_train",
    "Verif.C63_prefix",
    "Verif.C63_weighted_samples",
    "Verif.C63_evidence"
   ],
   "note": "Stacking rows of equal shape is a list here; the progress bar, the optimiser and the arrays full_losses/full_lws of nvi_train are not modelled. The expectations are for models whose kernels are normalised and whose particles are independent (as for C57)."
  },
  {
   "property": "C64",
   "status": "proved",
   "theorems": [
    "Verif.C64_program",
    "Verif.C64_last",
    "Verif.C64_position",
    "Verif.C64_appearance",
    "Verif.C64_stale",
    "Verif.C64_systematic"
   ],
   "note": "C64_program and C64_last are for resamplers that do not move particles; C64_systematic shows that the systematic resampler is one for a single particle, for every batch size. C64_position, C64_appearance and C64_stale are for any number of particles."
  },
  {
   "property": "C65",
   "status": "proved",
   "theorems": [
    "Verif.C65_proper",
    "Verif.C65_evidence",
    "Verif.C65_no_sweeps",
    "Verif.C65_normalized",
    "Verif.C65_biased"
   ],
   "note": "One particle: with more, the resampled log_probs are stale (C64_stale) and the statement is not claimed. The conditions on the networks are collected in `Tractable`: measurable densities, normalised kernels, and that stacking the objects loses nothing; each distribution has its own base measure. C82 shows them for the experiment's networks. C65_biased is a counterexample to reading an evidence estimate off the log weights as the code is."
  },
  {
   "property": "C66",
   "status": "proved",
   "theorems": [
    "Verif.C66_start",
    "Verif.C66_position",
    "Verif.C66_appearance",
    "Verif.C66_needs_debug",
    "Verif.C66_needs_propose",
    "Verif.C66_shift",
    "Verif.C66_equal",
    "Verif.C66_range",
    "Verif.C66_gradient"
   ],
   "note": "The arithmetic of the losses is a parameter of the step theorems and is given for tensors with one sample and one batch dimension by `isArith` and `apgArith`."
  },
  {
   "property": "C67",
   "status": "proved",
   "theorems": [
    "Verif.Cli.C67_int",
    "Verif.Cli.C67_options",
    "Verif.Cli.C67_exits",
    "Verif.Cli.C67_names",
    "Verif.Cli.C67_reload",
    "Verif.Cli.C67_run",
    "Verif.Cli.C67_particles",
    "Verif.Cli.C67_order",
    "Verif.Cli.C67_budget",
    "Verif.Cli.C67_objective",
    "Verif.Cli.C67_stops",
    "Verif.Cli.C67_no_targets",
    "Verif.Cli.C67_prefix",
    "Verif.Cli.C67_from_prefix",
    "Verif.Cli.C67_from_prefix_mod",
    "Verif.Cli.C67_normpath_keeps",
    "Verif.Cli.C67_int_iff"
   ],
   "note": "argparse is modelled for arguments of the form --option=value; `int` of texts with digits outside ASCII is not modelled. The script tabulate_and_plot.py itself imports names that do not exist in the repository; its naming functions are modelled."
  },
  {
   "property": "C68",
   "status": "proved",
   "theorems": [
    "Verif.C68_no_sweeps",
    "Verif.C68_ess",
    "Verif.C68_blind"
   ],
   "note": "C68_blind is the run in which the weights returned differ while the metric is the number of particles."
  },
  {
   "property": "C69",
   "status": "proved",
   "theorems": [
    "Verif.C69_run",
    "Verif.C69_counts",
    "Verif.C69_constant_ess",
    "Verif.C69_smoke",
    "Verif.C69_raises",
    "Verif.C69_timesteps",
    "Verif.C69_sample_size",
    "Verif.C69_names",
    "Verif.C69_setup"
   ],
   "note": "A step (lines 85-111) is a parameter: it may raise, changes the state and yields the numbers added to the metrics. Progress bars and the time printed are left out."
  },
  {
   "property": "C70",
   "status": "proved",
   "theorems": [
    "Verif.C70_density",
    "Verif.C70_distribution",
    "Verif.C70_kernel",
    "Verif.C70_maybe_sample"
   ],
   "note": "Inputs of kernels are dictionaries of tensors."
  },
  {
   "property": "C71",
   "status": "proved",
   "theorems": [
    "Verif.C71_random_walk",
    "Verif.C71_large_variance",
    "Verif.C71_symmetric",
    "Verif.C71_untrained"
   ],
   "note": "Exact arithmetic. The diagonal covariance of the code is kept as its diagonal; the Cholesky factorisation in log_prob is not modelled."
  },
  {
   "property": "C72",
   "status": "proved",
   "theorems": [
    "Verif.C72_independent",
    "Verif.C72_shape"
   ],
   "note": "Distributional claim for one-dimensional sample shapes, as the code uses it; shapes in general."
  },
  {
   "property": "C73",
   "status": "proved",
   "theorems": [
    "Verif.C73_nvi_train",
    "Verif.C73_chains"
   ],
   "note": "The optimiser step is an arbitrary update of the parameters, which may raise. Progress bars are not modelled; shapes only as far as `.item()` needs them."
  },
  {
   "property": "C74",
   "status": "proved",
   "theorems": [
    "Verif.C74_adam",
    "Verif.C74_paper",
    "Verif.C74_learnable_ends",
    "Verif.C74_apg"
   ],
   "note": "nn.Module registration and torch.optim.Adam parameter groups as documented by torch; what a step computes is not modelled."
  },
  {
   "property": "C75",
   "status": "proved",
   "theorems": [
    "Verif.C75_independent",
    "Verif.C75_second_moment",
    "Verif.C75_deviation",
    "Verif.C75_bounded",
    "Verif.C75_log_Z_hat"
   ],
   "note": "Requires, as C55, that each particle of the vectorised nest behaves like a nest for one particle, and measurability. Probabilities are lower integrals for events whose measurability is not shown."
  },
  {
   "property": "C76",
   "status": "proved",
   "theorems": [
    "Verif.C76_chains",
    "Verif.C76_deviation",
    "Verif.C76_self_normalised",
    "Verif.C76_consistent",
    "Verif.C76_report",
    "Verif.C76_bounded",
    "Verif.C76_joint",
    "Verif.C76_mean_converges",
    "Verif.C76_posterior_converges",
    "Verif.C76_report_converges",
    "Verif.C76_ess_converges"
   ],
   "note": "Nothing is said about convergence with resampling. C76_joint is the joint law, C76_mean_converges, C76_posterior_converges, C76_report_converges and C76_ess_converges the limits; the finite-sample bounds need a second moment."
  },
  {
   "property": "C77",
   "status": "proved",
   "theorems": [
    "Verif.ApgCli.C77_options",
    "Verif.ApgCli.C77_exits",
    "Verif.ApgCli.C77_train",
    "Verif.ApgCli.C77_test",
    "Verif.ApgCli.C77_frames",
    "Verif.ApgCli.C77_no_data",
    "Verif.ApgCli.C77_particles"
   ],
   "note": "Arguments of the form \"--option=value\"; float() is a parameter. What train_apg does with its arguments is C69; what the sampler does on the frames is C41 (with C41_short for files with too few time steps)."
  },
  {
   "property": "C78",
   "status": "proved",
   "theorems": [
    "Verif.C78_avo",
    "Verif.C78_optimal",
    "Verif.C78_attained"
   ],
   "note": "The mean is stated with positive and negative part of loss + log Z (the divergence may be infinite); the mean of the negative part is at most 1. Draws are from the distributions at the current parameters; KL is Mathlib's klDiv. About the value of the loss, not about its gradient (C38, C58)."
  },
  {
   "property": "C79",
   "status": "proved",
   "theorems": [
    "Verif.C79_converges",
    "Verif.C79_samples",
    "Verif.C79_evidence",
    "Verif.C79_new",
    "Verif.C79_resampled",
    "Verif.C79_report",
    "Verif.C79_avo"
   ],
   "note": "Exact arithmetic. C79_avo is about any model in the language of the objectives that agrees with the paper's at the current parameters (an example gives one). Instances of C57, C63, C78 whose hypotheses are proved for the model of the code."
  },
  {
   "property": "C80",
   "status": "proved",
   "theorems": [
    "Verif.C80_ess",
    "Verif.C80_variance",
    "Verif.C80_consistent",
    "Verif.C80_steps",
    "Verif.C80_new_steps"
   ],
   "note": "Exact arithmetic; the kernels are those C79_new and C71 describe (random walks with variance 1). C80_variance, C80_consistent and C80_ess are about the last target, C80_steps and C80_new_steps about every target."
  },
  {
   "property": "C81",
   "status": "proved",
   "theorems": [
    "Verif.C81_coor_input",
    "Verif.C81_coor_forward",
    "Verif.C81_coor_reverse",
    "Verif.C81_digit_input",
    "Verif.C81_digit",
    "Verif.C81_decoder_alone",
    "Verif.C81_decoder_one",
    "Verif.C81_decoder_drawn",
    "Verif.C81_decoder_free"
   ],
   "note": "Networks, affine transformations and reshapings are functions without errors; weak references do not die. An `ix` that is not an apg_ix is rejected before `frames` is read, in the code after it."
  },
  {
   "property": "C82",
   "status": "proved",
   "theorems": [
    "Verif.C82_density",
    "Verif.C82_relabel",
    "Verif.C82_proposals",
    "Verif.C82_likelihood",
    "Verif.C82_evidence_range",
    "Verif.C82_proper",
    "Verif.C82_evidence"
   ],
   "note": "Exact arithmetic, one particle and one batch element; frames at least as large as shapes; values of wrong shape count as zero. `Spec.Bouncing` is the model by its density; pasting shapes is the affine transformation of Model/Affine, whose meaning is C43's subject. `sd`/`bd` are whatever the call passes. torch's distributions are taken as their documentation describes, with the clamping of probs in Bernoulli.log_prob."
  },
  {
   "property": "C83",
   "status": "proved",
   "theorems": [
    "Verif.C83_law",
    "Verif.C83_infinite"
   ],
   "note": "C83_law is for every network satisfying Tractable; C83_infinite for the experiment's networks. No statement about sweeps' weights."
  },
  {
   "property": "C84",
   "status": "proved",
   "theorems": [
    "Verif.C84_first",
    "Verif.C84_average",
    "Verif.C84_sorted",
    "Verif.C84_particles",
    "Verif.C84_noise"
   ],
   "note": "Exact arithmetic. C84_particles is for `Systematic` without normalised weights, on traces; C84_noise is about the ancestor indices."
  },
  {
   "property": "C85",
   "status": "proved",
   "theorems": [
    "Verif.C85_part",
    "Verif.C85_runs",
    "Verif.C85_extends",
    "Verif.C85_systematic",
    "Verif.C85_zero_weight",
    "Verif.C85_batch_dim",
    "Verif.C85_law",
    "Verif.C85_independent"
   ],
   "note": "C85_part, C85_runs and C85_extends hold for any part of the tensors that the operations respect (`Spec.Part`), batch elements being one; C85_systematic is that `Systematic` respects it. C85_law and C85_independent are about normalised densities, for batch elements. C85_zero_weight and C85_batch_dim are the two exceptions."
  },
  {
   "property": "C86",
   "status": "proved",
   "theorems": [
    "Verif.Nd.C86_pick",
    "Verif.Nd.C86_pick_along",
    "Verif.Nd.C86_pick_shape",
    "Verif.Nd.C86_pick_range",
    "Verif.Nd.C86_ancestors",
    "Verif.Nd.C86_systematic",
    "Verif.Nd.C86_unbatched",
    "Verif.Nd.C86_refuses"
   ],
   "note": "Tensors are row-major arrays with the shapes and index rules of PyTorch operations as documented (`Model/Tensor`); strides, dtypes and devices are not modelled."
  },
  {
   "property": "C87",
   "status": "proved",
   "theorems": [
    "Verif.Nd.C87_digit_to_frame",
    "Verif.Nd.C87_frame_to_digit",
    "Verif.Nd.C87_conv_kernel",
    "Verif.Nd.C87_conv_kernel_prior",
    "Verif.Nd.C87_coor_nets",
    "Verif.Nd.C87_coor",
    "Verif.Nd.C87_enc_coor",
    "Verif.Nd.C87_frame_size",
    "Verif.Nd.C87_enc_digit",
    "Verif.Nd.C87_decoder"
   ],
   "note": "For one-object and full-frame tensors as the APG samplers pass them: `z_where_dim` is 2. Tensors as for C86: strides, and hence that `view` needs contiguous tensors, are not modelled. `conv2d`, `affine_grid` and `grid_sample` are modelled from their documentation."
  },
  {
   "property": "C88",
   "status": "proved",
   "theorems": [
    "Verif.Fp.C88_in_range",
    "Verif.Fp.C88_raises",
    "Verif.Fp.C88_offspring",
    "Verif.Fp.C88_float32"
   ],
   "note": "One batch element, on the CPU, where `cumsum` adds one element after the other; on a GPU the cumulative sums need not be in order. Zeros have no sign. The RuntimeError is raised by `gather`, so only if the trace has a variable that is resampled. `exp` is taken to be correctly rounded for float32; the theorems about any arithmetic need only that it is 1 at 0 and between 0 and 1 below."
  },
  {
   "property": "C89",
   "status": "proved",
   "theorems": [
    "Verif.Fp.C89_new_weight_close",
    "Verif.Fp.C89_ess_close",
    "Verif.Fp.C89_ess_percent",
    "Verif.Fp.C89_ess_exact",
    "Verif.Fp.C89_log_z_close",
    "Verif.Fp.C89_overflow",
    "Verif.Fp.C89_underflow",
    "Verif.Fp.C89_low_float32",
    "Verif.Fp.C89_high_float32",
    "Verif.Fp.C89_ess_float32",
    "Verif.Fp.C89_ess_nan",
    "Verif.Fp.C89_new_weight_float32",
    "Verif.Fp.C89_exact",
    "Verif.Fp.C89_new_weight_infinite"
   ],
   "note": "As C88. `exp` and `log` are taken to be correctly rounded. Between -110 and -86 and between 75 and 89, what `log_Z_hat` becomes is not stated."
  },
  {
   "property": "C90",
   "status": "proved",
   "theorems": [
    "Verif.Disp.C90_show",
    "Verif.Disp.C90_options",
    "Verif.Disp.C90_showall",
    "Verif.Disp.C90_show_only",
    "Verif.Disp.C90_tensor",
    "Verif.Disp.C90_rv_options",
    "Verif.Disp.C90_mode",
    "Verif.Disp.C90_ppr",
    "Verif.Disp.C90_autodevice",
    "Verif.Disp.C90_kw_autodevice",
    "Verif.Disp.C90_letters"
   ],
   "note": "`@typechecked` is modelled as TypeError (typeguard 2; later versions have an exception of their own). Hashing, the repr of other objects and what `torch.device` accepts are parameters. numpy arrays are not modelled (`show` fails on them, as their `size` is no method)."
  },
  {
   "property": "C91",
   "status": "proved",
   "theorems": [
    "Verif.C91_rectangles",
    "Verif.C91_colors",
    "Verif.C91_default",
    "Verif.C91_around_shape"
   ],
   "note": "matplotlib is not modelled: a rectangle is its corner, size and colour, in the coordinates of `imshow`, where pixel k is at k."
  },
  {
   "property": "C92",
   "status": "proved",
   "theorems": [
    "Verif.Tests.C92_resample_with_batch",
    "Verif.Tests.C92_resample_without_batch",
    "Verif.Tests.C92_offspring",
    "Verif.Tests.C92_names",
    "Verif.Tests.C92_primitive",
    "Verif.Tests.C92_compose",
    "Verif.Tests.C92_cond_eval",
    "Verif.Tests.C92_propose_raises",
    "Verif.Tests.C92_propose",
    "Verif.Tests.C92_extend_weight",
    "Verif.Tests.C92_extend_keys",
    "Verif.Tests.C92_extend_conditioned",
    "Verif.Tests.C92_extend_propose",
    "Verif.Tests.C92_extend_propose_coincidence"
   ],
   "note": "Weights are compared as exact numbers, and the shapes () and (1,) are not distinguished. In floating point `_lw.exp() == 0.25` may fail. The tests that are skipped are modelled without what no longer exists (`Condition`, `trace_star`); tests/test_annealing.py is C93."
  },
  {
   "property": "C93",
   "status": "proved",
   "theorems": [
    "Verif.Tests.C93_loop",
    "Verif.Tests.C93_agrees"
   ],
   "note": "Without resampling. Detaching is taken to keep numbers. The forward kernels are other objects than the targets and reverse kernels. `nvi_declarative`, which the test calls, does not exist; it is taken to be a call of vsmc's object."
  },
  {
   "property": "C94",
   "status": "proved",
   "theorems": [
    "Verif.C94_stateless",
    "Verif.C94_independent",
    "Verif.C94_average",
    "Verif.C94_second_moment",
    "Verif.C94_deviation",
    "Verif.C94_all_overestimate",
    "Verif.C94_evidence",
    "Verif.C94_evidence_overestimate",
    "Verif.C94_vsmc_reusable",
    "Verif.C94_store_matters",
    "Verif.C94_vsmc"
   ],
   "note": "The parameters of networks are the same in all calls (training changes them between calls). The random number generator is taken to give independent numbers. The bound by the variance assumes that what is expected of the function is a measurable function of each draw (`MeasComp`); the other statements do not. Programs of the bouncing shapes experiment use the store and are not covered."
  },
  {
   "property": "C95",
   "status": "proved",
   "theorems": [
    "Verif.Tabulate.C95_exclusive",
    "Verif.Tabulate.C95_table",
    "Verif.Tabulate.C95_no_weights",
    "Verif.Tabulate.C95_labels",
    "Verif.Tabulate.C95_print"
   ],
   "note": "Averages are exact. The names that the script imports but that no longer exist are taken to be what they were renamed to. The output before the table, progress bars and plots are left out; formatting a number is a parameter."
  },
  {
   "property": "C96",
   "status": "proved",
   "theorems": [
    "Verif.C96_avo",
    "Verif.C96_rkl",
    "Verif.C96_gradient",
    "Verif.C96_not_joint"
   ],
   "note": "Autograd is the derivative in the parameters, with `detach` freezing at the current ones; a reparameterised draw is any function of its distribution, a plain draw a constant. With resampling between the steps it is not covered."
  },
  {
   "property": "C97",
   "status": "proved",
   "theorems": [
    "Verif.Nd.C97_lanes",
    "Verif.Nd.C97_raises",
    "Verif.Nd.C97_bounds",
    "Verif.Nd.C97_test",
    "Verif.Nd.C97_test_negative",
    "Verif.Nd.C97_train",
    "Verif.Nd.C97_default"
   ],
   "note": "Real arithmetic, the dimension not empty, tensors with at least one dimension (torch also accepts -1 and 0 for none)."
  },
  {
   "property": "C98",
   "status": "proved",
   "theorems": [
    "Verif.C98_coor",
    "Verif.C98_digit",
    "Verif.C98_dec",
    "Verif.C98_loss",
    "Verif.C98_decoder_gradient",
    "Verif.C98_coor_gradient",
    "Verif.C98_digit_gradient",
    "Verif.C98_needs_detach"
   ],
   "note": "Real arithmetic. Autograd is the derivative in the parameters, with `detach` freezing at the current ones; draws are constants, since the experiment passes `reparameterized=False` everywhere. Log densities are those of C82's networks."
  },
  {
   "property": "C99",
   "status": "proved",
   "theorems": [
    "Verif.C99_law",
    "Verif.C99_unbiased",
    "Verif.C99_consistent",
    "Verif.C99_posterior",
    "Verif.C99_bouncing_evidence",
    "Verif.C99_bouncing_posterior",
    "Verif.C99_ess",
    "Verif.C99_bouncing_ess"
   ],
   "note": "Real arithmetic. C99_law is the joint law, C99_unbiased, C99_consistent, C99_posterior and C99_ess what follows for one batch element whose frames are the same for all particles; C99_bouncing_evidence, C99_bouncing_posterior and C99_bouncing_ess instantiate them. The law of large numbers is Mathlib's strong law on an infinite product, brought to finitely many particles."
  },
  {
   "property": "C100",
   "status": "proved",
   "theorems": [
    "Verif.ApgEval.C100_raises",
    "Verif.ApgEval.C100_type_error",
    "Verif.ApgEval.C100_repaired",
    "Verif.ApgEval.C100_samples"
   ],
   "note": "Calls outside the project (torch.load, os.listdir, the sampler as a whole) are parameters of the model of the script; video tensors have four dimensions. The package experiments.apgs_bshape does not exist in the repository."
  },
  {
   "property": "C101",
   "status": "proved",
   "theorems": [
    "Verif.C101_shift",
    "Verif.C101_copy",
    "Verif.C101_tie_rows",
    "Verif.C101_tie_columns",
    "Verif.C101_decoder_near",
    "Verif.C101_decoder_centre",
    "Verif.C101_decoder_corner",
    "Verif.C101_video",
    "Verif.C101_few_shapes",
    "Verif.C101_choice",
    "Verif.C101_load",
    "Verif.C101_padding",
    "Verif.C101_load_again",
    "Verif.C101_no_ties",
    "Verif.C101_almost_surely"
   ],
   "note": "Exact real arithmetic. torch's affine_grid and grid_sample are assumed as documented (align_corners False and True, nearest, zeros outside). Reading, resizing and the alpha channel of a file are a parameter."
  },
  {
   "property": "C102",
   "status": "proved",
   "theorems": [
    "Verif.SimMain.C102_options",
    "Verif.SimMain.C102_exits",
    "Verif.SimMain.C102_files",
    "Verif.SimMain.C102_all",
    "Verif.SimMain.C102_training",
    "Verif.SimMain.C102_stale",
    "Verif.SimMain.C102_no_slash",
    "Verif.SimMain.C102_raises",
    "Verif.SimMain.C102_run",
    "Verif.SimMain.C102_defaults"
   ],
   "note": "A file system of directories and saved shapes; no links, permissions, '..' or absolute paths. Reading images succeeds; eval of the blacklist is a parameter."
  },
  {
   "property": "C103",
   "status": "proved",
   "theorems": [
    "Verif.C103_nest",
    "Verif.C103_alive",
    "Verif.C103_same",
    "Verif.C103_reruns",
    "Verif.C103_hook"
   ],
   "note": "Who holds a tensor is modelled from below: only the trace being built and the conditioning trace of the running program. C103_reruns and C103_hook are relative to this; in Python other frames might keep the tensor."
  },
  {
   "property": "C104",
   "status": "proved",
   "theorems": [
    "Verif.Fp.C104_path",
    "Verif.Fp.C104_extra",
    "Verif.Fp.C104_too_many"
   ],
   "note": "exp and log of tensors are taken as correctly rounded; arange, logit and sigmoid as torch implements them on the CPU (assumed). Above 65536 targets the proof's error bounds do not separate neighbours; above 2^31 it raises."
  },
  {
   "property": "C105",
   "status": "proved",
   "theorems": [
    "Verif.Fp.C105_box",
    "Verif.Fp.C105_exact"
   ],
   "note": "sin and cos of tensors are taken as correctly rounded. The patch and the pixels (C44) remain in exact arithmetic."
  },
  {
   "property": "C106",
   "status": "proved",
   "theorems": [
    "Verif.Fp.C106_float32",
    "Verif.Fp.C106_float64"
   ],
   "note": "log and log1p of tensors are taken as correctly rounded; torch's Bernoulli validation, clamp_probs and probs_to_logits are modelled from their documented behaviour."
  }
 ]
}