{
 "claims": [
  {
   "property": "C01",
   "status": "proved",
   "theorems": [
    "Verif.Plaschem.disable_greatest",
    "Verif.Plaschem.disable_exact"
   ],
   "note": "Greatest consistent sub-network avoiding the request, and the explicit inductive description."
  },
  {
   "property": "C02",
   "status": "proved",
   "theorems": [
    "Verif.Plaschem.protected_survives_disable",
    "Verif.Plaschem.protected_survives_history",
    "Verif.Plaschem.electron_always_enabled"
   ],
   "note": "For every history of API calls."
  },
  {
   "property": "C03",
   "status": "proved",
   "theorems": [
    "Verif.Plaschem.disable_error_atomic"
   ],
   "note": "Any exception except the internal consistency check leaves the state untouched; the check itself cannot fail under RetClosed (C07)."
  },
  {
   "property": "C04",
   "status": "proved",
   "theorems": [
    "Verif.Plaschem.positive_ion_survives",
    "Verif.Plaschem.last_ion_protected"
   ],
   "note": "In every reachable state of a charged chemistry."
  },
  {
   "property": "C05",
   "status": "proved",
   "theorems": [
    "Verif.Plaschem.disable_refused_iff",
    "Verif.Plaschem.disable_succeeds_iff",
    "Verif.Plaschem.disable_request_as_set",
    "Verif.Plaschem.disable_joint_refused"
   ],
   "note": "Exact condition for refusal and for success; corner case with witness."
  },
  {
   "property": "C06",
   "status": "proved",
   "theorems": [
    "Verif.Plaschem.disable_idempotent",
    "Verif.Plaschem.disable_sequential_eq_joint",
    "Verif.Plaschem.disable_order_independent",
    "Verif.Plaschem.disable_subrequest"
   ],
   "note": ""
  },
  {
   "property": "C07",
   "status": "proved",
   "theorems": [
    "Verif.Plaschem.reachable_consistent",
    "Verif.Plaschem.consistency_check_passes",
    "Verif.Plaschem.consistency_check_can_fail"
   ],
   "note": "Second theorem needs that nominal return species exist; third theorem is the witness that the hypothesis is needed."
  },
  {
   "property": "C08",
   "status": "proved",
   "theorems": [
    "Verif.Plaschem.reset_enables_all",
    "Verif.Plaschem.reset_undoes_disables"
   ],
   "note": ""
  },
  {
   "property": "C09",
   "status": "proved",
   "theorems": [
    "Verif.Plaschem.disable_terminates"
   ],
   "note": ""
  },
  {
   "property": "C10",
   "status": "proved",
   "theorems": [
    "Verif.Plaschem.reaction_check_iff",
    "Verif.Plaschem.reaction_init_balanced",
    "Verif.Plaschem.reaction_init_never_rejects_balanced",
    "Verif.Plaschem.reaction_init_iff",
    "Verif.Plaschem.reaction_init_keeps"
   ],
   "note": "The external formula parser is a parameter assumed to list each element once with a positive count."
  },
  {
   "property": "C100",
   "status": "proved",
   "theorems": [
    "Verif.Plaschem.Xml.rp_init_iff",
    "Verif.Plaschem.Xml.rp_init_keeps",
    "Verif.Plaschem.Xml.getters_raise",
    "Verif.Plaschem.Xml.InitDemo.accepted_but_unusable",
    "Verif.Plaschem.RP.init_iff",
    "Verif.Plaschem.RP.init_keeps"
   ],
   "note": "ids are integers, units are texts; the value of ret_coefs is a dictionary or None. RP.init_iff and init_keeps are for the simplified constructor (Species.lean)."
  },
  {
   "property": "C101",
   "status": "proved",
   "theorems": [
    "Verif.Plaschem.Net.init_iff",
    "Verif.Plaschem.Net.init_pristine",
    "Verif.Plaschem.Net.init_rejects",
    "Verif.Plaschem.Net.init_perm",
    "Verif.Plaschem.Net.InitDemo.accepted",
    "Verif.Plaschem.Net.InitDemo.breaks"
   ],
   "note": "species and reactions passed explicitly."
  },
  {
   "property": "C102",
   "status": "proved",
   "theorems": [
    "Verif.Plaschem.Reaction.partner_iff",
    "Verif.Plaschem.Reaction.partner_error_iff",
    "Verif.Plaschem.Reaction.partner_perm",
    "Verif.Plaschem.Reaction.ion_process_iff",
    "Verif.Plaschem.Reaction.neutral_process_products",
    "Verif.Plaschem.Reaction.special_number",
    "Verif.Plaschem.Reaction.kind_perm"
   ],
   "note": ""
  },
  {
   "property": "C103",
   "status": "proved",
   "theorems": [
    "Verif.Pygmol.Data.pressure_no_overshoot",
    "Verif.Pygmol.Data.Neutral.pressure_law"
   ],
   "note": ""
  },
  {
   "property": "C104",
   "status": "proved",
   "theorems": [
    "Verif.Pygmol.Data.Neutral.no_blow_up",
    "Verif.Pygmol.Data.Neutral.washed_out",
    "Verif.Pygmol.Data.Neutral.energy_constant",
    "Verif.Pygmol.NeutralReads.no_blow_up"
   ],
   "note": ""
  },
  {
   "property": "C105",
   "status": "proved",
   "theorems": [
    "Verif.Fwork.Config.mkdirs_concurrent",
    "Verif.Fwork.Config.mkdirs_any_moment",
    "Verif.Fwork.Config.mkdirs_eq",
    "Verif.Fwork.Config.query_ok",
    "Verif.Fwork.Config.query_error",
    "Verif.Fwork.Config.query_errors",
    "Verif.Fwork.Config.queries_effect",
    "Verif.Fwork.Config.query_apart",
    "Verif.Fwork.Config.logged_found",
    "Verif.Fwork.Config.logName_spec",
    "Verif.Fwork.Config.load_spec",
    "Verif.Fwork.Config.toPath_spec"
   ],
   "note": "Symbolic links, `..` in the configured paths and permissions are not modelled."
  },
  {
   "property": "C106",
   "status": "proved",
   "theorems": [
    "Verif.Fwork.RunLog.solver_reached",
    "Verif.Fwork.RunLog.nothing_written",
    "Verif.Fwork.RunLog.other_runs_kept",
    "Verif.Fwork.RunLog.logged_run_repeats",
    "Verif.Fwork.RunLog.run_logs"
   ],
   "note": "The text of YAML and CSV files is not modelled: a file has the value written, dictionaries possibly reordered. Numbers are exact, so densities must be plain floats (numpy scalars passed by the user are dumped as Python objects, which the loader refuses)."
  },
  {
   "property": "C107",
   "status": "proved",
   "theorems": [
    "Verif.Plaschem.getReactions_exact",
    "Verif.Plaschem.reaction_getters_aligned",
    "Verif.Plaschem.init_hasFactor",
    "Verif.Plaschem.reaction_getters_share_index"
   ],
   "note": ""
  },
  {
   "property": "C108",
   "status": "proved",
   "theorems": [
    "Verif.Plaschem.same_behaviour",
    "Verif.Plaschem.no_new_states",
    "Verif.Plaschem.continued",
    "Verif.Plaschem.loads_iff",
    "Verif.Plaschem.dumped_again",
    "Verif.Plaschem.foreign_file"
   ],
   "note": "Files dumped by chemistries with the same species and reactions. dumped_again: return coefficients are dictionaries (distinct keys)."
  },
  {
   "property": "C109",
   "status": "proved",
   "theorems": [
    "Verif.Plaschem.Xml.rx_init_iff",
    "Verif.Plaschem.Xml.rx_init_keeps",
    "Verif.Plaschem.Xml.rx_getters",
    "Verif.Plaschem.Xml.rx_init_perm",
    "Verif.Plaschem.Xml.RxInitDemo.accepted_but_unusable_rx",
    "Verif.Plaschem.Xml.RxInitDemo.unreadable_factor"
   ],
   "note": "For formula parsers that list no element twice or with count zero. The id is an int; units are texts."
  },
  {
   "property": "C11",
   "status": "proved",
   "theorems": [
    "Verif.Plaschem.stoich_lhs",
    "Verif.Plaschem.stoich_rhs",
    "Verif.Plaschem.stoich_net",
    "Verif.Plaschem.stoich_other",
    "Verif.Plaschem.rp_sets"
   ],
   "note": ""
  },
  {
   "property": "C110",
   "status": "proved",
   "theorems": [
    "Verif.Fwork.GraphHist.graph_history",
    "Verif.Fwork.GraphHist.graph_raises",
    "Verif.Fwork.GraphHist.weights_positive",
    "Verif.Fwork.GraphHist.weighting_iff"
   ],
   "note": "Caller code that changes the returned sets and dictionaries in place is not modelled (the getters return the stored objects)."
  },
  {
   "property": "C111",
   "status": "proved",
   "theorems": [
    "Verif.Fwork.MorrisEval.label_spec",
    "Verif.Fwork.MorrisEval.solution_iff",
    "Verif.Fwork.MorrisEval.readable_iff",
    "Verif.Fwork.MorrisEval.evaluation_iff",
    "Verif.Fwork.MorrisEval.reading_errors",
    "Verif.Fwork.MorrisEval.history_stats",
    "Verif.Fwork.MorrisEval.unfinished_raises",
    "Verif.Fwork.MorrisEval.abandoned_forever",
    "Verif.Fwork.MorrisEval.analysis_reads",
    "Verif.Fwork.MorrisEval.analysis_stats",
    "Verif.Fwork.MorrisEval.Demo.lost_raises",
    "Verif.Fwork.MorrisEval.Demo.empty_batch_raises"
   ],
   "note": "Findings: abandoned_forever, Demo.lost_raises (a batch that returned without an error, after which the evaluation raises) and Demo.empty_batch_raises (a batch of no trajectories). Values are taken as the text files keep them, without rounding; statistics are over real numbers (C68)."
  },
  {
   "property": "C112",
   "status": "proved",
   "theorems": [
    "Verif.Fwork.MorrisWhole.perturbed_last",
    "Verif.Fwork.MorrisWhole.chemAt_spec",
    "Verif.Fwork.MorrisWhole.runSol_point",
    "Verif.Fwork.MorrisWhole.effect_pair",
    "Verif.Fwork.MorrisWhole.reactions_effects",
    "Verif.Fwork.MorrisWhole.linear_reaction",
    "Verif.Fwork.MorrisWhole.species_effects"
   ],
   "note": "Joins C45, C68, C91 and C111. The solver is an arbitrary function of the state of the chemistry, the parameters being the same in all runs of a trajectory. Rates are rational, outputs real numbers."
  },
  {
   "property": "C113",
   "status": "proved",
   "theorems": [
    "Verif.Fwork.MorrisWholeRet.same_vector",
    "Verif.Fwork.MorrisWholeRet.ret_effects"
   ],
   "note": "Joins C46, C68, C91 and C111. Coefficients are rational with an arbitrary function for the power; outputs are real numbers."
  },
  {
   "property": "C114",
   "status": "proved",
   "theorems": [
    "Verif.Fwork.ReduceWhole.reduced_model",
    "Verif.Fwork.ReduceWhole.as_one_call",
    "Verif.Fwork.ReduceWhole.nothing_left_out",
    "Verif.Fwork.ReduceWhole.error_not_nan",
    "Verif.Fwork.ReduceWhole.value_iff",
    "Verif.Fwork.ReduceWhole.Demo.not_minimal"
   ],
   "note": "Joins C01, C05, C22, C41, C43, C93 and C108. Numbers are real. The solution on the disk is the compressed one (C94), the bound is for the solution as computed."
  },
  {
   "property": "C115",
   "status": "proved",
   "theorems": [
    "Verif.Fwork.Reduce.tried_in_order",
    "Verif.Fwork.Reduce.lowest_first",
    "Verif.Fwork.Reduce.weakest_first",
    "Verif.Fwork.Reduce.guided_leaves_nothing_out",
    "Verif.Fwork.Reduce.never_down_to_targets",
    "Verif.Fwork.Reduce.accepted_matches",
    "Verif.Fwork.Reduce.ranking_function_iff"
   ],
   "note": "Joins C41, C43, C92 and C39. Scores that are nan count as highest, as in the sort of pandas. Search by max_flow is excluded as in C92."
  },
  {
   "property": "C116",
   "status": "proved",
   "theorems": [
    "Verif.Fwork.GraphRun.read_row",
    "Verif.Fwork.GraphRun.graph_from_run_iff",
    "Verif.Fwork.GraphRun.graph_from_run_refusal",
    "Verif.Fwork.GraphRun.graph_of_run_rates",
    "Verif.Fwork.GraphRun.ranking_from_run",
    "Verif.Fwork.GraphRun.graph_balance",
    "Verif.Fwork.GraphRun.guided_by_runs",
    "Verif.Fwork.GraphRun.adhoc_enabled",
    "Verif.Fwork.GraphRun.Demo.no_graph_from_run"
   ],
   "note": "Joins C57, C63, C72, C92, C74 (frames at given times) and C115. logged_exists shows that runs log."
  },
  {
   "property": "C117",
   "status": "proved",
   "theorems": [
    "Verif.Fwork.ReduceMorris.species_ranking",
    "Verif.Fwork.ReduceMorris.check_passes",
    "Verif.Fwork.ReduceMorris.least_influential_first",
    "Verif.Fwork.ReduceMorris.inert_first",
    "Verif.Fwork.ReduceMorris.morris_leaves_nothing_out"
   ],
   "note": "Joins C111 and C112 (statistics and ranking of a directory) with C42, C114 and C115. How pandas compares nan in the check is left open; the scores here are numbers."
  },
  {
   "property": "C118",
   "status": "proved",
   "theorems": [
    "Verif.Fwork.ReducedEqns.disabling_shrinks",
    "Verif.Fwork.ReducedEqns.rates_kept",
    "Verif.Fwork.ReducedEqns.reduced_densities",
    "Verif.Fwork.ReducedEqns.reduced_energy",
    "Verif.Fwork.ReducedEqns.reduced_exact",
    "Verif.Fwork.ReducedEqns.ion_lost_ambipolar",
    "Verif.Fwork.ReducedEqns.ion_lost_sheath",
    "Verif.Fwork.ReducedEqns.cut_makes_disabled"
   ],
   "note": "Joins the chemistry getters with the equations: ReadsAll says what the constructor of Equations reads. NoIonLost, NoFeedLost and NoIonReturned are needed: ion_lost_ambipolar and ion_lost_sheath show what happens otherwise. Real numbers, not floats."
  },
  {
   "property": "C119",
   "status": "proved",
   "theorems": [
    "Verif.Plaschem.Net.order_of_construction",
    "Verif.Plaschem.Net.order_of_call",
    "Verif.Plaschem.Net.order_of_history",
    "Verif.Plaschem.Net.order_of_lists",
    "Verif.Fwork.OrderEqns.order_of_equations",
    "Verif.Fwork.OrderEqns.order_matters_elastic"
   ],
   "note": "Ids are kept. Of a failing construction only the failure is compared, not which of several violations is reported. OnePartner is needed for the equations, order_matters_elastic is the witness. Real numbers: the order of floating-point summation is not modelled."
  },
  {
   "property": "C12",
   "status": "proved",
   "theorems": [
    "Verif.Plaschem.net_conserves",
    "Verif.Plaschem.net_weighted_sum"
   ],
   "note": ""
  },
  {
   "property": "C120",
   "status": "proved",
   "theorems": [
    "Verif.Fwork.AdhocEqns.reads_unique",
    "Verif.Fwork.AdhocEqns.adhoc_rate",
    "Verif.Fwork.AdhocEqns.adhoc_rate_equations",
    "Verif.Fwork.AdhocEqns.adhoc_rate_disabled",
    "Verif.Fwork.AdhocEqns.zero_as_disabled",
    "Verif.Fwork.AdhocEqns.adhoc_wall",
    "Verif.Fwork.AdhocEqns.adhoc_wall_absent",
    "Verif.Fwork.AdhocEqns.adhoc_stick",
    "Verif.Fwork.AdhocEqns.adhoc_return"
   ],
   "note": "Real arithmetic. The equations of both states are assumed to be set up without an exception (ReadsAll), return coefficient dicts are dicts (PyDicts). reads_unique: the data of the equations are determined by chemistry and parameters."
  },
  {
   "property": "C121",
   "status": "proved",
   "theorems": [
    "Verif.Pygmol.Data.unique_solution",
    "Verif.Pygmol.Data.solution_exists",
    "Verif.Pygmol.Data.solution_continues",
    "Verif.Fwork.UniqueEqns.same_development",
    "Verif.Fwork.UniqueEqns.order_of_development"
   ],
   "note": "Exact solutions in real arithmetic; the numerical integration (scipy solve_ivp) is not modelled. Along the solution the electron density and all denominators are assumed not to vanish (Inside, as in C97)."
  },
  {
   "property": "C122",
   "status": "proved",
   "theorems": [
    "Verif.Fwork.PhysEqns.physical_iff",
    "Verif.Fwork.PhysEqns.sound_physical",
    "Verif.Fwork.PhysEqns.accepted_physical",
    "Verif.Fwork.PhysEqns.accepted_development",
    "Verif.Fwork.PhysEqns.Demo.negative_factor_accepted",
    "Verif.Fwork.PhysEqns.given_reads"
   ],
   "note": "Exact solutions in real arithmetic; the numerical integration is not modelled. The equations are assumed to be set up without an exception (ReadsAll)."
  },
  {
   "property": "C123",
   "status": "proved",
   "theorems": [
    "Verif.Fwork.MorrisEqns.perturbed_equations",
    "Verif.Fwork.MorrisEqns.perturbed_defined",
    "Verif.Fwork.MorrisEqns.perturbed_physical",
    "Verif.Fwork.MorrisEqns.perturbed_development",
    "Verif.Fwork.MorrisEqns.centre_development",
    "Verif.Fwork.MorrisEqns.one_rate_equations",
    "Verif.Fwork.MorrisEqns.one_species_equations",
    "Verif.Fwork.MorrisEqns.idle_reaction"
   ],
   "note": "Exact solutions in real arithmetic; the numerical integration is not modelled."
  },
  {
   "property": "C124",
   "status": "proved",
   "theorems": [
    "Verif.Fwork.MorrisRetEqns.run_defined",
    "Verif.Fwork.MorrisRetEqns.run_equations",
    "Verif.Fwork.MorrisRetEqns.run_wall_total",
    "Verif.Fwork.MorrisRetEqns.run_physical",
    "Verif.Fwork.MorrisRetEqns.run_development",
    "Verif.Fwork.MorrisRetEqns.same_chem_development",
    "Verif.Fwork.MorrisRetEqns.same_vector_development",
    "Verif.Fwork.MorrisRetEqns.centre_development",
    "Verif.Fwork.MorrisRetEqns.one_coef_equations"
   ],
   "note": "Exact solutions in real arithmetic; the power range^(2x-1) is an arbitrary function, positive (or 1 at exponent 0) where the claim needs it; the numerical integration is not modelled."
  },
  {
   "property": "C125",
   "status": "proved",
   "theorems": [
    "Verif.Pygmol.Data.maximal_development",
    "Verif.Pygmol.Data.development_unique",
    "Verif.Pygmol.Data.leaves_ends",
    "Verif.Pygmol.Data.reaches_end",
    "Verif.Fwork.PhysEqns.accepted_maximal",
    "Verif.Fwork.PhysEqns.accepted_reaches_end"
   ],
   "note": "Exact solutions in real arithmetic; the numerical integration is not modelled. The conditions of the second part (C97) exclude chemistries with electron attachment."
  },
  {
   "property": "C126",
   "status": "proved",
   "theorems": [
    "Verif.Pygmol.Data.run_stable",
    "Verif.Fwork.MorrisEqns.perturbed_stable",
    "Verif.Fwork.MorrisEqns.factors_stable"
   ],
   "note": "Exact solutions in real arithmetic; the numerical integration is not modelled. The constant and the distance depend on the chemistry and on the run."
  },
  {
   "property": "C127",
   "status": "proved",
   "theorems": [
    "Verif.Pygmol.Data.removed_stable",
    "Verif.Fwork.MorrisEqns.disabled_stable"
   ],
   "note": "Exact solutions in real arithmetic; the numerical integration is not modelled. The constant is not computed. Disabled species are not covered: their density in the full run is positive."
  },
  {
   "property": "C128",
   "status": "proved",
   "theorems": [
    "Verif.Pygmol.Data.ret_stable",
    "Verif.Fwork.MorrisRetEqns.run_stable"
   ],
   "note": "Exact solutions in real arithmetic; the numerical integration is not modelled. The power function of the perturbation is a parameter, of which only non-negativity is assumed. The constant and the distance depend on the chemistry and on the run."
  },
  {
   "property": "C129",
   "status": "proved",
   "theorems": [
    "Verif.Pygmol.Data.supply_stable",
    "Verif.Fwork.MorrisEqns.supply_stable",
    "Verif.Pygmol.powerExt_near"
   ],
   "note": "Exact solutions in real arithmetic; the numerical integration is not modelled. The times of the power series are strictly increasing, as the equations demand after the adjustment of repeated times. The constant and the distance depend on the chemistry and on the run."
  },
  {
   "property": "C13",
   "status": "proved",
   "theorems": [
    "Verif.Plaschem.rate_coefficient_sound",
    "Verif.Plaschem.rate_coefficient_formula",
    "Verif.Plaschem.accepted_rate_unit",
    "Verif.Plaschem.rate_coefficient_monotone"
   ],
   "note": "Real arithmetic instead of floats."
  },
  {
   "property": "C130",
   "status": "proved",
   "theorems": [
    "Verif.Fwork.true_error_le",
    "Verif.Fwork.reported_error_le",
    "Verif.Fwork.MorrisEqns.disabled_error"
   ],
   "note": "The accuracy is a hypothesis (it covers the solver, rounding and the interpolation between steps); no statement is made about the accuracy scipy reaches. Part (c) is about densities of heavy species."
  },
  {
   "property": "C131",
   "status": "proved",
   "theorems": [
    "Verif.Fwork.GraphRun.final_rates",
    "Verif.Fwork.GraphRun.final_fluxes",
    "Verif.Fwork.GraphRun.final_agrees",
    "Verif.Fwork.GraphRun.final_balance",
    "Verif.Fwork.GraphRun.final_rates_mislabelled"
   ],
   "note": "No species is called t (its column would be overwritten by the times)."
  },
  {
   "property": "C132",
   "status": "proved",
   "theorems": [
    "Verif.Plaschem.dump_succeeds_iff",
    "Verif.Plaschem.changed_xml_refused",
    "Verif.Plaschem.unchanged_xml_same",
    "Verif.Plaschem.coherent_same_xml",
    "Verif.Plaschem.failed_dump_destroys"
   ],
   "note": "Hashes are compared, so contents with the same MD5 hash count as the same. The disk is not full and paths can be written to."
  },
  {
   "property": "C133",
   "status": "proved",
   "theorems": [
    "Verif.Pygmol.Data.loss_stable",
    "Verif.Pygmol.Data.withLoss_field"
   ],
   "note": "Exact solutions in real arithmetic."
  },
  {
   "property": "C134",
   "status": "proved",
   "theorems": [
    "Verif.Fwork.GraphRun.solution_table",
    "Verif.Fwork.GraphRun.final_solution",
    "Verif.Fwork.GraphRun.tellurium_lost"
   ],
   "note": "tellurium_lost shows that the claim fails without the restriction on names. Real arithmetic."
  },
  {
   "property": "C14",
   "status": "proved",
   "theorems": [
    "Verif.Plaschem.uniqueKey_of_sides",
    "Verif.Plaschem.uniqueKey_eq_iff",
    "Verif.Plaschem.accepted_name_no_gt",
    "Verif.Plaschem.uniqueKey_collision",
    "Verif.Plaschem.uniqueKey_toStr",
    "Verif.Plaschem.uniqueKey_toStr_iff",
    "Verif.Plaschem.toStr_read"
   ],
   "note": ""
  },
  {
   "property": "C15",
   "status": "proved",
   "theorems": [
    "Verif.Plaschem.elastic_of_same_sides",
    "Verif.Plaschem.elastic_iff_same_sides",
    "Verif.Plaschem.elastic_ignores_multiplicity"
   ],
   "note": ""
  },
  {
   "property": "C16",
   "status": "proved",
   "theorems": [
    "Verif.Plaschem.stripCharge_cases",
    "Verif.Plaschem.stripCharge_prefix",
    "Verif.Plaschem.stripCharge_sign_digits",
    "Verif.Plaschem.stripCharge_signs",
    "Verif.Plaschem.stripCharge_neutral",
    "Verif.Plaschem.stripCharge_not_idempotent"
   ],
   "note": ""
  },
  {
   "property": "C17",
   "status": "proved",
   "theorems": [
    "Verif.Plaschem.surface_defaults",
    "Verif.Plaschem.default_return_conserves_atoms",
    "Verif.Plaschem.Xml.core_agrees",
    "Verif.Plaschem.Xml.given_surface"
   ],
   "note": "core_agrees: for the stored form with strings and units as well."
  },
  {
   "property": "C18",
   "status": "proved",
   "theorems": [
    "Verif.Plaschem.getSpecies_exact",
    "Verif.Plaschem.species_getters_aligned",
    "Verif.Plaschem.species_masses",
    "Verif.Plaschem.species_getters_share_index"
   ],
   "note": "Exception for the getter of return coefficients, see C21. None may be shown as NaN by pandas."
  },
  {
   "property": "C19",
   "status": "proved",
   "theorems": [
    "Verif.Plaschem.stick_coef_history",
    "Verif.Plaschem.arrh_a_history",
    "Verif.Plaschem.adhoc_arrh_breaks_si_getter"
   ],
   "note": "value in force = last ad-hoc value set since the last relevant reset, over any history; negative witness: an ad-hoc arrh_a on a reaction without si units makes the SI getter raise"
  },
  {
   "property": "C20",
   "status": "proved",
   "theorems": [
    "Verif.Plaschem.stoichiomatrix_entries",
    "Verif.Plaschem.stoichiomatrix_net_eq_diff",
    "Verif.Plaschem.stoichiomatrix_conserves"
   ],
   "note": "entries are multiplicities; columns conserve charge and elements together with the electron and M rows"
  },
  {
   "property": "C21",
   "status": "proved",
   "theorems": [
    "Verif.Plaschem.ret_coefs_value",
    "Verif.Plaschem.ret_coefs_index",
    "Verif.Plaschem.return_matrix_entries",
    "Verif.Plaschem.ret_coefs_spurious"
   ],
   "note": "negative witness ret_coefs_spurious: with protected=False the getter adds entries for species outside the requested index"
  },
  {
   "property": "C22",
   "status": "proved",
   "theorems": [
    "Verif.Plaschem.load_dump",
    "Verif.Plaschem.load_dump_fails",
    "Verif.Plaschem.check_coherence_iff"
   ],
   "note": "round trip under the hypothesis that no stored ad-hoc return coefficient names a disabled species; without it load_dump_fails shows the load raises after overwriting the masks; check_coherence decides agreement of states"
  },
  {
   "property": "C23",
   "status": "proved",
   "theorems": [
    "Verif.Plaschem.copies_independent",
    "Verif.Plaschem.copy_ok",
    "Verif.Plaschem.copy_neutral_fails"
   ],
   "note": "references and mutable cells are explicit in the model; programs with any number of copies refine programs over independent values; negative part: a neutral chemistry can never be copied"
  },
  {
   "property": "C24",
   "status": "proved",
   "theorems": [
    "Verif.Plaschem.adhoc_ret_accepted",
    "Verif.Plaschem.adhoc_ret_rejected"
   ],
   "note": ""
  },
  {
   "property": "C25",
   "status": "proved",
   "theorems": [
    "Verif.Pygmol.Reads.volumetric_conserves_elements"
   ],
   "note": "networks: every state reachable from construction by disable/reset; \u211d arithmetic"
  },
  {
   "property": "C26",
   "status": "proved",
   "theorems": [
    "Verif.Pygmol.Reads.volumetric_conserves_charge"
   ],
   "note": ""
  },
  {
   "property": "C27",
   "status": "proved",
   "theorems": [
    "Verif.Pygmol.Data.flow_total",
    "Verif.Pygmol.Data.flow_sign",
    "Verif.Pygmol.Data.flow_unfed"
   ],
   "note": ""
  },
  {
   "property": "C28",
   "status": "proved",
   "theorems": [
    "Verif.Pygmol.Data.diffusion_sinks_nonpos",
    "Verif.Pygmol.Data.wall_conserves",
    "Verif.Pygmol.Data.wall_balance",
    "Verif.Pygmol.Data.negative_ion_wall_undefined"
   ],
   "note": "the last theorem is the 0/0 finding"
  },
  {
   "property": "C29",
   "status": "proved",
   "theorems": [
    "Verif.Pygmol.Data.absent_species_grows",
    "Verif.Pygmol.Data.densities_stay_positive"
   ],
   "note": "positivity along exact (not numerical) solutions"
  },
  {
   "property": "C30",
   "status": "proved",
   "theorems": [
    "Verif.Pygmol.Data.min_n_correction",
    "Verif.Pygmol.Data.min_rho_correction"
   ],
   "note": ""
  },
  {
   "property": "C31",
   "status": "proved",
   "theorems": [
    "Verif.Pygmol.Data.quasi_neutral",
    "Verif.Pygmol.Data.electron_temperature",
    "Verif.Pygmol.Data.ion_temperature"
   ],
   "note": ""
  },
  {
   "property": "C32",
   "status": "proved",
   "theorems": [
    "Verif.Pygmol.interp_bounds",
    "Verif.Pygmol.interp_hits",
    "Verif.Pygmol.interp_linear",
    "Verif.Pygmol.interp_outside",
    "Verif.Pygmol.interp_continuous",
    "Verif.Pygmol.dedupe_close",
    "Verif.Pygmol.dedupe_of_strict",
    "Verif.Pygmol.dedupe_strict",
    "Verif.Pygmol.triple_rejected",
    "Verif.Pygmol.power_accepted",
    "Verif.Pygmol.dedupe_int"
   ],
   "note": "dedupe_int is the integer-array finding"
  },
  {
   "property": "C33",
   "status": "proved",
   "theorems": [
    "Verif.Pygmol.Data.init_pressure",
    "Verif.Pygmol.Data.init_electrons",
    "Verif.Pygmol.Data.init_nonneg",
    "Verif.Pygmol.Data.init_roundtrip",
    "Verif.Pygmol.Data.validate_iff_starts",
    "Verif.Pygmol.Demo.ion_feed_pressure"
   ],
   "note": "Real numbers; generate_initial_n and _build_y0 share the formula. Finding: a fed ion breaks the pressure (Verif.Pygmol.Demo.ion_feed_pressure)."
  },
  {
   "property": "C34",
   "status": "proved",
   "theorems": [
    "Verif.Fwork.widest_paths",
    "Verif.Fwork.widest_values_deterministic",
    "Verif.Fwork.widest_unreachable"
   ],
   "note": "Any ordered group of weights, any weighting function; iteration order of sets is an arbitrary oracle; termination of both loops is part of the theorem."
  },
  {
   "property": "C35",
   "status": "proved",
   "theorems": [
    "Verif.Fwork.shortest_paths",
    "Verif.Fwork.shortest_values_deterministic"
   ],
   "note": "As C34; a path of length zero gets nan, as in the code."
  },
  {
   "property": "C36",
   "status": "proved",
   "theorems": [
    "Verif.Fwork.max_flow",
    "Verif.Fwork.max_flow_deterministic",
    "Verif.Fwork.max_flow_isolated"
   ],
   "note": "Termination by the Edmonds-Karp argument, so no integrality is needed; exact arithmetic. Finding: max_flow_isolated."
  },
  {
   "property": "C37",
   "status": "proved",
   "theorems": [
    "Verif.Fwork.drg_weights",
    "Verif.Fwork.drgep_weights",
    "Verif.Fwork.net_weights",
    "Verif.Fwork.balanced_loses_edges",
    "Verif.Fwork.drg_negative",
    "Verif.Fwork.drg1_above_one"
   ],
   "note": "Exact arithmetic over any ordered field. Findings: drg1_above_one, balanced_loses_edges, drg_negative."
  },
  {
   "property": "C38",
   "status": "proved",
   "theorems": [
    "Verif.Fwork.ranking_spec",
    "Verif.Fwork.distributed_searchable",
    "Verif.Fwork.entry_unique",
    "Verif.Fwork.maxScore_unique",
    "Verif.Fwork.max_product_refuses",
    "Verif.Fwork.max_flow_isolated",
    "Verif.Fwork.decoupled_ranked_last",
    "Verif.Fwork.label_clash"
   ],
   "note": "The order of species with equal scores is left open, as in the unstable sort used. Findings: decoupled_ranked_last, label_clash, max_product_refuses, max_flow_isolated."
  },
  {
   "property": "C39",
   "status": "proved",
   "theorems": [
    "Verif.Fwork.compress_keeps",
    "Verif.Fwork.compress_idempotent",
    "Verif.Fwork.label_missing"
   ],
   "note": "Frames with the default index; findings: label_missing."
  },
  {
   "property": "C40",
   "status": "proved",
   "theorems": [
    "Verif.Fwork.compress_keeps",
    "Verif.Fwork.selection_unique",
    "Verif.Fwork.compress_length",
    "Verif.Fwork.negative_column_ignored",
    "Verif.Fwork.zero_column_blocks",
    "Verif.Fwork.label_missing"
   ],
   "note": "Findings: zero_column_blocks, negative_column_ignored, label_missing."
  },
  {
   "property": "C41",
   "status": "proved",
   "theorems": [
    "Verif.Fwork.error_max_bounds",
    "Verif.Fwork.error_max_zero_iff",
    "Verif.Fwork.error_rms_le_max",
    "Verif.Fwork.errors_scale",
    "Verif.Fwork.resultInTime_ok",
    "Verif.Fwork.error_max_le_rms"
   ],
   "note": "Real arithmetic; division by zero (all full values zero) stops the model, the code goes on with nan."
  },
  {
   "property": "C42",
   "status": "proved",
   "theorems": [
    "Verif.Fwork.Reduce.loop_terminates",
    "Verif.Fwork.Reduce.reduction_terminates",
    "Verif.Fwork.Reduce.each_species_once",
    "Verif.Fwork.Reduce.loop_stops",
    "Verif.Fwork.Reduce.loop_raises_only",
    "Verif.Fwork.Reduce.Demo.important_cascade_raises",
    "Verif.Fwork.Reduce.Demo.negative_threshold_raises"
   ],
   "note": "Findings: Demo.important_cascade_raises, Demo.negative_threshold_raises. The sortedness assertion on the ranking is an oracle."
  },
  {
   "property": "C43",
   "status": "proved",
   "theorems": [
    "Verif.Fwork.Reduce.chemistry_is_last_accepted",
    "Verif.Fwork.Reduce.only_eligible_removed",
    "Verif.Fwork.Reduce.reduction_restores_chemistry",
    "Verif.Fwork.Reduce.rows_truthful",
    "Verif.Fwork.Reduce.Demo.nan_error_accepted"
   ],
   "note": "The backend and the error measure are oracles; chemistry, dump and load are the models of C01-C22. Finding: Demo.nan_error_accepted."
  },
  {
   "property": "C44",
   "status": "proved",
   "theorems": [
    "Verif.Fwork.Morris.trajectory_ok",
    "Verif.Fwork.Morris.trajectory_code",
    "Verif.Fwork.Morris.seed_nearest",
    "Verif.Fwork.Morris.rounding_leaves_grid"
   ],
   "note": "Random choices are oracles (any permutation, any sign order); exact arithmetic with np.round modelled. Finding: rounding_leaves_grid."
  },
  {
   "property": "C45",
   "status": "proved",
   "theorems": [
    "Verif.Fwork.Morris.perturbed_values",
    "Verif.Fwork.Morris.speciesFactor_centre",
    "Verif.Fwork.Morris.speciesFactor_local",
    "Verif.Fwork.Morris.speciesFactor_bounds"
   ],
   "note": "On the chemistry model of C01-C22."
  },
  {
   "property": "C46",
   "status": "proved",
   "theorems": [
    "Verif.Fwork.Morris.ret_factor_effect",
    "Verif.Fwork.Morris.ret_factor_range",
    "Verif.Fwork.Morris.ret_history",
    "Verif.Fwork.Morris.ret_no_drift",
    "Verif.Fwork.Morris.every_factor_high",
    "Verif.Fwork.Morris.ret_zero_self_fails"
   ],
   "note": "The power is an oracle; what is needed of it is a hypothesis. Finding: ret_zero_self_fails (with every_factor_high)."
  },
  {
   "property": "C47",
   "status": "proved",
   "theorems": [
    "Verif.Fwork.MorrisRuns.next_id",
    "Verif.Fwork.MorrisRuns.queue_ok",
    "Verif.Fwork.MorrisRuns.trajName_injective"
   ],
   "note": ""
  },
  {
   "property": "C48",
   "status": "proved",
   "theorems": [
    "Verif.Plaschem.Xml.ids_assigned",
    "Verif.Plaschem.Xml.ids_distinct",
    "Verif.Plaschem.DemoX.ids_collide"
   ],
   "note": "All histories; Python int-str conversion is a parameter with a round-trip law."
  },
  {
   "property": "C49",
   "status": "proved",
   "theorems": [
    "Verif.Plaschem.Xml.one_of_each_name",
    "Verif.Plaschem.Xml.add_refused_iff",
    "Verif.Plaschem.Xml.known_names_not_added",
    "Verif.Plaschem.Xml.participants_present",
    "Verif.Plaschem.DemoX.number_names",
    "Verif.Plaschem.DemoX.merge_silent"
   ],
   "note": "Names passed are non-empty strings (number_names: 5 and \"5\" are two species with one name in the file). merge_silent: a species of the same name with other attributes is dropped silently when a file is added."
  },
  {
   "property": "C50",
   "status": "proved",
   "theorems": [
    "Verif.Plaschem.Xml.xml_round_trip",
    "Verif.Plaschem.Xml.chemistry_round_trip",
    "Verif.Plaschem.DemoX.comma_breaks",
    "Verif.Plaschem.DemoX.space_breaks",
    "Verif.Plaschem.DemoX.empty_lost",
    "Verif.Plaschem.DemoX.no_mass_breaks",
    "Verif.Plaschem.DemoX.no_stateless_breaks",
    "Verif.Plaschem.DemoX.bool_breaks",
    "Verif.Plaschem.DemoX.unit_lost",
    "Verif.Plaschem.DemoX.no_rate_breaks",
    "Verif.Plaschem.DemoX.chemistry_after_other"
   ],
   "note": "Escaping and encoding of the XML library are not modelled. Number formatting is a parameter with a round-trip law (a lawful instance is given)."
  },
  {
   "property": "C51",
   "status": "proved",
   "theorems": [
    "Verif.Plaschem.Classify.classify_in_scheme",
    "Verif.Plaschem.Classify.classify_fails_iff",
    "Verif.Plaschem.Classify.classify_similar",
    "Verif.Plaschem.Classify.listing_of_history",
    "Verif.Plaschem.Classify.ionization_iff",
    "Verif.Plaschem.Classify.detachment_iff",
    "Verif.Plaschem.Classify.dissociative_ionization_iff",
    "Verif.Plaschem.Classify.attachment_iff",
    "Verif.Plaschem.Classify.recombination_iff",
    "Verif.Plaschem.Classify.dissociative_attachment_iff",
    "Verif.Plaschem.Classify.dissociative_recombination_iff",
    "Verif.Plaschem.Classify.elastic_iff",
    "Verif.Plaschem.Classify.excitation_iff",
    "Verif.Plaschem.Classify.deexcitation_iff",
    "Verif.Plaschem.Classify.other_loss_iff",
    "Verif.Plaschem.Classify.dissociation_iff",
    "Verif.Plaschem.Classify.dissociative_excitation_iff",
    "Verif.Plaschem.Classify.three_body_iff",
    "Verif.Plaschem.Classify.decay_iff",
    "Verif.Plaschem.Classify.neutral_iff",
    "Verif.Plaschem.Classify.neutralization_iff",
    "Verif.Plaschem.Classify.dissociative_neutralization_iff",
    "Verif.Plaschem.Classify.scattering_iff",
    "Verif.Plaschem.Classify.association_iff",
    "Verif.Plaschem.Classify.penning_iff",
    "Verif.Plaschem.Classify.neutral_ionization_iff",
    "Verif.Plaschem.Classify.neutral_dissociative_ionization_iff",
    "Verif.Plaschem.Classify.neutral_dissociation_iff",
    "Verif.Plaschem.Classify.neutral_dissociative_excitation_iff",
    "Verif.Plaschem.Classify.dissociative_quenching_iff",
    "Verif.Plaschem.Classify.neutral_excitation_iff",
    "Verif.Plaschem.Classify.quenching_iff",
    "Verif.Plaschem.Classify.transfer_iff",
    "Verif.Plaschem.Classify.interchange_iff",
    "Verif.Plaschem.Classify.associative_ionization_iff",
    "Verif.Plaschem.Classify.positive_iff",
    "Verif.Plaschem.Classify.negative_iff",
    "Verif.Plaschem.Classify.positive_charge_transfer_iff",
    "Verif.Plaschem.Classify.positive_resonant_iff",
    "Verif.Plaschem.Classify.negative_charge_transfer_iff",
    "Verif.Plaschem.Classify.negative_resonant_iff",
    "Verif.Plaschem.Classify.dissociative_charge_transfer_iff",
    "Verif.Plaschem.Classify.negative_detachment_iff",
    "Verif.Plaschem.Classify.associative_detachment_iff",
    "Verif.Plaschem.Classify.three_body_recombination_iff",
    "Verif.Plaschem.Classify.three_body_attachment_iff",
    "Verif.Plaschem.DemoC.unclassifiable",
    "Verif.Plaschem.Classify.valid_of_init"
   ],
   "note": "One characterisation per category. The formula parser is a parameter; Valid (what the constructor checks plus names identify species) is shown to hold for constructed reactions (valid_of_init)."
  },
  {
   "property": "C52",
   "status": "proved",
   "theorems": [
    "Verif.Plaschem.Classify.sorting_of_history",
    "Verif.Plaschem.Classify.key_order",
    "Verif.Plaschem.Classify.species_in_order",
    "Verif.Plaschem.DemoC.unsortable",
    "Verif.Plaschem.DemoC.count_overflow",
    "Verif.Plaschem.Classify.elementNumber_iff"
   ],
   "note": "Rationals in place of floats for 1/score (scores are integers below 2^53). Findings: scandium, thallium and four-element species raise; counts above 9 break the order."
  },
  {
   "property": "C53",
   "status": "proved",
   "theorems": [
    "Verif.Pygmol.lookup_any_name",
    "Verif.Pygmol.lookup_defined",
    "Verif.Pygmol.Demo.two_names_accepted"
   ],
   "note": "the last theorem is the finding; infinities and complex numbers are not modelled"
  },
  {
   "property": "C54",
   "status": "proved",
   "theorems": [
    "Verif.Pygmol.accepted_params",
    "Verif.Pygmol.accepted_iff",
    "Verif.Pygmol.order_of_params"
   ],
   "note": "accepted_iff is the exact condition for dictionaries that pass each parameter under one name."
  },
  {
   "property": "C55",
   "status": "proved",
   "theorems": [
    "Verif.Fwork.getters_never_stale",
    "Verif.Fwork.getters_before_run",
    "Verif.Fwork.getters_after_failure",
    "Verif.Fwork.reload_failure",
    "Verif.Fwork.backend_stale"
   ],
   "note": "Arbitrary outcomes of validation, solver and logging as inputs; solutions as opaque payloads. Findings: backend_stale, reload_failure."
  },
  {
   "property": "C56",
   "status": "proved",
   "theorems": [
    "Verif.Plaschem.hpem_backward",
    "Verif.Plaschem.hpem_defined_iff"
   ],
   "note": ""
  },
  {
   "property": "C57",
   "status": "proved",
   "theorems": [
    "Verif.Pygmol.Data.objective_history_independent"
   ],
   "note": ""
  },
  {
   "property": "C58",
   "status": "proved",
   "theorems": [
    "Verif.Pygmol.Data.diagnostics_consistent"
   ],
   "note": ""
  },
  {
   "property": "C59",
   "status": "proved",
   "theorems": [
    "Verif.Pygmol.Reads.element_balance",
    "Verif.Pygmol.Reads.electron_balance"
   ],
   "note": ""
  },
  {
   "property": "C60",
   "status": "proved",
   "theorems": [
    "Verif.Pygmol.Data.elastic_loss_nonneg"
   ],
   "note": ""
  },
  {
   "property": "C61",
   "status": "proved",
   "theorems": [
    "Verif.Pygmol.Data.regular_of_physical"
   ],
   "note": ""
  },
  {
   "property": "C62",
   "status": "proved",
   "theorems": [
    "Verif.Pygmol.Data.wall_energy_losses_nonneg",
    "Verif.Pygmol.Data.energy_budget",
    "Verif.Pygmol.Data.attachment_heats"
   ],
   "note": "attachment_heats is a finding"
  },
  {
   "property": "C63",
   "status": "proved",
   "theorems": [
    "Verif.Fwork.labels_after_success",
    "Verif.Fwork.fluxes_mislabelled",
    "Verif.Fwork.one_reaction_fails",
    "Verif.Fwork.rates_labelled_as_species"
   ],
   "note": "Findings: one_reaction_fails, rates_labelled_as_species, fluxes_mislabelled."
  },
  {
   "property": "C64",
   "status": "proved",
   "theorems": [
    "Verif.Fwork.graph_build",
    "Verif.Fwork.graph_refuses"
   ],
   "note": ""
  },
  {
   "property": "C65",
   "status": "proved",
   "theorems": [
    "Verif.Fwork.MorrisRuns.finished_complete",
    "Verif.Fwork.MorrisRuns.finished_stable",
    "Verif.Fwork.MorrisRuns.done_complete",
    "Verif.Fwork.MorrisRuns.done_distinct",
    "Verif.Fwork.MorrisRuns.Demo.concurrent_overwrite"
   ],
   "note": "Transition system over file-system operations, all interleavings and crash points. Hypothesis: all jobs have factor counts with the same number of digits; Demo.concurrent_overwrite shows it is needed."
  },
  {
   "property": "C66",
   "status": "proved",
   "theorems": [
    "Verif.Fwork.MorrisRuns.sequential_coherent",
    "Verif.Fwork.MorrisRuns.incoherent_never",
    "Verif.Fwork.MorrisRuns.alone_succeeds",
    "Verif.Fwork.MorrisRuns.torn_dump_blocks",
    "Verif.Fwork.MorrisRuns.Demo.concurrent_incoherent",
    "Verif.Fwork.MorrisRuns.Demo.crash_incoherent",
    "Verif.Fwork.MorrisRuns.abandoned_blocks",
    "Verif.Fwork.MorrisRuns.backend_case_blocks"
   ],
   "note": "The comparison of the meta data is read file by file. Findings: torn_dump_blocks, backend_case_blocks, abandoned_blocks, Demo.concurrent_incoherent, Demo.crash_incoherent."
  },
  {
   "property": "C67",
   "status": "proved",
   "theorems": [
    "Verif.Fwork.MorrisStats.effects_quotient",
    "Verif.Fwork.MorrisStats.effects_telescope"
   ],
   "note": "Exact real arithmetic; interpolation as in C41."
  },
  {
   "property": "C68",
   "status": "proved",
   "theorems": [
    "Verif.Fwork.MorrisStats.stats_spec",
    "Verif.Fwork.MorrisStats.stats_affine",
    "Verif.Fwork.MorrisStats.mu_bounded",
    "Verif.Fwork.MorrisStats.sigma_zero"
   ],
   "note": ""
  },
  {
   "property": "C69",
   "status": "proved",
   "theorems": [
    "Verif.Fwork.MorrisStats.ranking_complete",
    "Verif.Fwork.MorrisStats.inert_before_influential",
    "Verif.Fwork.MorrisStats.ranking_units",
    "Verif.Fwork.MorrisStats.single_trajectory_nan",
    "Verif.Fwork.MorrisStats.Demo.negative_output_inverts"
   ],
   "note": "The unstable sort is an oracle. Findings: single_trajectory_nan, Demo.negative_output_inverts."
  },
  {
   "property": "C70",
   "status": "proved",
   "theorems": [
    "Verif.Plaschem.Classify.strings_line_up",
    "Verif.Plaschem.Classify.string_available",
    "Verif.Plaschem.DemoC.stale_columns",
    "Verif.Plaschem.DemoC.stale_names"
   ],
   "note": "All histories with sorting before printing; stale_columns shows the restriction is needed."
  },
  {
   "property": "C71",
   "status": "proved",
   "theorems": [
    "Verif.Plaschem.Xml.sort_elements_order",
    "Verif.Plaschem.Xml.sort_elements_species",
    "Verif.Plaschem.Xml.sort_elements_reassigns",
    "Verif.Plaschem.DemoX.padded_id_breaks"
   ],
   "note": ""
  },
  {
   "property": "C72",
   "status": "proved",
   "theorems": [
    "Verif.Fwork.Rates.rates_add_up",
    "Verif.Fwork.Rates.electron_rates_add_up",
    "Verif.Fwork.Rates.printed_add_up"
   ],
   "note": "Exact real arithmetic. rates_add_up assumes a return dictionary without duplicate names, no species called \"t\" and that return coefficients name species of the network."
  },
  {
   "property": "C73",
   "status": "proved",
   "theorems": [
    "Verif.Fwork.Rates.volumetric_defined",
    "Verif.Fwork.Rates.volumetric_exact",
    "Verif.Fwork.Rates.surface_exact",
    "Verif.Fwork.Rates.arbitrary_rates_empty",
    "Verif.Fwork.Rates.production_exact",
    "Verif.Fwork.Rates.consumption_exact",
    "Verif.Fwork.Rates.surface_refused",
    "Verif.Fwork.Rates.surface_not_sorted"
   ],
   "note": "Sorting of pandas is a parameter: any permutation in the right order."
  },
  {
   "property": "C74",
   "status": "proved",
   "theorems": [
    "Verif.Fwork.Frames.frames_defined",
    "Verif.Fwork.Frames.frames_values",
    "Verif.Fwork.Frames.frames_own_times",
    "Verif.Fwork.Frames.frames_refine"
   ],
   "note": "np.interp over the reals."
  },
  {
   "property": "C75",
   "status": "proved",
   "theorems": [
    "Verif.Fwork.Frames.convergency_exact",
    "Verif.Fwork.Frames.converged_iff",
    "Verif.Fwork.Frames.converged_props",
    "Verif.Fwork.Frames.not_reached_iff",
    "Verif.Fwork.Frames.oscillation_converged",
    "Verif.Fwork.Frames.zero_not_converged"
   ],
   "note": "Exact real arithmetic; the text of the messages is not modelled."
  },
  {
   "property": "C76",
   "status": "proved",
   "theorems": [
    "Verif.Fwork.Log.log_refused_iff",
    "Verif.Fwork.Log.refused_no_effect",
    "Verif.Fwork.Log.log_exact",
    "Verif.Fwork.Log.log_can_finish"
   ],
   "note": "Symbolic links, permissions and concurrent processes are not modelled; file contents are opaque (formatting of numbers by pandas and yaml is not modelled)."
  },
  {
   "property": "C77",
   "status": "proved",
   "theorems": [
    "Verif.Fwork.Log.log_frame",
    "Verif.Fwork.Log.log_persists",
    "Verif.Fwork.Log.file_survives",
    "Verif.Fwork.Log.files_of_one_call"
   ],
   "note": "One process at a time; operations are atomic except writing, which has an incomplete state."
  },
  {
   "property": "C78",
   "status": "proved",
   "theorems": [
    "Verif.Fwork.Log.stopped_blocks",
    "Verif.Fwork.Log.empty_id_wipes",
    "Verif.Fwork.Log.overwrite_not_atomic",
    "Verif.Fwork.Log.incomplete_read",
    "Verif.Fwork.Log.dotdot_escapes"
   ],
   "note": ""
  },
  {
   "property": "C79",
   "status": "proved",
   "theorems": [
    "Verif.Fwork.Compare.parse_forms",
    "Verif.Fwork.Compare.compare_exact",
    "Verif.Fwork.Compare.relative_first",
    "Verif.Fwork.Compare.row_names_collide",
    "Verif.Fwork.Compare.backend_shadows",
    "Verif.Fwork.Compare.row_names"
   ],
   "note": "Reading of a solution is a parameter (C76); printing is not modelled."
  },
  {
   "property": "C80",
   "status": "proved",
   "theorems": [
    "Verif.Plaschem.Latex.texify_accepts",
    "Verif.Plaschem.Latex.texify_shows",
    "Verif.Plaschem.Latex.texify_injective",
    "Verif.Plaschem.Latex.texify_not_injective",
    "Verif.Plaschem.Latex.texify_large_number"
   ],
   "note": "Typesetting is a small interpreter of the part of TeX formulas that occurs (`render`); str.isalpha is a parameter that agrees with ASCII on ASCII characters."
  },
  {
   "property": "C81",
   "status": "proved",
   "theorems": [
    "Verif.Plaschem.Latex.reaction_terms",
    "Verif.Plaschem.Latex.same_latex_lost"
   ],
   "note": ""
  },
  {
   "property": "C82",
   "status": "proved",
   "theorems": [
    "Verif.Plaschem.LatexRate.strip_value",
    "Verif.Plaschem.LatexRate.tenFold_iff",
    "Verif.Plaschem.LatexRate.round2_shown",
    "Verif.Plaschem.LatexRate.factor_shown",
    "Verif.Plaschem.LatexRate.no_factor",
    "Verif.Plaschem.LatexRate.rate_shown",
    "Verif.Plaschem.LatexRate.multiple_of_ten_wrong",
    "Verif.Plaschem.LatexRate.loss_shown"
   ],
   "note": "Formatting of floating point numbers by Python (str, round, format) is a parameter with its documented properties (`NumFmt.Lawful`)."
  },
  {
   "property": "C83",
   "status": "proved",
   "theorems": [
    "Verif.Pygmol.neutral_accepted_iff",
    "Verif.Pygmol.NeutralReads.neutral",
    "Verif.Pygmol.Data.Neutral.objective",
    "Verif.Pygmol.Data.Neutral.rates",
    "Verif.Pygmol.Data.Neutral.wall_fluxes_fail",
    "Verif.Pygmol.electron_not_rejected"
   ],
   "note": "Real numbers instead of floating point; compared with the base model of C57."
  },
  {
   "property": "C84",
   "status": "proved",
   "theorems": [
    "Verif.Pygmol.Data.Neutral.stay_positive",
    "Verif.Pygmol.Data.single_species_undefined",
    "Verif.Pygmol.NeutralReads.element_balance",
    "Verif.Pygmol.Data.neutral_start",
    "Verif.Pygmol.Data.neutral_given_start"
   ],
   "note": "Exact solutions over the reals, not the steps of the solver."
  },
  {
   "property": "C85",
   "status": "proved",
   "theorems": [
    "Verif.Plaschem.Xml.hpem_import",
    "Verif.Plaschem.Xml.hpem_units",
    "Verif.Plaschem.Xml.hpem_species_read",
    "Verif.Plaschem.Xml.hpem_reaction_read",
    "Verif.Plaschem.Xml.hpem_refused",
    "Verif.Plaschem.DemoX.hpem_ids_not_distinct",
    "Verif.Plaschem.DemoX.hpem_twice",
    "Verif.Plaschem.DemoX.hpem_half_loaded",
    "Verif.Plaschem.DemoX.hpem_second_mark",
    "Verif.Plaschem.Xml.hpem_rename",
    "Verif.Plaschem.DemoX.hpem_names_collide"
   ],
   "note": "int and float conversions are parameters (Codec); white space of re is that of strip."
  },
  {
   "property": "C86",
   "status": "proved",
   "theorems": [
    "Verif.Plaschem.Xml.qdb_import",
    "Verif.Plaschem.Xml.qdb_name",
    "Verif.Plaschem.Xml.qdb_name_inj",
    "Verif.Plaschem.Xml.qdb_species_read",
    "Verif.Plaschem.Xml.qdb_file",
    "Verif.Plaschem.Xml.imports_history",
    "Verif.Plaschem.DemoX.qdb_four_charges",
    "Verif.Plaschem.DemoX.qdb_names_collide",
    "Verif.Plaschem.DemoX.qdb_two_states",
    "Verif.Plaschem.DemoX.qdb_heavy_xsec",
    "Verif.Plaschem.DemoX.qdb_half_loaded"
   ],
   "note": "The database is a parameter: any records that have the attributes the code reads. Number formatting is a parameter with a round-trip law."
  },
  {
   "property": "C87",
   "status": "proved",
   "theorems": [
    "Verif.Plaschem.Pretty.pretty_annotated",
    "Verif.Plaschem.Pretty.pretty_plain",
    "Verif.Plaschem.Pretty.pretty_refused",
    "Verif.Plaschem.DemoT.reactions_taken_for_species"
   ],
   "note": "Values are opaque. Column widths and the escape sequences of colorama are left to pandas and colorama; an axis with ids of reactions all of which are ids of species too is taken for species (witness)."
  },
  {
   "property": "C88",
   "status": "proved",
   "theorems": [
    "Verif.Plaschem.Table.species_table",
    "Verif.Plaschem.Table.species_table_total",
    "Verif.Plaschem.DemoT.has_table",
    "Verif.Plaschem.DemoT.state_of_electron"
   ],
   "note": "Conversions between texts and numbers are a parameter; integers of a column with missing values are shown as floats, as pandas does."
  },
  {
   "property": "C89",
   "status": "proved",
   "theorems": [
    "Verif.Plaschem.TableRx.rows_plain",
    "Verif.Plaschem.TableRx.rows_under_headings",
    "Verif.Plaschem.TableRx.strings_aligned",
    "Verif.Plaschem.TableRx.headings_wide",
    "Verif.Plaschem.TableRx.sheet_total",
    "Verif.Plaschem.TableRx.reaction_table",
    "Verif.Plaschem.TableRx.reaction_table_total",
    "Verif.Plaschem.DemoT.strings_of_different_length",
    "Verif.Plaschem.DemoT.has_reactions",
    "Verif.Plaschem.DemoT.text_for_flag",
    "Verif.Plaschem.TableRx.headings_tell"
   ],
   "note": "Conversions between texts and numbers are a parameter. A truth value passed as text counts as passed only in the table with headings (witness `text_for_flag`)."
  },
  {
   "property": "C90",
   "status": "proved",
   "theorems": [
    "Verif.Plaschem.Tex.history",
    "Verif.Plaschem.Tex.table_read",
    "Verif.Plaschem.Tex.note_spec",
    "Verif.Plaschem.Tex.table_balanced",
    "Verif.Plaschem.Tex.reactions_table",
    "Verif.Plaschem.Tex.reactions_table_read",
    "Verif.Plaschem.Tex.reactions_table_refused",
    "Verif.Plaschem.DemoTex.reads",
    "Verif.Plaschem.DemoTex.number_refused",
    "Verif.Plaschem.DemoTex.separator_splits",
    "Verif.Plaschem.DemoTex.source_none",
    "Verif.Plaschem.DemoTex.loss_of_ten"
   ],
   "note": "Frames with distinct row and column labels, taken by value. Number formatting is a parameter."
  },
  {
   "property": "C91",
   "status": "proved",
   "theorems": [
    "Verif.Fwork.MorrisBatch.call_result",
    "Verif.Fwork.MorrisBatch.call_ids",
    "Verif.Fwork.MorrisBatch.pool_ends",
    "Verif.Fwork.MorrisBatch.batch_result",
    "Verif.Fwork.MorrisBatch.batch_silent",
    "Verif.Fwork.MorrisBatch.batch_loss",
    "Verif.Fwork.MorrisBatch.one_worker",
    "Verif.Fwork.MorrisBatch.batches",
    "Verif.Fwork.MorrisBatch.Demo.trajectory_lost",
    "Verif.Fwork.MorrisBatch.accepted_iff"
   ],
   "note": "Transition system of C65 with a pool of workers; worker processes raise but are not killed. Findings: trajectory_lost (race), batch_silent (unsupported arguments: the batch returns normally without any trajectory)."
  },
  {
   "property": "C92",
   "status": "proved",
   "theorems": [
    "Verif.Fwork.CoupleInit.accepted_iff",
    "Verif.Fwork.CoupleInit.refusals",
    "Verif.Fwork.CoupleInit.arrays",
    "Verif.Fwork.CoupleInit.chemistry_weights",
    "Verif.Fwork.CoupleInit.chemistry_ranking",
    "Verif.Fwork.CoupleInit.disabled_adhoc_refused"
   ],
   "note": "On the chemistry model of C01-C22; return coefficients are dictionaries with distinct keys naming species of the chemistry (PyDicts, RetClosed). Finding: disabled_adhoc_refused."
  },
  {
   "property": "C93",
   "status": "proved",
   "theorems": [
    "Verif.Fwork.ReduceDisk.init_spec",
    "Verif.Fwork.ReduceDisk.runBase_refines",
    "Verif.Fwork.ReduceDisk.removeOne_refines",
    "Verif.Fwork.ReduceDisk.reduction_on_disk",
    "Verif.Fwork.ReduceDisk.reduction_on_disk_ends",
    "Verif.Fwork.ReduceDisk.refused_iff",
    "Verif.Fwork.ReduceDisk.in_use",
    "Verif.Fwork.ReduceDisk.empty_dir_never_reduces",
    "Verif.Fwork.ReduceDisk.no_eligible_blocks_id",
    "Verif.Fwork.ReduceDisk.table_lost",
    "Verif.Fwork.ReduceDisk.unlogged_run",
    "Verif.Fwork.ReduceDisk.run_at_any_moment"
   ],
   "note": "Hypotheses: a well-formed file system, species names without slashes, and meta data that compare equal to themselves after a YAML round trip. Findings: empty_dir_never_reduces, no_eligible_blocks_id, table_lost, unlogged_run."
  },
  {
   "property": "C94",
   "status": "proved",
   "theorems": [
    "Verif.Pygmol.Data.arrhenius",
    "Verif.Pygmol.Data.rate_electron_mono",
    "Verif.Pygmol.Data.rate_heavy_mono",
    "Verif.Pygmol.Data.mass_action",
    "Verif.Pygmol.Data.debye_sq",
    "Verif.Pygmol.Data.sigma_laws",
    "Verif.Pygmol.Data.sigma_ions",
    "Verif.Pygmol.Data.closest_approach_ratio",
    "Verif.Pygmol.Data.mean_speed_sq",
    "Verif.Pygmol.Data.ambipolar_bounds",
    "Verif.Pygmol.Data.wall_flux_bounds",
    "Verif.Pygmol.Data.wall_flux_mono",
    "Verif.Pygmol.Data.free_einstein"
   ],
   "note": "Laws of the pure quantities of EqnsPure, to which the methods of Equations are reduced in C57. Finding: closest_approach_ratio."
  },
  {
   "property": "C95",
   "status": "proved",
   "theorems": [
    "Verif.Plaschem.Net.getRp_iff",
    "Verif.Plaschem.Net.getRp_error_iff",
    "Verif.Plaschem.Net.getReaction_iff",
    "Verif.Plaschem.Net.getReaction_error_iff",
    "Verif.Plaschem.Reaction.getRp_iff",
    "Verif.Plaschem.Reaction.getRp_error_iff"
   ],
   "note": "Identifiers are ints, strings or species objects."
  },
  {
   "property": "C96",
   "status": "proved",
   "theorems": [
    "Verif.Fwork.ReducePlot.compare_succeeds_iff",
    "Verif.Fwork.ReducePlot.curves",
    "Verif.Fwork.ReducePlot.dead_ends",
    "Verif.Fwork.ReducePlot.endpoints",
    "Verif.Fwork.ReducePlot.annotations",
    "Verif.Fwork.ReducePlot.axis_limits",
    "Verif.Fwork.ReducePlot.Descends.curve",
    "Verif.Fwork.ReducePlot.OfReduction.descends",
    "Verif.Fwork.ReducePlot.reductions_compared",
    "Verif.Fwork.ReducePlot.read_reduction",
    "Verif.Fwork.ReducePlot.pretty_names",
    "Verif.Fwork.ReducePlot.Demo.nan_species",
    "Verif.Fwork.ReducePlot.Demo.zero_not_lowered",
    "Verif.Fwork.ReducePlot.default_figure",
    "Verif.Fwork.ReducePlot.default_styles"
   ],
   "note": "Tables of finished and unfinished reductions; the error measure is a number and not negative."
  },
  {
   "property": "C97",
   "status": "proved",
   "theorems": [
    "Verif.Pygmol.Data.total_density_bounded",
    "Verif.Pygmol.Data.washed_out",
    "Verif.Pygmol.Data.energy_bounded",
    "Verif.Pygmol.Reads.no_blow_up",
    "Verif.Pygmol.TimeDemo.energy_below_zero"
   ],
   "note": "Exact real solutions; that the solution stays where the equations are defined is a hypothesis, as the numeric solver is not modelled."
  },
  {
   "property": "C98",
   "status": "proved",
   "theorems": [
    "Verif.Fwork.Reduce.calls_in_order",
    "Verif.Fwork.Reduce.protocol",
    "Verif.Fwork.Reduce.chemistry_of_a_row",
    "Verif.Fwork.Reduce.chemistry_by_hand",
    "Verif.Fwork.Reduce.species_only_go",
    "Verif.Fwork.Reduce.second_run",
    "Verif.Fwork.Reduce.Demo.mixed_flags"
   ],
   "note": "Histories end at exceptions other than ReductionRunError (the state they leave is not modelled)."
  },
  {
   "property": "C99",
   "status": "proved",
   "theorems": [
    "Verif.Pygmol.stored_params",
    "Verif.Pygmol.coherent_iff",
    "Verif.Pygmol.further_trajectory"
   ],
   "note": "Writing and loading yaml is modelled as returning the same numbers and strings with entries of dictionaries in any order. Numpy scalars, which yaml writes as python objects, are not modelled."
  }
 ]
}