# Design

The code under study is `/repo` (plaschem and pygmo_fwork, Python). It is read as text; nothing is executed. The
model is a shallow functional one in Lean 4 under `lean/Verif`; each definition cites the file and the lines it
models. Property theorems carry their number (`**C07.**`) in the comment; beside them stand `example`s or `Demo`
theorems that meet the hypotheses.

## Layout

| area | model | specification, lemmas, theorems |
|---|---|---|
| species, reactions (`plaschem/species.py`, `reactions.py`) | `Plaschem/Base`, `Species`, `Reaction`, `ReactStr` | `ReactProps`, `ReactProps2`, `ReactRate`, `KeyProps`, `ReactInit`, `DictLemmas` |
| chemistry (`plaschem/chemistry.py`) | `Plaschem/Chemistry`, `Adhoc`, `Stoich`, `DumpLoad`, `Copy` | `ChemSpec`, `ChemLemmas`, `ChemDisable`, `ChemInv`, `ChemChar`, `ChemProps`, `ChemProps2`, `AdhocRet`, `Getters`, `Lookup`, `DumpProps`, `DumpFile`, `Restore`, `LoadHist`, `CopyProps` |
| classification (`plaschem/classification.py`) | `Plaschem/Classify`, `Classifier` | `ClassifyLemmas`, `ClassifyProps`, `ClassifyHeavy`, `ClassifyPerm`, `ClassifierProps`, `ClassifierHist`, `SpeciesOrder` |
| neutral model (`pygmol/neutral_model.py`) | `Pygmol/Neutral` | `Pygmol/Neutral` |
| import of HPEM files (`plaschem/xml_inputs.py`) | `Plaschem/XmlHpem` | `Plaschem/XmlHpem` |
| import from QDB, histories with imports (`plaschem/xml_inputs.py`) | `Plaschem/XmlQdb`, `XmlImports` | `Plaschem/XmlQdbRx`, `XmlQdbFile`, `XmlQdbDemo`, `XmlImports` |
| printed tables (`plaschem/pretty_print.py`, `plaschem/chemistry.py` 969-1224) | `Plaschem/Pretty`, `Table`, `TableRx` | `Plaschem/Pretty`, `TableProps`, `TableDemo`, `TableRxRows`, `TableRxProps`, `TableRxDemo` |
| LaTeX tables (`plaschem/latex.py` 148-370) | `Plaschem/TexTable`, `TexReactions` | `Plaschem/TexTableProps`, `TexTableNest`, `TexTableHist`, `TexReactions`, `TexDemo` |
| LaTeX (`plaschem/latex.py`) | `Plaschem/Latex`, `LatexRate` | `LatexInj`, `LatexFormula`, `LatexProps`, `LatexReaction`, `LatexRate` |
| XML files (`plaschem/xml_inputs.py`) | `Plaschem/Xml` | `XmlSpec`, `XmlLemmas`, `XmlRp`, `XmlInit`, `RxInit`, `ChemInit`, `Partner`, `XmlRx`, `XmlSame`, `XmlTrip`, `XmlBuild`, `XmlDemo`, `XmlSort`, `XmlAgree` |
| equations, parameters, initial state (`pygmol/`) | `Pygmol/Eqns`, `Power`, `Params`, `ParamsLog`, `InitN` | `EqnsPure`, `EqnsProps`, `EqnsReg`, `EqnsChem`, `EqnsEnergy`, `Time`, `NeutralTime`, `Transport` |
| global model and results (`global_model.py`, `results.py`) | `Fwork/Global`, `Compress`, `Rates`, `Frames`, `Log`, `Compare`, `Config`, `ConfigProps`, `RunLog` | in the same files, `RatesProps`, `RatesDemo`, `LogProps`, `LogDemo` |
| graphs and ranking (`optichem/graph.py`) | `Fwork/Graph`, `Flow`, `Coupling`, `CoupleInit`, `Ranking` | `GraphLemmas`, `GraphProps`, `GraphHist`, `FlowLemmas`, `FlowLemmas2`, `FlowProps`, `CoupleInitProps`, `CoupleChem`, `CoupleDemo` |
| reduction (`optichem/reduction.py`, `errors.py`) | `Fwork/Reduce`, `ReduceDisk`, `Errors` | `ReduceProps`, `ReduceExc`, `ReduceRows`, `ReduceWhole`, `ReduceWholeDemo`, `ReduceOrder`, `ReduceGraph`, `ReduceGraphDemo`, `GraphRun`, `GraphRunProps`, `GraphRunDemo`, `ReduceMorris`, `ReduceMorrisDemo`, `Pygmol/Restrict`, `Fwork/ReducedEqns`, `ReducedEqnsProps`, `ReducedEqnsDemo`, `Plaschem/Shuffle`, `Fwork/OrderEqns`, `AdhocEqns`, `AdhocEqnsDemo`, `UniqueEqns`, `PhysEqns`, `PhysEqnsDemo`, `MorrisEqns`, `MorrisEqnsDemo`, `MorrisRetEqns`, `MorrisRetEqnsDemo`, `MaximalEqns`, `DependEqns`, `RemoveEqns`, `DependRetEqns`, `SupplyEqns`, `TrueError`, `RmsError`, `FinalRow`, `Secondary`, `Pygmol/Lip`, `Unique`, `Maximal`, `Edge`, `Depend`, `Removed`, `Supply`, `Losses`, `ReduceManual`, `ReducePlot`, `ReducePlotProps`, `ReducePlotRed`, `ReducePlotDemo`, `ReduceDiskProps`, `ReduceDiskLoop`, `ReduceDiskMoment`, `ReduceDiskDemo` |
| Morris method (`optichem/morris.py`) | `Fwork/Morris`, `MorrisMap`, `MorrisRet`, `MorrisRuns`, `MorrisStats`, `MorrisBatch` | `MorrisSeq`, `MorrisRank`, `MorrisBatchProps`, `MorrisBatchLoss`, `MorrisBatchHist`, `MorrisEval`, `MorrisEvalDemo`, `MorrisWhole`, `MorrisWholeDemo`, `MorrisWholeRet`, `MorrisWholeRetDemo`, `MorrisBatchDemo` |

## General modelling decisions

* Python exceptions are values (`Except`, or a result next to the state that is left behind); error branches are
  explicit, and so is what a method has already changed when it raises.
* Floating point numbers are exact: ℚ, any ordered field, or ℝ where exp/log/sqrt occur. Rounding and overflow are
  outside the model. `nan`/`inf` are modelled (as `none` or `⊤`) where the code produces and tests them; in the
  equations, where numpy divides by zero, C61 gives the states in which this does not happen.
* pandas series and Python dictionaries are association lists; matrices are functions of two labels.
* Identity of objects is a field of the record (`oid`); where sharing matters (C23) there is a heap.
* Iteration over sets, random choices, unstable sorts, solver and backend outcomes, process scheduling and crashes are
  oracles or nondeterministic transitions; theorems hold for all of them.
* External libraries are parameters with explicit hypotheses: the chemical formula parser (`F : Str → Option (Dict ..)`),
  number formatting (`Codec` with `Codec.Lawful`), file hashes, YAML (values are stored and read back unchanged).



## Properties: how each is modelled and proved

* **C01** disable keeps exactly the largest surviving sub-network (proved). `Net.disable`/`disableRec` branch by branch with masks `id → Bool`. Specification: the sub-networks that avoid the request and contain for every reaction all its species and for every species a reaction; the result is the greatest one (`disable_greatest`), and equals an inductively defined set (`disable_exact`). Induction on the rounds of the cascade.
  Theorems: `Plaschem.disable_greatest`, `Plaschem.disable_exact`.
  Greatest consistent sub-network avoiding the request, and the explicit inductive description.
* **C02** protected species are never disabled (proved). State machine over all calls (`disable`, `reset`, `protect`, ad-hoc setters); invariant by induction over histories.
  Theorems: `Plaschem.protected_survives_disable`, `Plaschem.protected_survives_history`, `Plaschem.electron_always_enabled`.
  For every history of API calls.
* **C03** a failing disable changes nothing (proved). The state returned on the error branch is the state before; cases of `disable_cases`.
  Theorems: `Plaschem.disable_error_atomic`.
  Any exception except the internal consistency check leaves the state untouched; the check itself cannot fail under RetClosed (C07).
* **C04** a positive ion always survives and the last one becomes protected (proved). Invariant `Inv` of reachable states (a positive ion is enabled; the last one carries a protection).
  Theorems: `Plaschem.positive_ion_survives`, `Plaschem.last_ion_protected`.
  In every reachable state of a charged chemistry.
* **C05** exactly when disable succeeds (proved). Both directions between the outcome and the inductive set of forced removals. The corner case in which a joint request is refused although it could be satisfied is a witness theorem.
  Theorems: `Plaschem.disable_refused_iff`, `Plaschem.disable_succeeds_iff`, `Plaschem.disable_request_as_set`, `Plaschem.disable_joint_refused`.
  Exact condition for refusal and for success; corner case with witness.
* **C06** disable is idempotent and order-independent (proved). Consequence of the greatest-sub-network characterisation.
  Theorems: `Plaschem.disable_idempotent`, `Plaschem.disable_sequential_eq_joint`, `Plaschem.disable_order_independent`, `Plaschem.disable_subrequest`.
* **C07** disable preserves the consistency of the chemistry (proved). `assertConsistency` check by check; preserved by every call.
  Theorems: `Plaschem.reachable_consistent`, `Plaschem.consistency_check_passes`, `Plaschem.consistency_check_can_fail`.
  Second theorem needs that nominal return species exist; third theorem is the witness that the hypothesis is needed.
* **C08** reset undoes every disable (proved). Over histories: masks after `reset` equal those after construction.
  Theorems: `Plaschem.reset_enables_all`, `Plaschem.reset_undoes_disables`.
* **C09** the disable cascade terminates (proved). The recursion runs on fuel; the theorem gives a bound from the number of enabled species and reactions under which the fuel is never used up.
  Theorems: `Plaschem.disable_terminates`.
* **C10** an accepted reaction conserves charge and atoms (proved). `Reaction.assertConsistency` against sums of charges and counts of atoms over both sides.
  Theorems: `Plaschem.reaction_check_iff`, `Plaschem.reaction_init_balanced`, `Plaschem.reaction_init_never_rejects_balanced`, `Plaschem.reaction_init_iff`, `Plaschem.reaction_init_keeps`.
  The external formula parser is a parameter assumed to list each element once with a positive count.
* **C11** stoichiometric coefficients count occurrences (proved). Coefficients against `List.count`.
  Theorems: `Plaschem.stoich_lhs`, `Plaschem.stoich_rhs`, `Plaschem.stoich_net`, `Plaschem.stoich_other`, `Plaschem.rp_sets`.
* **C12** net stoichiometry conserves charge and elements (proved). Weighted sums of net coefficients for any conserved quantity.
  Theorems: `Plaschem.net_conserves`, `Plaschem.net_weighted_sum`.
* **C13** rate coefficients are non-negative and unit-consistent (proved). Real numbers with `Real.exp`/`rpow`; units as strings.
  Theorems: `Plaschem.rate_coefficient_sound`, `Plaschem.rate_coefficient_formula`, `Plaschem.accepted_rate_unit`, `Plaschem.rate_coefficient_monotone`.
  Real arithmetic instead of floats.
* **C14** the reaction key identifies reactions up to reordering (proved). Strings as lists of characters; injectivity up to permutation of each side; the witness shows the remaining collisions.
  Theorems: `Plaschem.uniqueKey_of_sides`, `Plaschem.uniqueKey_eq_iff`, `Plaschem.accepted_name_no_gt`, `Plaschem.uniqueKey_collision`, `Plaschem.uniqueKey_toStr`, `Plaschem.uniqueKey_toStr_iff`, `Plaschem.toStr_read`.
* **C15** default elastic flag (proved). Set of names against multiset of names; witness for the difference.
  Theorems: `Plaschem.elastic_of_same_sides`, `Plaschem.elastic_iff_same_sides`, `Plaschem.elastic_ignores_multiplicity`.
* **C16** charge suffix stripping (proved). Scanner for the suffix; cases and a witness that stripping is not idempotent.
  Theorems: `Plaschem.stripCharge_cases`, `Plaschem.stripCharge_prefix`, `Plaschem.stripCharge_sign_digits`, `Plaschem.stripCharge_signs`, `Plaschem.stripCharge_neutral`, `Plaschem.stripCharge_not_idempotent`.
* **C17** surface defaults of species (proved). Decision table and conservation of atoms by the default return coefficients.
  Theorems: `Plaschem.surface_defaults`, `Plaschem.default_return_conserves_atoms`, `Plaschem.Xml.core_agrees`, `Plaschem.Xml.given_surface`.
  core_agrees: for the stored form with strings and units as well.
* **C18** species filters select exactly the requested species (proved). Membership and order of the filtered list.
  Theorems: `Plaschem.getSpecies_exact`, `Plaschem.species_getters_aligned`, `Plaschem.species_masses`, `Plaschem.species_getters_share_index`.
  Exception for the getter of return coefficients, see C21. None may be shown as NaN by pandas.
* **C19** ad-hoc attributes override and can be reset (proved). Value in force after any history of setters and resets.
  Theorems: `Plaschem.stick_coef_history`, `Plaschem.arrh_a_history`, `Plaschem.adhoc_arrh_breaks_si_getter`.
  value in force = last ad-hoc value set since the last relevant reset, over any history; negative witness: an ad-hoc arrh_a on a reaction without si units makes the SI getter raise
* **C20** shape of the stoichiometric matrix (proved). Matrix entries against multiplicities; columns conserve charge and elements together with the electron and M rows.
  Theorems: `Plaschem.stoichiomatrix_entries`, `Plaschem.stoichiomatrix_net_eq_diff`, `Plaschem.stoichiomatrix_conserves`.
  entries are multiplicities; columns conserve charge and elements together with the electron and M rows
* **C21** return coefficients stay inside the enabled network (proved). `get_species_ret_coefs` with its growing index, entry by entry; witness for the entries outside the requested index.
  Theorems: `Plaschem.ret_coefs_value`, `Plaschem.ret_coefs_index`, `Plaschem.return_matrix_entries`, `Plaschem.ret_coefs_spurious`.
  negative witness ret_coefs_spurious: with protected=False the getter adds entries for species outside the requested index
* **C22** dump and load restore the chemistry state (proved). Dump to a record of attributes, load as replay of the setters; equality of states up to what is observable (`SameState`); `Restore.lean` shows invariants survive loads.
  Theorems: `Plaschem.load_dump`, `Plaschem.load_dump_fails`, `Plaschem.check_coherence_iff`.
  round trip under the hypothesis that no stored ad-hoc return coefficient names a disabled species; without it load_dump_fails shows the load raises after overwriting the masks; check_coherence decides agreement of states
* **C23** a copied chemistry is equal and independent (proved). Heap of mutable cells; simulation between programs over references and programs over values.
  Theorems: `Plaschem.copies_independent`, `Plaschem.copy_ok`, `Plaschem.copy_neutral_fails`.
  references and mutable cells are explicit in the model; programs with any number of copies refine programs over independent values; negative part: a neutral chemistry can never be copied
* **C24** setting ad-hoc return coefficients is rejected or consistent (proved). Setter accepted or rejected, and what holds afterwards.
  Theorems: `Plaschem.adhoc_ret_accepted`, `Plaschem.adhoc_ret_rejected`.
* **C25** volumetric chemistry conserves elements (proved). Sum over species of atom counts times volumetric source rates, on the data that `Equations.__init__` reads from any reachable chemistry.
  Theorems: `Pygmol.Reads.volumetric_conserves_elements`.
  networks: every state reachable from construction by disable/reset; ℝ arithmetic
* **C26** volumetric chemistry conserves charge (proved). As C25 with charges and the electron.
  Theorems: `Pygmol.Reads.volumetric_conserves_charge`.
* **C27** flow terms (proved). Closed form and sign of flow terms.
  Theorems: `Pygmol.Data.flow_total`, `Pygmol.Data.flow_sign`, `Pygmol.Data.flow_unfed`.
* **C28** wall diffusion conserves particles that return (proved). Sinks non-positive; return of particles; witness for the undefined wall flux of a negative ion.
  Theorems: `Pygmol.Data.diffusion_sinks_nonpos`, `Pygmol.Data.wall_conserves`, `Pygmol.Data.wall_balance`, `Pygmol.Data.negative_ion_wall_undefined`.
  the last theorem is the 0/0 finding
* **C29** densities are not driven negative (proved). Right-hand side at density zero; positivity along exact solutions by the first-exit argument.
  Theorems: `Pygmol.Data.absent_species_grows`, `Pygmol.Data.densities_stay_positive`.
  positivity along exact (not numerical) solutions
* **C30** minimum-density correction (proved). Values of the two floor corrections.
  Theorems: `Pygmol.Data.min_n_correction`, `Pygmol.Data.min_rho_correction`.
* **C31** electron density and temperatures (proved). Quasi-neutrality, temperature of electrons and ions in closed form with bounds.
  Theorems: `Pygmol.Data.quasi_neutral`, `Pygmol.Data.electron_temperature`, `Pygmol.Data.ion_temperature`.
* **C32** power profile (proved). `dedupe` and linear interpolation over any ordered field.
  Theorems: `Pygmol.interp_bounds`, `Pygmol.interp_hits`, `Pygmol.interp_linear`, `Pygmol.interp_outside`, `Pygmol.interp_continuous`, `Pygmol.dedupe_close`, `Pygmol.dedupe_of_strict`, `Pygmol.dedupe_strict`, `Pygmol.triple_rejected`, `Pygmol.power_accepted`, `Pygmol.dedupe_int`.
  dedupe_int is the integer-array finding
* **C33** initial densities respect pressure and ionisation degree (proved). Shared formula of `generate_initial_n` and `_build_y0`.
  Theorems: `Pygmol.Data.init_pressure`, `Pygmol.Data.init_electrons`, `Pygmol.Data.init_nonneg`, `Pygmol.Data.init_roundtrip`, `Pygmol.Data.validate_iff_starts`, `Pygmol.Demo.ion_feed_pressure`.
  Real numbers; generate_initial_n and _build_y0 share the formula. Finding: a fed ion breaks the pressure (Verif.Pygmol.Demo.ion_feed_pressure).
* **C34** widest paths (proved). The search loop with an arbitrary oracle for the iteration order of sets; value is the maximum over all paths of the minimum weight; termination included.
  Theorems: `Fwork.widest_paths`, `Fwork.widest_values_deterministic`, `Fwork.widest_unreachable`.
  Any ordered group of weights, any weighting function; iteration order of sets is an arbitrary oracle; termination of both loops is part of the theorem.
* **C35** shortest paths (proved). As C34 with sums of `-log`/lengths.
  Theorems: `Fwork.shortest_paths`, `Fwork.shortest_values_deterministic`.
  As C34; a path of length zero gets nan, as in the code.
* **C36** maximum flow (proved). Edmonds-Karp: breadth first search finds shortest residual paths, number of augmentations bounded, maximum by the cut on exit.
  Theorems: `Fwork.max_flow`, `Fwork.max_flow_deterministic`, `Fwork.max_flow_isolated`.
  Termination by the Edmonds-Karp argument, so no integrality is needed; exact arithmetic. Finding: max_flow_isolated.
* **C37** coupling coefficients are normalised (proved). Bounds of the three families of coupling coefficients.
  Theorems: `Fwork.drg_weights`, `Fwork.drgep_weights`, `Fwork.net_weights`, `Fwork.balanced_loses_edges`, `Fwork.drg_negative`, `Fwork.drg1_above_one`.
  Exact arithmetic over any ordered field. Findings: drg1_above_one, balanced_loses_edges, drg_negative.
* **C38** species ranking (proved). Ranking is a sorted permutation of the scored species; each entry belongs to one species.
  Theorems: `Fwork.ranking_spec`, `Fwork.distributed_searchable`, `Fwork.entry_unique`, `Fwork.maxScore_unique`, `Fwork.max_product_refuses`, `Fwork.max_flow_isolated`, `Fwork.decoupled_ranked_last`, `Fwork.label_clash`.
  The order of species with equal scores is left open, as in the unstable sort used. Findings: decoupled_ranked_last, label_clash, max_product_refuses, max_flow_isolated.
* **C39** compression keeps the ends and a subsequence (proved). Loop model over any ordered field; subsequence, first and last row, idempotence.
  Theorems: `Fwork.compress_keeps`, `Fwork.compress_idempotent`, `Fwork.label_missing`.
  Frames with the default index; findings: label_missing.
* **C40** compression drops only redundant rows (proved). The set of kept rows is characterised uniquely (`selection_unique`).
  Theorems: `Fwork.compress_keeps`, `Fwork.selection_unique`, `Fwork.compress_length`, `Fwork.negative_column_ignored`, `Fwork.zero_column_blocks`, `Fwork.label_missing`.
  Findings: zero_column_blocks, negative_column_ignored, label_missing.
* **C41** reduction error measures (proved). Bounds, zero iff equal, scaling.
  Theorems: `Fwork.error_max_bounds`, `Fwork.error_max_zero_iff`, `Fwork.error_rms_le_max`, `Fwork.errors_scale`, `Fwork.resultInTime_ok`, `Fwork.error_max_le_rms`.
  Real arithmetic; division by zero (all full values zero) stops the model, the code goes on with nan.
* **C42** the reduction loop terminates and tries each species once (proved). Loop with an arbitrary backend oracle; measure is the number of candidates left.
  Theorems: `Fwork.Reduce.loop_terminates`, `Fwork.Reduce.reduction_terminates`, `Fwork.Reduce.each_species_once`, `Fwork.Reduce.loop_stops`, `Fwork.Reduce.loop_raises_only`, `Fwork.Reduce.Demo.important_cascade_raises`, `Fwork.Reduce.Demo.negative_threshold_raises`.
  Findings: Demo.important_cascade_raises, Demo.negative_threshold_raises. The sortedness assertion on the ranking is an oracle.
* **C43** the current chemistry is the last accepted one (proved). Invariant: current chemistry is the dump of the last accepted iteration.
  Theorems: `Fwork.Reduce.chemistry_is_last_accepted`, `Fwork.Reduce.only_eligible_removed`, `Fwork.Reduce.reduction_restores_chemistry`, `Fwork.Reduce.rows_truthful`, `Fwork.Reduce.Demo.nan_error_accepted`.
  The backend and the error measure are oracles; chemistry, dump and load are the models of C01-C22. Finding: Demo.nan_error_accepted.
* **C44** Morris trajectories (proved). Random choices as oracles; the specification of a trajectory is stated on the matrix alone.
  Theorems: `Fwork.Morris.trajectory_ok`, `Fwork.Morris.trajectory_code`, `Fwork.Morris.seed_nearest`, `Fwork.Morris.rounding_leaves_grid`.
  Random choices are oracles (any permutation, any sign order); exact arithmetic with np.round modelled. Finding: rounding_leaves_grid.
* **C45** Morris perturbations are neutral at the centre (proved). Mapping of factors to pre-exponential factors on the chemistry model.
  Theorems: `Fwork.Morris.perturbed_values`, `Fwork.Morris.speciesFactor_centre`, `Fwork.Morris.speciesFactor_local`, `Fwork.Morris.speciesFactor_bounds`.
  On the chemistry model of C01-C22.
* **C46** perturbed return coefficients conserve particles (proved). Mapping of factors to return coefficients with the reset between runs; totals preserved.
  Theorems: `Fwork.Morris.ret_factor_effect`, `Fwork.Morris.ret_factor_range`, `Fwork.Morris.ret_history`, `Fwork.Morris.ret_no_drift`, `Fwork.Morris.every_factor_high`, `Fwork.Morris.ret_zero_self_fails`.
  The power is an oracle; what is needed of it is a hypothesis. Finding: ret_zero_self_fails (with every_factor_high).
* **C47** trajectory identifiers never collide (proved). Ids from the directory listing; injectivity of the file names.
  Theorems: `Fwork.MorrisRuns.next_id`, `Fwork.MorrisRuns.queue_ok`, `Fwork.MorrisRuns.trajName_injective`.
* **C48** ids assigned by the XML builder (proved). Ids after `assign_ids` over all histories of the builder.
  Theorems: `Plaschem.Xml.ids_assigned`, `Plaschem.Xml.ids_distinct`, `Plaschem.DemoX.ids_collide`.
  All histories; Python int-str conversion is a parameter with a round-trip law.
* **C49** one species of each name in the XML builder (proved). Invariant `Tidy` of the builder over all histories.
  Theorems: `Plaschem.Xml.one_of_each_name`, `Plaschem.Xml.add_refused_iff`, `Plaschem.Xml.known_names_not_added`, `Plaschem.Xml.participants_present`, `Plaschem.DemoX.number_names`, `Plaschem.DemoX.merge_silent`.
  Names passed are non-empty strings (number_names: 5 and "5" are two species with one name in the file). merge_silent: a species of the same name with other attributes is dropped silently when a file is added.
* **C50** XML round trip (proved). Elements as records, conversion of numbers to text as a lawful codec; every getter of every species and reaction answers the same after writing and reading.
  Theorems: `Plaschem.Xml.xml_round_trip`, `Plaschem.Xml.chemistry_round_trip`, `Plaschem.DemoX.comma_breaks`, `Plaschem.DemoX.space_breaks`, `Plaschem.DemoX.empty_lost`, `Plaschem.DemoX.no_mass_breaks`, `Plaschem.DemoX.no_stateless_breaks`, `Plaschem.DemoX.bool_breaks`, `Plaschem.DemoX.unit_lost`, `Plaschem.DemoX.no_rate_breaks`, `Plaschem.DemoX.chemistry_after_other`.
  Escaping and encoding of the XML library are not modelled. Number formatting is a parameter with a round-trip law (a lawful instance is given).
* **C51** classification and the listing by class (proved). The decision tree branch by branch; one theorem per category stating its meaning in terms of charges, electrons, states and names; listing as a partition over all histories.
  Theorems: `Plaschem.Classify.classify_in_scheme`, `Plaschem.Classify.classify_fails_iff`, `Plaschem.Classify.classify_similar`, `Plaschem.Classify.listing_of_history`, `Plaschem.Classify.ionization_iff`, `Plaschem.Classify.detachment_iff`, `Plaschem.Classify.dissociative_ionization_iff`, `Plaschem.Classify.attachment_iff`, `Plaschem.Classify.recombination_iff`, `Plaschem.Classify.dissociative_attachment_iff`, `Plaschem.Classify.dissociative_recombination_iff`, `Plaschem.Classify.elastic_iff` and 36 more (MANIFEST.json).
  One characterisation per category. The formula parser is a parameter; Valid (what the constructor checks plus names identify species) is shown to hold for constructed reactions (valid_of_init).
* **C52** sorting species and reactions (proved). Sorting as a stable permutation by keys; the order of the keys is lexicographic in an explicit rank.
  Theorems: `Plaschem.Classify.sorting_of_history`, `Plaschem.Classify.key_order`, `Plaschem.Classify.species_in_order`, `Plaschem.DemoC.unsortable`, `Plaschem.DemoC.count_overflow`, `Plaschem.Classify.elementNumber_iff`.
  Rationals in place of floats for 1/score (scores are integers below 2^53). Findings: scandium, thallium and four-element species raise; counts above 9 break the order.
* **C53** parameter lookup by alternative names (proved). Association lists with alternative names.
  Theorems: `Pygmol.lookup_any_name`, `Pygmol.lookup_defined`, `Pygmol.Demo.two_names_accepted`.
  the last theorem is the finding; infinities and complex numbers are not modelled
* **C54** accepted model parameters are usable (proved). What validated parameters satisfy.
  Theorems: `Pygmol.accepted_params`, `Pygmol.accepted_iff`, `Pygmol.order_of_params`.
  accepted_iff is the exact condition for dictionaries that pass each parameter under one name.
* **C55** results never come from a stale run (proved). State machine of `GlobalModel` and backend with arbitrary outcomes.
  Theorems: `Fwork.getters_never_stale`, `Fwork.getters_before_run`, `Fwork.getters_after_failure`, `Fwork.reload_failure`, `Fwork.backend_stale`.
  Arbitrary outcomes of validation, solver and logging as inputs; solutions as opaque payloads. Findings: backend_stale, reload_failure.
* **C56** HPEM reaction strings (proved). HPEM strings parsed back; defined exactly for the supported number of participants.
  Theorems: `Plaschem.hpem_backward`, `Plaschem.hpem_defined_iff`.
* **C57** the right-hand side is a function of time and state (proved). Equations with their cache of intermediate values as a state monad; the result equals a pure function of time and state.
  Theorems: `Pygmol.Data.objective_history_independent`.
* **C58** diagnostics report what the solver used (proved). `diagnose` returns the same intermediate values.
  Theorems: `Pygmol.Data.diagnostics_consistent`.
* **C59** element and electron balance of the whole right-hand side (proved). Sum of C25-C28 over the complete right-hand side.
  Theorems: `Pygmol.Reads.element_balance`, `Pygmol.Reads.electron_balance`.
* **C60** elastic collisions never heat electrons (proved). Sign of the elastic loss.
  Theorems: `Pygmol.Data.elastic_loss_nonneg`.
* **C61** the right-hand side is defined on physical states (proved). All denominators, roots and logarithms of the right-hand side are in their domains on physical states.
  Theorems: `Pygmol.Data.regular_of_physical`.
* **C62** electron energy budget (proved). Signs of the wall terms, bound of the growth of the energy density; witness for the heating by attachment.
  Theorems: `Pygmol.Data.wall_energy_losses_nonneg`, `Pygmol.Data.energy_budget`, `Pygmol.Data.attachment_heats`.
  attachment_heats is a finding
* **C63** results are labelled by what they belong to (proved). Labels of the columns against what was computed.
  Theorems: `Fwork.labels_after_success`, `Fwork.fluxes_mislabelled`, `Fwork.one_reaction_fails`, `Fwork.rates_labelled_as_species`.
  Findings: one_reaction_fails, rates_labelled_as_species, fluxes_mislabelled.
* **C64** the parts of a graph agree (proved). Construction of graphs by any sequence of calls.
  Theorems: `Fwork.graph_build`, `Fwork.graph_refuses`.
* **C65** finished trajectories are complete, immutable and unique (proved). Transition system over file-system operations; invariant over all interleavings and crash points.
  Theorems: `Fwork.MorrisRuns.finished_complete`, `Fwork.MorrisRuns.finished_stable`, `Fwork.MorrisRuns.done_complete`, `Fwork.MorrisRuns.done_distinct`, `Fwork.MorrisRuns.Demo.concurrent_overwrite`.
  Transition system over file-system operations, all interleavings and crash points. Hypothesis: all jobs have factor counts with the same number of digits; Demo.concurrent_overwrite shows it is needed.
* **C66** trajectories run one after another are coherent (proved). As C65 for jobs one after another.
  Theorems: `Fwork.MorrisRuns.sequential_coherent`, `Fwork.MorrisRuns.incoherent_never`, `Fwork.MorrisRuns.alone_succeeds`, `Fwork.MorrisRuns.torn_dump_blocks`, `Fwork.MorrisRuns.Demo.concurrent_incoherent`, `Fwork.MorrisRuns.Demo.crash_incoherent`, `Fwork.MorrisRuns.abandoned_blocks`, `Fwork.MorrisRuns.backend_case_blocks`.
  The comparison of the meta data is read file by file. Findings: torn_dump_blocks, backend_case_blocks, abandoned_blocks, Demo.concurrent_incoherent, Demo.crash_incoherent.
* **C67** elementary effects are single-factor difference quotients (proved). Effects against difference quotients of the logged outputs.
  Theorems: `Fwork.MorrisStats.effects_quotient`, `Fwork.MorrisStats.effects_telescope`.
  Exact real arithmetic; interpolation as in C41.
* **C68** Morris statistics (proved). Mean, absolute mean and standard deviation of the effects.
  Theorems: `Fwork.MorrisStats.stats_spec`, `Fwork.MorrisStats.stats_affine`, `Fwork.MorrisStats.mu_bounded`, `Fwork.MorrisStats.sigma_zero`.
* **C69** ranking of Morris factors (proved). The ranking contains every factor once; influence of units.
  Theorems: `Fwork.MorrisStats.ranking_complete`, `Fwork.MorrisStats.inert_before_influential`, `Fwork.MorrisStats.ranking_units`, `Fwork.MorrisStats.single_trajectory_nan`, `Fwork.MorrisStats.Demo.negative_output_inverts`.
  The unstable sort is an oracle. Findings: single_trajectory_nan, Demo.negative_output_inverts.
* **C70** printed reactions of one category line up (proved). Widths of columns and lengths of the printed strings over all histories.
  Theorems: `Plaschem.Classify.strings_line_up`, `Plaschem.Classify.string_available`, `Plaschem.DemoC.stale_columns`, `Plaschem.DemoC.stale_names`.
  All histories with sorting before printing; stale_columns shows the restriction is needed.
* **C71** sorting the elements of an XML input (proved). Order of the elements after `sort_elements`, and when ids are reassigned.
  Theorems: `Plaschem.Xml.sort_elements_order`, `Plaschem.Xml.sort_elements_species`, `Plaschem.Xml.sort_elements_reassigns`, `Plaschem.DemoX.padded_id_breaks`.
* **C72** reported contributions add up to the derivative (proved). The reports are evaluated on the frames the equations produce; `volumetric_sum` and `surface_sum` turn the lists into finite sums over reactions and species, which are the terms of the right-hand side (C27) by C20 and C21.
  Theorems: `Fwork.Rates.rates_add_up`, `Fwork.Rates.electron_rates_add_up`, `Fwork.Rates.printed_add_up`.
  Exact real arithmetic. rates_add_up assumes a return dictionary without duplicate names, no species called "t" and that return coefficients name species of the network.
* **C73** volumetric and surface rates of a species (proved). The model of the reports is unfolded to a filter and a map over the enabled reactions or species; sorting is any function that permutes into the right order.
  Theorems: `Fwork.Rates.volumetric_defined`, `Fwork.Rates.volumetric_exact`, `Fwork.Rates.surface_exact`, `Fwork.Rates.arbitrary_rates_empty`, `Fwork.Rates.production_exact`, `Fwork.Rates.consumption_exact`, `Fwork.Rates.surface_refused`, `Fwork.Rates.surface_not_sorted`.
  Sorting of pandas is a parameter: any permutation in the right order.
* **C74** interpolated rows of results (proved). `np.interp` is a recursive function on points (`Pygmol/Power`); interpolation is affine between grid points (`interp_affine`), so interpolating samples of it gives it back (`interp_samples`).
  Theorems: `Fwork.Frames.frames_defined`, `Fwork.Frames.frames_values`, `Fwork.Frames.frames_own_times`, `Fwork.Frames.frames_refine`.
  np.interp over the reals.
* **C75** convergence check (proved). Real inequalities on the definition; the value at the start of the window is tied to C74.
  Theorems: `Fwork.Frames.convergency_exact`, `Fwork.Frames.converged_iff`, `Fwork.Frames.converged_props`, `Fwork.Frames.not_reached_iff`, `Fwork.Frames.oscillation_converged`, `Fwork.Frames.zero_not_converged`.
  Exact real arithmetic; the text of the messages is not modelled.
* **C76** logging a run (proved). Transition system of single file system operations over a function from paths to entries; the invariant describes the directory of the run at every program point.
  Theorems: `Fwork.Log.log_refused_iff`, `Fwork.Log.refused_no_effect`, `Fwork.Log.log_exact`, `Fwork.Log.log_can_finish`.
  Symbolic links, permissions and concurrent processes are not modelled; file contents are opaque (formatting of numbers by pandas and yaml is not modelled).
* **C77** logged runs do not disturb each other (proved). Frame property of each operation; induction over histories with the invariant that the readable files of a directory belong to one call.
  Theorems: `Fwork.Log.log_frame`, `Fwork.Log.log_persists`, `Fwork.Log.file_survives`, `Fwork.Log.files_of_one_call`.
  One process at a time; operations are atomic except writing, which has an incomplete state.
* **C78** limits of logging (proved). Concrete histories, and consequences of C76 for the general ones.
  Theorems: `Fwork.Log.stopped_blocks`, `Fwork.Log.empty_id_wipes`, `Fwork.Log.overwrite_not_atomic`, `Fwork.Log.incomplete_read`, `Fwork.Log.dotdot_escapes`.
* **C79** comparing runs (proved). Decision table of the forms of a reference as an inductive relation; the table of the comparison entry by entry.
  Theorems: `Fwork.Compare.parse_forms`, `Fwork.Compare.compare_exact`, `Fwork.Compare.relative_first`, `Fwork.Compare.row_names_collide`, `Fwork.Compare.backend_shadows`, `Fwork.Compare.row_names`.
  Reading of a solution is a parameter (C76); printing is not modelled.
* **C80** LaTeX form of species names (proved). Model of the loop of replacements with its full rule lists; passes over the text are shown to act block by block, then typeset by an independent interpreter. Injectivity by decoding every pass.
  Theorems: `Plaschem.Latex.texify_accepts`, `Plaschem.Latex.texify_shows`, `Plaschem.Latex.texify_injective`, `Plaschem.Latex.texify_not_injective`, `Plaschem.Latex.texify_large_number`.
  Typesetting is a small interpreter of the part of TeX formulas that occurs (`render`); str.isalpha is a parameter that agrees with ASCII on ASCII characters.
* **C81** LaTeX form of reactions (proved). Induction over the ids of one side with the dictionary of terms; uses C80 for different keys.
  Theorems: `Plaschem.Latex.reaction_terms`, `Plaschem.Latex.same_latex_lost`.
* **C82** LaTeX form of rate coefficients (proved). Value of decimal numerals as rationals; induction over the stripped characters.
  Theorems: `Plaschem.LatexRate.strip_value`, `Plaschem.LatexRate.tenFold_iff`, `Plaschem.LatexRate.round2_shown`, `Plaschem.LatexRate.factor_shown`, `Plaschem.LatexRate.no_factor`, `Plaschem.LatexRate.rate_shown`, `Plaschem.LatexRate.multiple_of_ten_wrong`, `Plaschem.LatexRate.loss_shown`.
  Formatting of floating point numbers by Python (str, round, format) is a parameter with its documented properties (`NumFmt.Lawful`).
* **C83** neutral model: acceptance and equations (proved). The overridden methods in the same state monad as the base equations; no call writes to the arrays; equality with the pure right-hand side of C57 for data without charges.
  Theorems: `Pygmol.neutral_accepted_iff`, `Pygmol.NeutralReads.neutral`, `Pygmol.Data.Neutral.objective`, `Pygmol.Data.Neutral.rates`, `Pygmol.Data.Neutral.wall_fluxes_fail`, `Pygmol.electron_not_rejected`.
  Real numbers instead of floating point; compared with the base model of C57.
* **C84** neutral model: positivity, balances and start (proved). The general positivity lemma behind C29 with the neutral right-hand side; element rows of the stoichiometric matrix without charge requirement.
  Theorems: `Pygmol.Data.Neutral.stay_positive`, `Pygmol.Data.single_species_undefined`, `Pygmol.NeutralReads.element_balance`, `Pygmol.Data.neutral_start`, `Pygmol.Data.neutral_given_start`.
  Exact solutions over the reals, not the steps of the solver.
* **C85** import of HPEM files (proved). The regular expressions as a list of atoms with all greedy matches in backtracking order; a line whose cells are free of separators has one decomposition, so the first match is it; then the two adding loops.
  Theorems: `Plaschem.Xml.hpem_import`, `Plaschem.Xml.hpem_units`, `Plaschem.Xml.hpem_species_read`, `Plaschem.Xml.hpem_reaction_read`, `Plaschem.Xml.hpem_refused`, `Plaschem.DemoX.hpem_ids_not_distinct`, `Plaschem.DemoX.hpem_twice`, `Plaschem.DemoX.hpem_half_loaded`, `Plaschem.DemoX.hpem_second_mark`, `Plaschem.Xml.hpem_rename`, `Plaschem.DemoX.hpem_names_collide`.
  int and float conversions are parameters (Codec); white space of re is that of strip.
* **C86** import from the QDB database (proved). The database records as structures with the attributes the code reads; lumped reactions flattened to their leaves; the adding loops by induction on the leaves; the file by the round trip of C48; the histories by an invariant every call keeps.
  Theorems: `Plaschem.Xml.qdb_import`, `Plaschem.Xml.qdb_name`, `Plaschem.Xml.qdb_name_inj`, `Plaschem.Xml.qdb_species_read`, `Plaschem.Xml.qdb_file`, `Plaschem.Xml.imports_history`, `Plaschem.DemoX.qdb_four_charges`, `Plaschem.DemoX.qdb_names_collide`, `Plaschem.DemoX.qdb_two_states`, `Plaschem.DemoX.qdb_heavy_xsec`, `Plaschem.DemoX.qdb_half_loaded`.
  The database is a parameter: any records that have the attributes the code reads. Number formatting is a parameter with a round-trip law.
* **C87** printed frames (proved). Frames as lists of ids with a function for the cells; painting of rows and columns as folds, whose effect on a cell is proved by induction on the disabled ids.
  Theorems: `Plaschem.Pretty.pretty_annotated`, `Plaschem.Pretty.pretty_plain`, `Plaschem.Pretty.pretty_refused`, `Plaschem.DemoT.reactions_taken_for_species`.
  Values are opaque. Column widths and the escape sequences of colorama are left to pandas and colorama; an axis with ids of reactions all of which are ids of species too is taken for species (witness).
* **C88** table of species attributes (proved). The columns function by function (getter, units, pandas coercion, replacement of missing values, colours); a cell relation stated apart from the code; existence from a totality lemma for each step.
  Theorems: `Plaschem.Table.species_table`, `Plaschem.Table.species_table_total`, `Plaschem.DemoT.has_table`, `Plaschem.DemoT.state_of_electron`.
  Conversions between texts and numbers are a parameter; integers of a column with missing values are shown as floats, as pandas does.
* **C89** table of reaction attributes (proved). The first column through the classifier model of C51 (listing, alignment); a reader of headings from the top as specification; the cells as in C88.
  Theorems: `Plaschem.TableRx.rows_plain`, `Plaschem.TableRx.rows_under_headings`, `Plaschem.TableRx.strings_aligned`, `Plaschem.TableRx.headings_wide`, `Plaschem.TableRx.sheet_total`, `Plaschem.TableRx.reaction_table`, `Plaschem.TableRx.reaction_table_total`, `Plaschem.DemoT.strings_of_different_length`, `Plaschem.DemoT.has_reactions`, `Plaschem.DemoT.text_for_flag`, `Plaschem.TableRx.headings_tell`.
  Conversions between texts and numbers are a parameter. A truth value passed as text counts as passed only in the table with headings (witness `text_for_flag`).
* **C90** LaTeX tables (proved). The methods and the two layouts line by line; a reader of the text (lines, rules, cells between separators) as specification, and a counter of open braces; histories by induction from the end.
  Theorems: `Plaschem.Tex.history`, `Plaschem.Tex.table_read`, `Plaschem.Tex.note_spec`, `Plaschem.Tex.table_balanced`, `Plaschem.Tex.reactions_table`, `Plaschem.Tex.reactions_table_read`, `Plaschem.Tex.reactions_table_refused`, `Plaschem.DemoTex.reads`, `Plaschem.DemoTex.number_refused`, `Plaschem.DemoTex.separator_splits`, `Plaschem.DemoTex.source_none`, `Plaschem.DemoTex.loss_of_ten`.
  Frames with distinct row and column labels, taken by value. Number formatting is a parameter.
* **C91** batches of Morris trajectories (proved). A pool of workers on top of the transition system of C65; termination by a rank of the program counter, results by an invariant relating each trajectory directory to its program counter, loss by an invariant of the three files of the meta directory.
  Theorems: `Fwork.MorrisBatch.call_result`, `Fwork.MorrisBatch.call_ids`, `Fwork.MorrisBatch.pool_ends`, `Fwork.MorrisBatch.batch_result`, `Fwork.MorrisBatch.batch_silent`, `Fwork.MorrisBatch.batch_loss`, `Fwork.MorrisBatch.one_worker`, `Fwork.MorrisBatch.batches`, `Fwork.MorrisBatch.Demo.trajectory_lost`, `Fwork.MorrisBatch.accepted_iff`.
  Transition system of C65 with a pool of workers; worker processes raise but are not killed. Findings: trajectory_lost (race), batch_silent (unsupported arguments: the batch returns normally without any trajectory).
* **C92** the coupling graph of a chemistry (proved). The constructor reads arrays off the chemistry state; array entries are characterised by multiplicities and the return coefficients in force, then the weights of C35 and the ranking of C38 are restated in terms of species and reactions.
  Theorems: `Fwork.CoupleInit.accepted_iff`, `Fwork.CoupleInit.refusals`, `Fwork.CoupleInit.arrays`, `Fwork.CoupleInit.chemistry_weights`, `Fwork.CoupleInit.chemistry_ranking`, `Fwork.CoupleInit.disabled_adhoc_refused`.
  On the chemistry model of C01-C22; return coefficients are dictionaries with distinct keys naming species of the chemistry (PyDicts, RetClosed). Finding: disabled_adhoc_refused.
* **C93** a reduction and its files (proved). Every method is a list of single file operations and a result; a crash is a prefix of the list. The invariant `OnDisk` relates the disk to the history; each call refines the call of `Reduce` and carries a `Trace`, which says what is on the disk after every prefix; traces compose along the loop.
  Theorems: `Fwork.ReduceDisk.init_spec`, `Fwork.ReduceDisk.runBase_refines`, `Fwork.ReduceDisk.removeOne_refines`, `Fwork.ReduceDisk.reduction_on_disk`, `Fwork.ReduceDisk.reduction_on_disk_ends`, `Fwork.ReduceDisk.refused_iff`, `Fwork.ReduceDisk.in_use`, `Fwork.ReduceDisk.empty_dir_never_reduces`, `Fwork.ReduceDisk.no_eligible_blocks_id`, `Fwork.ReduceDisk.table_lost`, `Fwork.ReduceDisk.unlogged_run`, `Fwork.ReduceDisk.run_at_any_moment`.
  Hypotheses: a well-formed file system, species names without slashes, and meta data that compare equal to themselves after a YAML round trip. Findings: empty_dir_never_reduces, no_eligible_blocks_id, table_lost, unlogged_run.
* **C94** laws of the kinetic and transport coefficients (proved). Algebra and monotonicity over ℝ of the pure quantities; for the ambipolar diffusivity the electronegativity is eliminated.
  Theorems: `Pygmol.Data.arrhenius`, `Pygmol.Data.rate_electron_mono`, `Pygmol.Data.rate_heavy_mono`, `Pygmol.Data.mass_action`, `Pygmol.Data.debye_sq`, `Pygmol.Data.sigma_laws`, `Pygmol.Data.sigma_ions`, `Pygmol.Data.closest_approach_ratio`, `Pygmol.Data.mean_speed_sq`, `Pygmol.Data.ambipolar_bounds`, `Pygmol.Data.wall_flux_bounds`, `Pygmol.Data.wall_flux_mono` and 1 more (MANIFEST.json).
  Laws of the pure quantities of EqnsPure, to which the methods of Equations are reduced in C57. Finding: closest_approach_ratio.
* **C95** looking up species and reactions (proved). Unique ids and names of a well-formed chemistry make the first match the only one.
  Theorems: `Plaschem.Net.getRp_iff`, `Plaschem.Net.getRp_error_iff`, `Plaschem.Net.getReaction_iff`, `Plaschem.Net.getReaction_error_iff`, `Plaschem.Reaction.getRp_iff`, `Plaschem.Reaction.getRp_error_iff`.
  Identifiers are ints, strings or species objects.
* **C96** the figure that compares reductions (proved). Every loop of the function is reduced to a list of drawings and to maxima; tables of reductions are those of C43 (rows_truthful), files those of C93.
  Theorems: `Fwork.ReducePlot.compare_succeeds_iff`, `Fwork.ReducePlot.curves`, `Fwork.ReducePlot.dead_ends`, `Fwork.ReducePlot.endpoints`, `Fwork.ReducePlot.annotations`, `Fwork.ReducePlot.axis_limits`, `Fwork.ReducePlot.Descends.curve`, `Fwork.ReducePlot.OfReduction.descends`, `Fwork.ReducePlot.reductions_compared`, `Fwork.ReducePlot.read_reduction`, `Fwork.ReducePlot.pretty_names`, `Fwork.ReducePlot.Demo.nan_species` and 3 more (MANIFEST.json).
  Tables of finished and unfinished reductions; the error measure is a number and not negative.
* **C97** exact solutions over time (proved). A function whose derivative is at most c wherever it exceeds B stays below B + ct (compactness); applied to the amount of a conserved quantity (wall_balance, vol_weighted, outflow above the set pressure) and to the energy (the energy budget theorem). Demonstrated by exact solutions.
  Theorems: `Pygmol.Data.total_density_bounded`, `Pygmol.Data.washed_out`, `Pygmol.Data.energy_bounded`, `Pygmol.Reads.no_blow_up`, `Pygmol.TimeDemo.energy_below_zero`.
  Exact real solutions; that the solution stays where the equations are defined is a hypothesis, as the numeric solver is not modelled.
* **C98** a reduction stepped by hand (proved). Invariants over histories of calls (Stepped), with the lemmas on single calls of C42/C43 (removeOne_cases, attempt_cases, restore_same).
  Theorems: `Fwork.Reduce.calls_in_order`, `Fwork.Reduce.protocol`, `Fwork.Reduce.chemistry_of_a_row`, `Fwork.Reduce.chemistry_by_hand`, `Fwork.Reduce.species_only_go`, `Fwork.Reduce.second_run`, `Fwork.Reduce.Demo.mixed_flags`.
  Histories end at exceptions other than ReductionRunError (the state they leave is not modelled).
* **C99** stored model parameters can be used again (proved). The constructor returns P exactly if the passed dictionary describes P and P makes sense (accepted_iff, a loop invariant over the passed entries); the dictionary of the nominal keys describes P in every order.
  Theorems: `Pygmol.stored_params`, `Pygmol.coherent_iff`, `Pygmol.further_trajectory`.
  Writing and loading yaml is modelled as returning the same numbers and strings with entries of dictionaries in any order. Numpy scalars, which yaml writes as python objects, are not modelled.
* **C100** which species the constructor accepts (proved). The loop over all attributes succeeds exactly if each step does (setAll_iff); the rest is the order of checks, compared with a specification that lists attributes and units again.
  Theorems: `Plaschem.Xml.rp_init_iff`, `Plaschem.Xml.rp_init_keeps`, `Plaschem.Xml.getters_raise`, `Plaschem.Xml.InitDemo.accepted_but_unusable`, `Plaschem.RP.init_iff`, `Plaschem.RP.init_keeps`.
  ids are integers, units are texts; the value of ret_coefs is a dictionary or None. RP.init_iff and init_keeps are for the simplified constructor (Species.lean).
* **C101** which chemistries the constructor accepts (proved). The consistency check on the fresh state is compared with a specification in terms of the passed objects only; the return-coefficient part by look-up in the dictionary with unique keys.
  Theorems: `Plaschem.Net.init_iff`, `Plaschem.Net.init_pristine`, `Plaschem.Net.init_rejects`, `Plaschem.Net.init_perm`, `Plaschem.Net.InitDemo.accepted`, `Plaschem.Net.InitDemo.breaks`.
  species and reactions passed explicitly.
* **C102** kinds of processes and the collision partner of the electron (proved). First-match search characterised by the prefix before the match; charge balance from C10.
  Theorems: `Plaschem.Reaction.partner_iff`, `Plaschem.Reaction.partner_error_iff`, `Plaschem.Reaction.partner_perm`, `Plaschem.Reaction.ion_process_iff`, `Plaschem.Reaction.neutral_process_products`, `Plaschem.Reaction.special_number`, `Plaschem.Reaction.kind_perm`.
* **C103** the pressure is regulated without overshoot (proved). Rate of the total density is the flow plus the artificial correction (C27, C28); comparison principle of C97 with bound p0; the neutral law by an integrating factor for 1/p.
  Theorems: `Pygmol.Data.pressure_no_overshoot`, `Pygmol.Data.Neutral.pressure_law`.
* **C104** the neutral model over time (proved). C97 for the neutral equations, with positivity from C84 instead of an assumption along the solution.
  Theorems: `Pygmol.Data.Neutral.no_blow_up`, `Pygmol.Data.Neutral.washed_out`, `Pygmol.Data.Neutral.energy_constant`, `Pygmol.NeutralReads.no_blow_up`.
* **C105** directories of the workspace (proved). `Path.mkdir(parents=True, exist_ok=True)` as a machine of single operations (`Config.act`) on the file system of C76; invariant and a decreasing bound per process, preserved by operations of others (`act_inv`, `left_bound`); the queries on top.
  Theorems: `Fwork.Config.mkdirs_concurrent`, `Fwork.Config.mkdirs_any_moment`, `Fwork.Config.mkdirs_eq`, `Fwork.Config.query_ok`, `Fwork.Config.query_error`, `Fwork.Config.query_errors`, `Fwork.Config.queries_effect`, `Fwork.Config.query_apart`, `Fwork.Config.logged_found`, `Fwork.Config.logName_spec`, `Fwork.Config.load_spec`, `Fwork.Config.toPath_spec`.
  Symbolic links, `..` in the configured paths and permissions are not modelled.
* **C106** a logged run can be repeated from its log (proved). `run` as a relation from arguments and disk to the start vector, disk and outcome, composed of `Config.query` (C105), `validateInitialN`, `y0FromInit` (C33), the logging machine `Log` (C76-C78) and `stored_params` (C99); case analysis over the ways a call can end.
  Theorems: `Fwork.RunLog.solver_reached`, `Fwork.RunLog.nothing_written`, `Fwork.RunLog.other_runs_kept`, `Fwork.RunLog.logged_run_repeats`, `Fwork.RunLog.run_logs`.
  The text of YAML and CSV files is not modelled: a file has the value written, dictionaries possibly reordered. Numbers are exact, so densities must be plain floats (numpy scalars passed by the user are dumped as Python objects, which the loader refuses).
* **C107** reaction filters and aligned per-reaction data (proved). list comprehension with possibly raising getters over the filtered list, zipped with the ids; distinct ids from the invariant of reachable states.
  Theorems: `Plaschem.getReactions_exact`, `Plaschem.reaction_getters_aligned`, `Plaschem.init_hasFactor`, `Plaschem.reaction_getters_share_index`.
* **C108** histories with restarts from files (proved). agreement of states is shown to be a bisimulation (congruence of every call, the recursion of disable by induction on its depth); a load is a sequence of calls from a state which calls alone reach.
  Theorems: `Plaschem.same_behaviour`, `Plaschem.no_new_states`, `Plaschem.continued`, `Plaschem.loads_iff`, `Plaschem.dumped_again`, `Plaschem.foreign_file`.
  Files dumped by chemistries with the same species and reactions. dumped_again: return coefficients are dictionaries (distinct keys).
* **C109** which reactions can be constructed (proved). the constructor is first shown equivalent to the conjunction of its checks; each check of `set_reaction_attribute` is then shown equivalent to the corresponding field of the specification, the consistency check through C10.
  Theorems: `Plaschem.Xml.rx_init_iff`, `Plaschem.Xml.rx_init_keeps`, `Plaschem.Xml.rx_getters`, `Plaschem.Xml.rx_init_perm`, `Plaschem.Xml.RxInitDemo.accepted_but_unusable_rx`, `Plaschem.Xml.RxInitDemo.unreadable_factor`.
  For formula parsers that list no element twice or with count zero. The id is an int; units are texts.
* **C110** what any history of calls on a graph leads to (proved). induction on the history from its end, with an invariant that relates nodes, edges, neighbours and attributes to the calls made so far.
  Theorems: `Fwork.GraphHist.graph_history`, `Fwork.GraphHist.graph_raises`, `Fwork.GraphHist.weights_positive`, `Fwork.GraphHist.weighting_iff`.
  Caller code that changes the returned sets and dictionaries in place is not modelled (the getters return the stored objects).
* **C111** from the directory of a Morris run to its statistics (proved). joins MorrisRuns/MorrisBatch (what the processes leave on the disk), Morris (the walks) and MorrisStats (the statistics): a model of the evaluation that reads the files, an equivalence with all trajectories being finished for every reachable state, and an induction over the batches.
  Theorems: `Fwork.MorrisEval.label_spec`, `Fwork.MorrisEval.solution_iff`, `Fwork.MorrisEval.readable_iff`, `Fwork.MorrisEval.evaluation_iff`, `Fwork.MorrisEval.reading_errors`, `Fwork.MorrisEval.history_stats`, `Fwork.MorrisEval.unfinished_raises`, `Fwork.MorrisEval.abandoned_forever`, `Fwork.MorrisEval.analysis_reads`, `Fwork.MorrisEval.analysis_stats`, `Fwork.MorrisEval.Demo.lost_raises`, `Fwork.MorrisEval.Demo.empty_batch_raises`.
  Findings: abandoned_forever, Demo.lost_raises (a batch that returned without an error, after which the evaluation raises) and Demo.empty_batch_raises (a batch of no trajectories). Values are taken as the text files keep them, without rounding; statistics are over real numbers (C68).
* **C112** what mu and sigma of a Morris run say about a chemistry (proved). end to end: the chemistry (Plaschem), the mapping of factors (MorrisMap), the walks (Morris), processes and files (MorrisRuns, MorrisBatch) and evaluation (MorrisEval). Path independence of the mutated chemistry is proved as equality of states; the effects are then translated into pairs of chemistries.
  Theorems: `Fwork.MorrisWhole.perturbed_last`, `Fwork.MorrisWhole.chemAt_spec`, `Fwork.MorrisWhole.runSol_point`, `Fwork.MorrisWhole.effect_pair`, `Fwork.MorrisWhole.reactions_effects`, `Fwork.MorrisWhole.linear_reaction`, `Fwork.MorrisWhole.species_effects`.
  Joins C45, C68, C91 and C111. The solver is an arbitrary function of the state of the chemistry, the parameters being the same in all runs of a trajectory. Rates are rational, outputs real numbers.
* **C113** what mu and sigma of a Morris run over return coefficients say about a chemistry (proved). as C112 for the third type of trajectories. The state after a run is determined by the last factor of each pair up to the order of dictionary entries, so the solver is assumed not to see that order; a step is one call of the mapping, which gives the pair of chemistries.
  Theorems: `Fwork.MorrisWholeRet.same_vector`, `Fwork.MorrisWholeRet.ret_effects`.
  Joins C46, C68, C91 and C111. Coefficients are rational with an arbitrary function for the power; outputs are real numbers.
* **C114** what a finished reduction promises about the reduced mechanism (proved). the error measure of errors.py is put into the model of the reduction with its files. Strong induction over the rows of the history: the run of each accepted row is that of a reachable chemistry whose enabled part is the largest one without the species of the accepted rows so far (C01, states that agree behave alike by C108). Linear interpolation is characterised as an equivalence with the value on the line between neighbouring rows, so that the bound is about the tables only.
  Theorems: `Fwork.ReduceWhole.reduced_model`, `Fwork.ReduceWhole.as_one_call`, `Fwork.ReduceWhole.nothing_left_out`, `Fwork.ReduceWhole.error_not_nan`, `Fwork.ReduceWhole.value_iff`, `Fwork.ReduceWhole.Demo.not_minimal`.
  Joins C01, C05, C22, C41, C43, C93 and C108. Numbers are real. The solution on the disk is the compressed one (C94), the bound is for the solution as computed.
* **C115** in what order a reduction tries the species (proved). the loop variable is shown to be, up to species tried or gone, a suffix of the ranking in force (the model of `Series.pop` deletes labels, so the suffix is filtered); induction over the passes. For the graph the ranking function is composed of the models of the constructor, the weighting and the ranking, whose theorems were generalised from reachable chemistries to those restored from a file.
  Theorems: `Fwork.Reduce.tried_in_order`, `Fwork.Reduce.lowest_first`, `Fwork.Reduce.weakest_first`, `Fwork.Reduce.guided_leaves_nothing_out`, `Fwork.Reduce.never_down_to_targets`, `Fwork.Reduce.accepted_matches`, `Fwork.Reduce.ranking_function_iff`.
  Joins C41, C43, C92 and C39. Scores that are nan count as highest, as in the sort of pandas. Search by max_flow is excluded as in C92.
* **C116** a chemistry graph built from the results of a run (proved). the getters of rates and fluxes are modelled over the cached equations of C57 (each row is evaluated with the arrays the row before left), the frames at given times by C74; the contents of the two frames are computed once (`Logged.contents`) and put into the criterion and the arrays of C92. The balance compares the stoichiometry and return matrix as the graph reads them (with special species) with those of the equations (without).
  Theorems: `Fwork.GraphRun.read_row`, `Fwork.GraphRun.graph_from_run_iff`, `Fwork.GraphRun.graph_from_run_refusal`, `Fwork.GraphRun.graph_of_run_rates`, `Fwork.GraphRun.ranking_from_run`, `Fwork.GraphRun.graph_balance`, `Fwork.GraphRun.guided_by_runs`, `Fwork.GraphRun.adhoc_enabled`, `Fwork.GraphRun.Demo.no_graph_from_run`.
  Joins C57, C63, C72, C92, C74 (frames at given times) and C115. logged_exists shows that runs log.
* **C117** a reduction along the ranking of a Morris run over the species (proved). the ranking is computed from the directory (`filesRanking`: readAll, then getRanking). A species without influence has elementary effects 0 on every trajectory (`species_effects`), so mu, sigma and score are 0; one with influence has a nonzero quotient in the list of its effects, so mu and sigma cannot both vanish. `run_reduction` drops labels from a fixed ranking only, so what it checks before a pass is a sublist of the ranking; the order of the tries is C115 with a fixed ranking.
  Theorems: `Fwork.ReduceMorris.species_ranking`, `Fwork.ReduceMorris.check_passes`, `Fwork.ReduceMorris.least_influential_first`, `Fwork.ReduceMorris.inert_first`, `Fwork.ReduceMorris.morris_leaves_nothing_out`.
  Joins C111 and C112 (statistics and ranking of a directory) with C42, C114 and C115. How pandas compares nan in the check is left open; the scores here are numbers.
* **C118** what disabling species does to the equations of the global model (proved). `Pygmol/Restrict` states what it means for one set of equation data to be a part of another (index maps for species and reactions, same numbers) and pushes that through every formula of the equations; `Fwork/ReducedEqns` shows that the data read off a chemistry before and after disabling are in this relation (the getters of the smaller chemistry are sublists), `ReducedEqnsProps` states the result in terms of species and reactions. `ReducedEqnsDemo` builds the data for concrete chemistries.
  Theorems: `Fwork.ReducedEqns.disabling_shrinks`, `Fwork.ReducedEqns.rates_kept`, `Fwork.ReducedEqns.reduced_densities`, `Fwork.ReducedEqns.reduced_energy`, `Fwork.ReducedEqns.reduced_exact`, `Fwork.ReducedEqns.ion_lost_ambipolar`, `Fwork.ReducedEqns.ion_lost_sheath`, `Fwork.ReducedEqns.cut_makes_disabled`.
  Joins the chemistry getters with the equations: ReadsAll says what the constructor of Equations reads. NoIonLost, NoFeedLost and NoIonReturned are needed: ion_lost_ambipolar and ion_lost_sheath show what happens otherwise. Real numbers, not floats.
* **C119** the order in which species and reactions are listed does not matter (proved). `Plaschem/Shuffle` shows that each lookup, the closure computed by disabling, the consistency checks and the charge rules are invariant under permutations of the two lists (ids and names are unique, so a lookup has one candidate). `Fwork/OrderEqns` turns the permutations into index bijections, which make the data of one system a part of that of the other in the sense of `Pygmol/Restrict`, with nothing left out.
  Theorems: `Plaschem.Net.order_of_construction`, `Plaschem.Net.order_of_call`, `Plaschem.Net.order_of_history`, `Plaschem.Net.order_of_lists`, `Fwork.OrderEqns.order_of_equations`, `Fwork.OrderEqns.order_matters_elastic`.
  Ids are kept. Of a failing construction only the failure is compared, not which of several violations is reported. OnePartner is needed for the equations, order_matters_elastic is the witness. Real numbers: the order of floating-point summation is not modelled.
* **C120** what an ad-hoc attribute changes in the equations of the global model (proved). `Fwork/AdhocEqns`: the data the equations read are unique (`reads_unique`), so the data after the call are those before with one series (or the sticking and return coefficients) replaced; the right-hand side is affine in the rates and in the wall sources, which gives the changes. `zero_as_disabled` combines this with C118.
  Theorems: `Fwork.AdhocEqns.reads_unique`, `Fwork.AdhocEqns.adhoc_rate`, `Fwork.AdhocEqns.adhoc_rate_equations`, `Fwork.AdhocEqns.adhoc_rate_disabled`, `Fwork.AdhocEqns.zero_as_disabled`, `Fwork.AdhocEqns.adhoc_wall`, `Fwork.AdhocEqns.adhoc_wall_absent`, `Fwork.AdhocEqns.adhoc_stick`, `Fwork.AdhocEqns.adhoc_return`.
  Real arithmetic. The equations of both states are assumed to be set up without an exception (ReadsAll), return coefficient dicts are dicts (PyDicts). reads_unique: the data of the equations are determined by chemistry and parameters.
* **C121** the equations determine the time development (proved). `Pygmol/Lip` (functions that are Lipschitz near a point, closed under the operations the equations use; Picard-Lindelof and Gronwall from Mathlib), `Pygmol/Unique` (each quantity of the equations is Lipschitz near every state with positive densities and electrons and no vanishing denominator), `Fwork/UniqueEqns` (with C119 and C120, for chemistries).
  Theorems: `Pygmol.Data.unique_solution`, `Pygmol.Data.solution_exists`, `Pygmol.Data.solution_continues`, `Fwork.UniqueEqns.same_development`, `Fwork.UniqueEqns.order_of_development`.
  Exact solutions in real arithmetic; the numerical integration (scipy solve_ivp) is not modelled. Along the solution the electron density and all denominators are assumed not to vanish (Inside, as in C97).
* **C122** from accepted input to a well-posed model (proved). `Fwork/PhysEqns`: each number the equations read is traced to the species, reaction, ad-hoc value or parameter it comes from; an invariant of histories without negative values; C54 for the parameters, C04 for the positive ion, C61 for the denominators and C121 for the solution.
  Theorems: `Fwork.PhysEqns.physical_iff`, `Fwork.PhysEqns.sound_physical`, `Fwork.PhysEqns.accepted_physical`, `Fwork.PhysEqns.accepted_development`, `Fwork.PhysEqns.Demo.negative_factor_accepted`, `Fwork.PhysEqns.given_reads`.
  Exact solutions in real arithmetic; the numerical integration is not modelled. The equations are assumed to be set up without an exception (ReadsAll).
* **C123** what the runs of a Morris analysis solve (proved). `Fwork/MorrisEqns`: the perturbed chemistries of C112 (`chemAt`, `OneRate`, `OneSpecies`) differ from the analysed one in ad-hoc factors only, so that by C120 the data of the equations differ in the factors only; these are traced through the SI conversion (C19); rates are linear in them; C121 gives the developments.
  Theorems: `Fwork.MorrisEqns.perturbed_equations`, `Fwork.MorrisEqns.perturbed_defined`, `Fwork.MorrisEqns.perturbed_physical`, `Fwork.MorrisEqns.perturbed_development`, `Fwork.MorrisEqns.centre_development`, `Fwork.MorrisEqns.one_rate_equations`, `Fwork.MorrisEqns.one_species_equations`, `Fwork.MorrisEqns.idle_reaction`.
  Exact solutions in real arithmetic; the numerical integration is not modelled.
* **C124** what the runs of a Morris analysis over return coefficients solve (proved). `Fwork/MorrisRetEqns`: the runs of C113 (`runState`) differ from the analysed chemistry in the ad-hoc return coefficients only (`ret_history`); the return matrix of the equations is read off the coefficients, the matrix of a run is the nominal one scaled by `retScale` off the diagonal and compensated on it; C121 gives the developments.
  Theorems: `Fwork.MorrisRetEqns.run_defined`, `Fwork.MorrisRetEqns.run_equations`, `Fwork.MorrisRetEqns.run_wall_total`, `Fwork.MorrisRetEqns.run_physical`, `Fwork.MorrisRetEqns.run_development`, `Fwork.MorrisRetEqns.same_chem_development`, `Fwork.MorrisRetEqns.same_vector_development`, `Fwork.MorrisRetEqns.centre_development`, `Fwork.MorrisRetEqns.one_coef_equations`.
  Exact solutions in real arithmetic; the power range^(2x-1) is an arbitrary function, positive (or 1 at exponent 0) where the claim needs it; the numerical integration is not modelled.
* **C125** how far the time development goes (proved). `Pygmol/Maximal`: a general lemma on ordinary differential equations (a solution that stays in a compact set on which the right side is continuous has a limit, and can be continued from it) with local existence and uniqueness of C121 gives the maximal development; `Pygmol/Edge`: away from the edge the right side is continuous also where densities vanish, so that the correction for low densities keeps each density above a positive bound, C97 bounds densities and energy from above, and the energy from below since cold electrons have the temperature of the floor; `Fwork/MaximalEqns`: accepted input as in C122.
  Theorems: `Pygmol.Data.maximal_development`, `Pygmol.Data.development_unique`, `Pygmol.Data.leaves_ends`, `Pygmol.Data.reaches_end`, `Fwork.PhysEqns.accepted_maximal`, `Fwork.PhysEqns.accepted_reaches_end`.
  Exact solutions in real arithmetic; the numerical integration is not modelled. The conditions of the second part (C97) exclude chemistries with electron attachment.
* **C126** small changes of the start or of the rates change the time development little (proved). `Pygmol/Depend`: around the compact set of states of a run the right side is Lipschitz with one constant (`uniform_lip`), so that a solution of nearby equations stays in a tube (`ode_near`) and by C125 goes on to the end; the equations are linear in the factors (`withRates_field`). `Fwork/DependEqns`: runs of a Morris analysis, by C123.
  Theorems: `Pygmol.Data.run_stable`, `Fwork.MorrisEqns.perturbed_stable`, `Fwork.MorrisEqns.factors_stable`.
  Exact solutions in real arithmetic; the numerical integration is not modelled. The constant and the distance depend on the chemistry and on the run.
* **C127** reactions that are slow enough can be disabled at the cost of a small error (proved). `Pygmol/Removed`: the whole with the factors of the removed reactions set to zero has the equations of the part (C118), so that the run of the part is one of its runs, and C126 applies to it. `Fwork/RemoveEqns`: chemistries, by C118 and C120.
  Theorems: `Pygmol.Data.removed_stable`, `Fwork.MorrisEqns.disabled_stable`.
  Exact solutions in real arithmetic; the numerical integration is not modelled. The constant is not computed. Disabled species are not covered: their density in the full run is positive.
* **C128** small changes of the return coefficients change the time development little (proved). `Fwork/DependRetEqns`: the equations are affine in the return matrix (`withRet_field`), so that the argument of C126 applies (`Data.run_near`, for any nearby equations); by C124 a run of the analysis multiplies the entries off the diagonal and keeps the sums of the columns, which bounds the change on the diagonal.
  Theorems: `Pygmol.Data.ret_stable`, `Fwork.MorrisRetEqns.run_stable`.
  Exact solutions in real arithmetic; the numerical integration is not modelled. The power function of the perturbation is a parameter, of which only non-negativity is assumed. The constant and the distance depend on the chemistry and on the run.
* **C129** small changes of the power or of the feed flows change the time development little (proved). `Pygmol/Supply`: the equations are affine in the feed flows (`withSupply_field`) and the power enters through the heating term only, so that `Data.run_near` applies; interpolation of nearby values is near (`powerExt_near`). `Fwork/SupplyEqns`: chemistries and parameters, by the uniqueness of the data read (C120).
  Theorems: `Pygmol.Data.supply_stable`, `Fwork.MorrisEqns.supply_stable`, `Pygmol.powerExt_near`.
  Exact solutions in real arithmetic; the numerical integration is not modelled. The times of the power series are strictly increasing, as the equations demand after the adjustment of repeated times. The constant and the distance depend on the chemistry and on the run.
* **C130** the error reported for a reduced chemistry is the error of the exact solutions, up to the accuracy of the solver (proved). `Fwork/TrueError`: from the characterisation of the reported error (C41) by the triangle inequality, numerator and denominator separately; (c) from C127, with the smallest density at a time considered as `M`.
  Theorems: `Fwork.true_error_le`, `Fwork.reported_error_le`, `Fwork.MorrisEqns.disabled_error`.
  The accuracy is a hypothesis (it covers the solver, rounding and the interpolation between steps); no statement is made about the accuracy scipy reaches. Part (c) is about densities of heavy species.
* **C131** final rates and fluxes (proved). `Fwork/FinalRow`: last row of the tables of C116; the arrays of the equations are right after any calls (C57, C58), the derivative is unfolded into rates and fluxes.
  Theorems: `Fwork.GraphRun.final_rates`, `Fwork.GraphRun.final_fluxes`, `Fwork.GraphRun.final_agrees`, `Fwork.GraphRun.final_balance`, `Fwork.GraphRun.final_rates_mislabelled`.
  No species is called t (its column would be overwritten by the times).
* **C132** files of chemistry attributes and the XML file of the chemistry (proved). `Plaschem/DumpFile`: the dump and load of C22 with the file they write and read; case analysis on path and hash. The file system is a function from paths to hashes, before and after.
  Theorems: `Plaschem.dump_succeeds_iff`, `Plaschem.changed_xml_refused`, `Plaschem.unchanged_xml_same`, `Plaschem.coherent_same_xml`, `Plaschem.failed_dump_destroys`.
  Hashes are compared, so contents with the same MD5 hash count as the same. The disk is not full and paths can be written to.
* **C133** small changes of energy losses change a run little (proved). `Pygmol/Losses`, `Fwork/LossesDemo`: the equations are linear in the losses; then the theorem about nearby equations of C126 on a compact tube around the run.
  Theorems: `Pygmol.Data.loss_stable`, `Pygmol.Data.withLoss_field`.
  Exact solutions in real arithmetic.
* **C134** the table of results of a run holds what its columns say (proved). `Fwork/Secondary`: the frame is a dictionary of columns, assignments to columns replace or append; values by the lemmas about assignments, the shape by the order of the columns.
  Theorems: `Fwork.GraphRun.solution_table`, `Fwork.GraphRun.final_solution`, `Fwork.GraphRun.tellurium_lost`.
  tellurium_lost shows that the claim fails without the restriction on names. Real arithmetic.

## What is not modelled

* Plotting (`plot_*`, matplotlib; what `compare_reduction_runs` draws is modelled), the layout of printed frames by pandas, doc compilation, command line entry points.
* The ODE solver (scipy `solve_ivp`): its result is an arbitrary value (C55) or an exact solution (C29).
* Escaping, encoding and pretty printing of the XML library; the QDB database itself (imports take arbitrary records).
* The GlobalKin backend (an external Fortran program; the code for it is not in the repository).
* Floating point rounding, except where `np.round` is part of the algorithm (Morris grid).
* Threads: the code has none. Processes sharing a directory are modelled for the Morris method.

## Findings

Behaviour of the code that a user would not expect, each proved as a theorem on a concrete case. They are not
repaired in the model; the affected property carries the hypothesis that excludes them.

* Chemistry: a joint `disable` request can be refused although a smaller network would do (`disable_joint_refused`, C05);
  the final consistency check of `disable` can fail after the masks were changed if a nominal return species is not in
  the chemistry (`consistency_check_can_fail`, C07); `get_species_ret_coefs(protected=False)` adds entries outside the
  index (`ret_coefs_spurious`, C21); an ad-hoc `arrh_a` on a reaction without a rate makes the SI getter raise
  (`adhoc_arrh_breaks_si_getter`, C19); loading a dump whose ad-hoc return coefficients name a disabled species raises
  after overwriting the masks (`load_dump_fails`, C22); a `NeutralChemistry` cannot be copied (`copy_neutral_fails`, C23).
* Species and reactions: the reaction key collides for names containing separators (`uniqueKey_collision`, C14);
  the default elastic flag ignores multiplicities (`elastic_ignores_multiplicity`, C15); stripping a charge suffix is
  not idempotent (`stripCharge_not_idempotent`, C16).
* Classification: accepted reactions that cannot be classified, so that no listing of the chemistry exists
  (`DemoC.unclassifiable`); species of scandium or thallium or of four elements cannot be sorted (`DemoC.unsortable`), and
  counts above nine break the order (`DemoC.count_overflow`); columns and names are stale after another sort
  (`DemoC.stale_columns`, `DemoC.stale_names`).
* XML: commas or outer blanks in names, empty attributes, missing mass or `stateless`, Boolean flags given as other
  values, units of absent values, and reactions without a rate do not survive the round trip (`DemoX.*_breaks`,
  `empty_lost`, `unit_lost`); species of the same name are merged silently (`merge_silent`), a number and its digits are
  two names for the builder and one in the file (`number_names`); ids collide when there are a thousand species
  (`ids_collide`); ids with leading zeros break sorting (`padded_id_breaks`).
* Equations: the wall flux of a negative ion with sticking coefficient 0 is 0/0 (`negative_ion_wall_undefined`); integer
  times shift a power step by a whole unit (`dedupe_int`), three equal times are rejected (`triple_rejected`); attachment
  heats the electrons (`attachment_heats`); a fed ion breaks the initial pressure (`Demo.ion_feed_pressure`).
* Parameters: one parameter under two names is accepted, one of the values is ignored (`Demo.two_names_accepted`).
* Global model: chemistries with a single reaction or species cannot be run (`one_reaction_fails`); with as many
  reactions as species, rates are labelled by species (`rates_labelled_as_species`); fluxes are mislabelled after the
  chemistry changed (`fluxes_mislabelled`); stale solutions from the backend (`backend_stale`) and after rejected
  parameters (`reload_failure`).
* Compression: zero columns block it, negative columns are ignored, frames without the label 0 fail (`zero_column_blocks`,
  `negative_column_ignored`, `label_missing`).
* Graphs: DRG1 weights exceed one (`drg1_above_one`), so `max_product` refuses (`max_product_refuses`); edges vanish in
  exact balance (`balanced_loses_edges`); negative rates fail (`drg_negative`); isolated sources raise
  (`max_flow_isolated`); decoupled species rank last as if most important (`decoupled_ranked_last`); labels of rows clash
  for close times (`label_clash`).
* Reduction: removal of an important species by a cascade raises (`Demo.important_cascade_raises`); an error of `nan` is
  accepted (`Demo.nan_error_accepted`); a negative threshold raises (`Demo.negative_threshold_raises`).
* Morris: rounding can leave the grid (`rounding_leaves_grid`); return coefficients of zero cannot be perturbed
  (`ret_zero_self_fails`); concurrent or crashed processes leave incoherent or overwritten trajectories
  (`Demo.concurrent_incoherent`, `Demo.crash_incoherent`, `Demo.concurrent_overwrite`) or block the run
  (`torn_dump_blocks`, `backend_case_blocks`, `abandoned_blocks`); a single trajectory gives no ranking
  (`single_trajectory_nan`); negative outputs invert it (`Demo.negative_output_inverts`).
* Reports: surface rates are not sorted as documented (`Rates.surface_not_sorted`) and are refused for every species after
  an ad-hoc return coefficient for a species that is disabled later (`Rates.surface_refused`); the convergence check accepts
  outputs that oscillate inside the window (`oscillation_converged`) and never accepts an output that stays zero
  (`zero_not_converged`).
* Logging: a call stopped after making the directory blocks later calls (`stopped_blocks`); overwriting is not atomic
  (`overwrite_not_atomic`); incomplete files are read silently (`incomplete_read`); an empty run id with overwrite deletes
  all runs (`empty_id_wipes`), `..` leaves the results directory (`dotdot_escapes`). Rows of a comparison can have equal
  names (`row_names_collide`).
* LaTeX: numbers from 20 on in names are typeset wrongly (`texify_large_number`), names with TeX characters collide
  (`texify_not_injective`), a bracket inside a name (`Ar(1s5)+`) is an AssertionError (`texify_accepts`), species with the
  same explicit LaTeX form merge in reactions (`same_latex_lost`). Numbers are stripped with `rstrip('.0')`, which also
  strips zeros before the point: 300.0 becomes 3 (`multiple_of_ten_wrong`, and `round2_shown` for all multiples of ten).
* `NeutralChemistry` accepts an electron although its documentation excludes it; reactions with the electron then run as if
  it were not a reactant (`electron_not_rejected`). `NeutralModel.get_wall_fluxes` always fails
  (`Neutral.wall_fluxes_fail`), a single species gives 0/0 (`single_species_undefined`), and with feeds the start pressure is
  slightly off (`neutral_start`).
* `add_chemistry_from_hpem` gives all species and reactions the id 999 (`hpem_ids_not_distinct`), stops with an `IndexError` on
  any empty line (`hpem_refused`; the documentation says such lines are not parsed), takes a second `!` in a comment for the
  end of the cell when no white space separates them (`hpem_second_mark`), and leaves species behind when a reaction is
  refused (`hpem_half_loaded`).
* Import from the QDB database: a species with two states has a comma in its name, and a file with reactions of it cannot be
  read (`qdb_two_states`); cross-section data of a heavy collision get the unit eV, which is refused when the file is read
  (`qdb_heavy_xsec`); charges above three keep their digit (`qdb_four_charges`); a failed import leaves what it added
  (`qdb_half_loaded`). Names `AR^` and `AR+` of an HPEM file become one name (`hpem_names_collide`).
* Tables: a frame of reactions whose ids are all ids of species is labelled and coloured as species
  (`reactions_taken_for_species`), and without annotations the first heading is blanked (`pretty_plain`); a special species
  that was passed a text such as `state` breaks the pretty table with a `ValueError` (`state_of_electron`); `elastic` given as
  text is shown as if it were not passed in the table without headings (`text_for_flag`); strings of one class can be padded to
  different lengths, and pandas prints them to the right (`strings_of_different_length`).
* LaTeX tables: texts are not escaped, so a source such as `J. Phys. D & B` makes two cells (`separator_splits`); a missing source
  is printed as `None` (`source_none`), an energy loss of 10 eV as 1 (`loss_of_ten`); the table of reactions uses the values of
  the reactions, not the ad-hoc values of the chemistry, and fails if an enabled reaction has no Arrhenius parameters
  (`reactions_table_refused`).
* Batches: `run_morris` drops the exceptions of its workers and returns normally with trajectories missing. This happens to all of
  them for the documented type `model_params` (`batch_silent`), and to single ones when a worker compares the meta data while
  another writes them (`trajectory_lost`). On a machine with one processor the default number of workers is 0, which the pool
  refuses after a directory was made (`call_result`).
* Coupling graph: after a species with ad-hoc return coefficients is disabled, the return matrix has one row and column too many
  and `ChemistryGraph` raises for every input (`disabled_adhoc_refused`). A dynamic reduction whose ranking function
  builds such graphs stops this way once it has removed such a species.
* Files of a reduction: an existing empty directory is accepted but gets no meta data, so the first removal raises
  `FileNotFoundError` (`empty_dir_never_reduces`); a constructor that finds no species to remove leaves a directory behind that
  blocks the id (`no_eligible_blocks_id`); the table of the history is rewritten in place, so a crash can lose all of it
  (`table_lost`); a run whose name cannot be resolved, e.g. for a species with a slash, is solved and then lost
  (`unlogged_run`).
* Cross sections of two ions use the mean speed of the first ion with the reduced mass of the pair, so they differ between the
  two directions by the ratio of the masses (`closest_approach_ratio`).
* Figure of reductions: `read_csv` takes a species called NaN (sodium nitride) for a missing value, so its dead end makes the
  annotated figure raise `AttributeError`, and a removed one has no name (`nan_species`); zeros in names are not lowered, C10
  becomes C₁0 (`zero_not_lowered`).
* Electron energy: losses do not cease at the temperature of the gas (the electron temperature is clipped there) and the
  artificial correction is bounded, so the electron energy of an exact solution can become negative (`energy_below_zero`).
* Stepping by hand with mixed `backtrack_if_over_max_error`: going back restores species that were removed by calls
  without backtracking, but `can_be_removed` keeps saying no for them (`mixed_flags`).
* `RP(..., state='')` is accepted without `stateless`, but `get_stateless` and `get_atoms` then raise; `mass=None` counts as a passed
  mass (`accepted_but_unusable`).
* The constructor of `Chemistry` does not look at the return species of a species with zero sticking coefficient; setting an ad-hoc
  sticking coefficient then raises, stays stored, and every later consistency check fails (`Net.InitDemo.breaks`).
* Configuration: a file that is not YAML raises `yaml.YAMLError`, not the documented `ConfigError` (`Config.load_spec`, C105).
* C108: `load_chemistry_attributes` with a file of another chemistry (for example one in which the electron is disabled) raises ChemistryConsistencyError only after the masks were overwritten; the chemistry is left inconsistent (`foreign_file`). Files dumped by chemistries with the same species and reactions never do this, even if the load raises (`no_new_states`).
* C109: a text that is no number is accepted for `arrh_b`, `arrh_c`, energies and integers of a reaction and only the getter raises (`accepted_but_unusable_rx`); for `arrh_a` it raises ValueError, not ReactionAttributeError (`unreadable_factor`). `special_number=None` satisfies the check that a rate is given.
* C111: the evaluation of a Morris run reads every trajectory directory there is and raises at the first without a meta file. A process killed (or a model run that raises) after the directory of its first run was made leaves such a directory; no later call completes or removes it, so the Morris run cannot be evaluated any more until it is removed by hand (`abandoned_forever`). The same happens after a batch with two workers that returned without an error (`lost_raises`, with C91), and after a batch of no trajectories (`empty_batch_raises`).
* C114: each species is tried only once, so the reduced chemistry of a reduction that has tried everything may contain a species that could be removed within the maximal error (`not_minimal`).
* C115: a reduction with a ranking function that uses the chemistry graph raises when the last species outside the targets has been removed and the run was accepted (`never_down_to_targets`); the chemistry is then not reset.
* C116: from the logs of a successful run with as many enabled reactions as heavy species no chemistry graph can be built (`Demo.no_graph_from_run`): the rates are labelled by species. A reduction guided by the graph raises there.
* C118: the ambipolar diffusivity and the sheath voltage are means over all enabled positive ions whatever their densities, so disabling an ion with no density changes the wall losses and the energy balance (`ion_lost_ambipolar`, `ion_lost_sheath`). Return coefficients towards a disabled species are dropped: the wall then swallows these particles.
* C119: for an elastic electron collision with two kinds of heavy reactants (e + A + B > e + A + B) the energy loss uses the mass of the reactant that comes first in the order of the species, so it depends on the order of the input (`order_matters_elastic`).
* C122: `set_adhoc_reactions_attributes` accepts a negative `arrh_a`, which `Reaction` refuses (`negative_factor_accepted`); species accept negative masses, sticking and return coefficients, also ad hoc. The equations are then not physical: densities may become negative.
* C131: `Model.run` is documented to return the final solution but returns nothing; `get_solution_final` has to be called. With as many enabled reactions as heavy species the final rates are labelled by species (`final_rates_mislabelled`).
* C132: `dump_chemistry_attributes` opens (and so empties) the yaml file before it collects the attributes; if the XML file of the chemistry is gone it raises and the previous dump is lost (`failed_dump_destroys`). Loading an empty yaml file raises `TypeError`, not `ChemistryAttributeError`.
* C134: in the table of results the density column of a species named `Te` (tellurium, an element both element lists of the code know) is overwritten by the electron temperature (`tellurium_lost`); the densities are then in no column.

## Trusted base

* Lean's kernel. No axioms of our own, no `sorry`/`admit`, no `native_decide`, no `bv_decide`, no `implemented_by`.
* Axioms: `#print axioms` of every theorem of MANIFEST.json gives at most `propext`, `Classical.choice`, `Quot.sound`
  (616 theorems: propext, Classical.choice, Quot.sound; 65 theorems: propext, Quot.sound; 14 theorems: propext; 6 theorems: no axioms).
* The faithfulness of the definitions to the cited lines of the Python source, with the simplifications stated in
  their comments, and of the statements to `properties.jsonl`.
* `seeded/LOG.jsonl` records edits of the model that resemble bugs, and which theorems stopped proving.

