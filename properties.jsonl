{"id": "C01", "title": "disable keeps exactly the largest surviving sub-network", "statement": "After a successful Chemistry.disable(species, reactions) the enabled species and reactions are exactly the largest sub-network of what was enabled before that avoids the requested items and in which every kept reaction has all its species kept and every kept species occurs in a kept reaction. Nothing that could have been kept is lost and nothing that must go is kept.", "quantifier": "every chemistry, every reachable enabled/disabled state and every request list", "why_tests_cant": "the cascade runs for a data-dependent number of rounds; maximality quantifies over all sub-networks", "anchors": ["plaschem/chemistry.py:Chemistry.disable", "plaschem/chemistry.py:Chemistry._disable_recursively"]}
{"id": "C02", "title": "protected species are never disabled", "statement": "Along any sequence of disable, reset and set_protected_species calls (successful or failing), a species that is enabled and protected stays enabled across every disable; the electron is enabled in every state of a charged chemistry.", "quantifier": "every chemistry and every finite history of calls", "why_tests_cant": "quantifies over histories and over cascades reaching the protected species indirectly", "anchors": ["plaschem/chemistry.py:Chemistry.disable", "plaschem/chemistry.py:Chemistry.set_protected_species", "plaschem/chemistry.py:Chemistry.reset"]}
{"id": "C03", "title": "a failing disable changes nothing", "statement": "If Chemistry.disable raises ChemistryDisableError, the enabled masks of species and reactions and both protection masks are exactly what they were before the call.", "quantifier": "every chemistry, state and request, every depth at which the cascade fails", "why_tests_cant": "failure can occur at any recursion depth after arbitrary partial updates", "anchors": ["plaschem/chemistry.py:Chemistry.disable"]}
{"id": "C04", "title": "a positive ion always survives and the last one becomes protected", "statement": "In every state of a charged chemistry reached by disable/reset/set_protected_species from a constructed chemistry at least one enabled species is a positive ion, and after a disable that removed something and left exactly one, no later disable can remove that ion.", "quantifier": "every chemistry and history of calls", "why_tests_cant": "invariant over unbounded histories", "anchors": ["plaschem/chemistry.py:Chemistry.disable", "plaschem/chemistry.py:Chemistry._disable_recursively"]}
{"id": "C05", "title": "exactly when disable succeeds", "statement": "disable succeeds if and only if nothing requested is currently enabled, or the requested ids contain no protected species, the cascade of forced removals contains no protected species and at least one positive ion survives the cascade. In particular the outcome does not depend on the order in which items are listed or on duplicates. Requesting an already disabled protected species together with an enabled one is refused although each request alone may be accepted.", "quantifier": "every chemistry, state and request list", "why_tests_cant": "characterises the outcome for all inputs, not for sampled ones", "anchors": ["plaschem/chemistry.py:Chemistry._disable_recursively"]}
{"id": "C06", "title": "disable is idempotent and order-independent", "statement": "Repeating a successful disable changes nothing; disabling A then B (both succeeding) yields the same enabled species and reactions as disabling A and B together, and as B then A when that succeeds too.", "quantifier": "every chemistry, state and pair of requests", "why_tests_cant": "confluence over all requests cannot be sampled", "anchors": ["plaschem/chemistry.py:Chemistry.disable"]}
{"id": "C07", "title": "disable preserves the consistency of the chemistry", "statement": "If a chemistry state satisfies assert_consistency, so does the state after any successful disable: the consistency check at the end of disable never raises, every species of an enabled reaction is enabled and every enabled species occurs in an enabled reaction.", "quantifier": "every consistent state and every request", "why_tests_cant": "an invariant over all reachable states", "anchors": ["plaschem/chemistry.py:Chemistry.assert_consistency", "plaschem/chemistry.py:Chemistry.disable"]}
{"id": "C08", "title": "reset undoes every disable", "statement": "Chemistry.reset re-enables every species and every reaction and drops the automatic protection, leaving user protection untouched; the state after any history followed by reset depends only on the user-protected set.", "quantifier": "every history of calls", "why_tests_cant": "quantifies over all histories preceding the reset", "anchors": ["plaschem/chemistry.py:Chemistry.reset"]}
{"id": "C09", "title": "the disable cascade terminates", "statement": "The recursion in disable finishes after at most (number of species + number of reactions + 1) rounds, for every chemistry and request.", "quantifier": "every chemistry and request", "why_tests_cant": "termination for all inputs", "anchors": ["plaschem/chemistry.py:Chemistry._disable_recursively"]}
{"id": "C10", "title": "an accepted reaction conserves charge and atoms", "statement": "A Reaction can be constructed from given species only if the charges (M not counted) and the counts of every atom balance between both sides, and a balanced, otherwise valid reaction is never rejected by the conservation check. The constructor accepts exactly the arguments that are sound: a positive id, one to three reactants, at least one product, a pre-exponential factor or a special number, no unknown attributes, units for exactly the parameters passed, a factor that is not negative with a unit that suits the number of reactants, an activation energy in eV for reactions with electrons and in K for all others, readable formulas and balance; the reaction keeps what was passed.", "quantifier": "all lists of reactants and products with arbitrary charges and atom compositions", "why_tests_cant": "quantifies over all compositions and list lengths", "anchors": ["plaschem/reactions.py:Reaction.assert_consistency", "plaschem/species.py:RP.get_atoms", "plaschem/species.py:RP.get_charge"]}
{"id": "C11", "title": "stoichiometric coefficients count occurrences", "statement": "get_stoich_coefs('lhs'/'rhs') lists every species of the side once, in order of first occurrence, with its multiplicity; 'net' lists every species of the reaction once with multiplicity among products minus multiplicity among reactants; any other method is an error. The sets of names and of ids of reactants, products or both have each value once, in order of first occurrence.", "quantifier": "all reactions, any repetition of species", "why_tests_cant": "all list lengths and repetition patterns", "anchors": ["plaschem/reactions.py:Reaction.get_stoich_coefs", "plaschem/reactions.py:Reaction.get_rp_ids_set"]}
{"id": "C12", "title": "net stoichiometry conserves charge and elements", "statement": "For every accepted reaction in which equal ids mean equal species, the net stoichiometric coefficients weighted by charge sum to zero, and weighted by the number of atoms of any element sum to zero.", "quantifier": "all accepted reactions and all elements", "why_tests_cant": "algebraic identity over all reactions", "anchors": ["plaschem/reactions.py:Reaction.get_stoich_coefs", "plaschem/reactions.py:Reaction.assert_consistency"]}
{"id": "C13", "title": "rate coefficients are non-negative and unit-consistent", "statement": "For every reaction with Arrhenius data and every positive temperature the rate coefficient is non-negative, it is zero only if the pre-exponential factor is zero, and the SI value equals the nominal value times the factor of its unit; accepted units always have a conversion factor matching the number of reactants. The nominal value is A T^B exp(-C/T) for reactions with an electron among the reactants and A (T/300)^B exp(-C/T) for all others, with B and C zero if not given, and there is no value without A.", "quantifier": "all reactions, temperatures and Arrhenius parameters", "why_tests_cant": "real-valued parameters and all unit/reactant-count combinations", "anchors": ["plaschem/reactions.py:Reaction.get_rate_coefficient", "plaschem/reactions.py:Reaction.get_arrh_a", "plaschem/reactions.py:Reaction.set_reaction_attribute"]}
{"id": "C14", "title": "the reaction key identifies reactions up to reordering", "statement": "Reaction.unique_key of a reaction string is unchanged by permuting reactants or products, and two reactions whose species names contain neither blanks nor '>' (which the species constructor forbids) get equal keys only if they have the same reactants and products up to order; with blanks inside names different reactions can share a key. The text of a reaction, read from left to right, gives its reactants and its products.", "quantifier": "all lists of names", "why_tests_cant": "string-level property for all names", "anchors": ["plaschem/reactions.py:Reaction.unique_key", "plaschem/reactions.py:Reaction.__str__"]}
{"id": "C15", "title": "default elastic flag", "statement": "A reaction without an explicit elastic attribute whose two sides are equal as multisets is always classified elastic; the converse fails because multiplicities are ignored (A + A + B > A + B + B is called elastic although its net stoichiometry is not zero), and it holds when no species is repeated on a side.", "quantifier": "all reactions", "why_tests_cant": "quantifies over all multisets of species", "anchors": ["plaschem/reactions.py:Reaction.get_elastic"]}
{"id": "C16", "title": "charge suffix stripping", "statement": "RP.strip_charge only removes a suffix of the name: a maximal trailing run of signs, or one sign followed by digits, or nothing when the name has neither ending; it maps X+, X-, X++ to X when X does not end in a sign and X+2, X-12 to X for every X. Stripping is not idempotent in general (Ar++2).", "quantifier": "all strings", "why_tests_cant": "regex semantics over all strings", "anchors": ["plaschem/species.py:RP.strip_charge"]}
{"id": "C17", "title": "surface defaults of species", "statement": "Without explicit values, the sticking coefficient is 0 and the return coefficients empty exactly for ground-state neutrals, and otherwise 1 with a single return product of coefficient 1; electron and M have none; explicit values always win.", "quantifier": "all species", "why_tests_cant": "covers all combinations of optional attributes", "anchors": ["plaschem/species.py:RP.get_stick_coef", "plaschem/species.py:RP.get_ret_coefs"]}
{"id": "C18", "title": "species filters select exactly the requested species", "statement": "get_species(special, protected, disabled) returns, in construction order and without duplicates, exactly the species that pass all filters; every per-species getter (names, charges, masses, formation enthalpies, Lennard-Jones parameters, sticking coefficients, ids) with the same filters has the same index in the same order and at each id the own value of that species, stored or default; the masses are refused exactly if a selected species other than M has none. (The getter of return coefficients can have further entries, see C21.)", "quantifier": "all chemistries, states and flag combinations", "why_tests_cant": "all states and all attribute getters", "anchors": ["plaschem/chemistry.py:Chemistry.get_species_mask", "plaschem/chemistry.py:Chemistry.get_species"]}
{"id": "C19", "title": "ad-hoc attributes override and can be reset", "statement": "After set_adhoc_species_attributes / set_adhoc_reactions_attributes the corresponding getter returns the new value for that item (converted to SI for pre-exponential factors) and unchanged values for all others, later settings win, and resetting restores the nominal values.", "quantifier": "all chemistries and histories of set/reset calls", "why_tests_cant": "histories of arbitrary length", "anchors": ["plaschem/chemistry.py:Chemistry.set_adhoc_species_attributes", "plaschem/chemistry.py:Chemistry.reset_adhoc_species_attributes", "plaschem/chemistry.py:Chemistry.set_adhoc_reactions_attributes"]}
{"id": "C20", "title": "shape of the stoichiometric matrix", "statement": "get_stoichiomatrix has one row per enabled reaction and one column per enabled non-special species, entry (r,s) is the multiplicity (lhs, rhs or rhs minus lhs) of s in r, so the net matrix is the difference of the other two and its element- and charge-weighted rows are determined by the electron column.", "quantifier": "all chemistries and enabled states", "why_tests_cant": "matrix identity for all networks", "anchors": ["plaschem/chemistry.py:Chemistry.get_stoichiomatrix", "plaschem/chemistry.py:Chemistry.get_reactions_stoich_coefs_electron"]}
{"id": "C21", "title": "return coefficients stay inside the enabled network", "statement": "The return coefficients handed out by the chemistry never name a disabled species; without stored ad-hoc return coefficients for filtered-out species they carry exactly one entry per selected species, and the return matrix then is square with entry (i,j) the number of particles i returned per stuck particle j; an ad-hoc return coefficient stored for a species that is disabled later adds a spurious extra entry.", "quantifier": "all chemistries, enabled states and ad-hoc settings", "why_tests_cant": "interaction of histories of ad-hoc settings and disables", "anchors": ["plaschem/chemistry.py:Chemistry.get_species_ret_coefs", "plaschem/chemistry.py:Chemistry.get_return_matrix"]}
{"id": "C22", "title": "dump and load restore the chemistry state", "statement": "Loading a dumped attribute file into a chemistry with the same species and reactions restores enabled species and reactions, protection and ad-hoc attributes, provided no stored ad-hoc return coefficient names a disabled species; otherwise load raises and leaves the masks already overwritten.", "quantifier": "all states reachable by disable/protect/ad-hoc calls", "why_tests_cant": "round trip over all states", "anchors": ["plaschem/chemistry.py:Chemistry.dump_chemistry_attributes", "plaschem/chemistry.py:Chemistry.load_chemistry_attributes"]}
{"id": "C23", "title": "a copied chemistry is equal and independent", "statement": "copy returns a chemistry with the same enabled, protected and ad-hoc state; later operations on either do not affect the other. Copying fails for a neutral chemistry that has no electrons or ions, because the copy is built as a charged chemistry.", "quantifier": "all states and all later histories", "why_tests_cant": "aliasing freedom over all later histories", "anchors": ["plaschem/chemistry.py:Chemistry.copy", "pygmo_fwork/pygmol/neutral_model.py:NeutralChemistry"]}
{"id": "C24", "title": "setting ad-hoc return coefficients is rejected or consistent", "statement": "An accepted ad-hoc return-coefficient dictionary only names enabled species; a call rejected because a name is unknown leaves the state unchanged.", "quantifier": "all states and dictionaries", "why_tests_cant": "all dictionaries and states", "anchors": ["plaschem/chemistry.py:Chemistry.set_adhoc_species_attributes"]}
{"id": "C25", "title": "volumetric chemistry conserves elements", "statement": "For any densities, electron temperature and rate coefficients, the volumetric source terms weighted by the number of atoms of an element sum to zero for every element (no mass appears or disappears in the gas phase).", "quantifier": "all reaction networks made of accepted reactions, all densities and rate coefficients", "why_tests_cant": "linear-algebra identity over all states and networks", "anchors": ["pygmo_fwork/pygmol/equations.py:Equations.get_volumetric_source_rates", "plaschem/chemistry.py:Chemistry.get_stoichiomatrix"]}
{"id": "C26", "title": "volumetric chemistry conserves charge", "statement": "For any state, the heavy-species volumetric sources weighted by charge equal the electron production rate implied by the net electron coefficients of the reactions.", "quantifier": "all networks and states", "why_tests_cant": "identity over all states", "anchors": ["pygmo_fwork/pygmol/equations.py:Equations.get_volumetric_source_rates", "plaschem/chemistry.py:Chemistry.get_reactions_stoich_coefs_electron"]}
{"id": "C27", "title": "flow terms", "statement": "With neutrals present, the total heavy-particle flow source vanishes exactly at the set pressure (outflow equals feed inflow), is negative above and positive below it. All neutral species without feed flow in proportion to their density with one common factor, which removes them at or above the set pressure; ions without feed do not flow.", "quantifier": "all densities, feeds and pressures", "why_tests_cant": "real-valued identity", "anchors": ["pygmo_fwork/pygmol/equations.py:Equations.get_flow_source_rates"]}
{"id": "C28", "title": "wall diffusion conserves particles that return", "statement": "For non-negative densities, positive electron density and weak Coulomb coupling every wall-diffusion sink is non-positive. Weighted by any quantity (atoms of an element, mass), sinks plus returned sources remove exactly what is not returned; nothing if each sticking species returns products carrying its own content. With the default diffusion model a non-sticking negative ion makes the wall flux 0/0.", "quantifier": "all densities, sticking and return coefficients", "why_tests_cant": "identity over all matrices", "anchors": ["pygmo_fwork/pygmol/equations.py:Equations.get_diffusion_sinks", "pygmo_fwork/pygmol/equations.py:Equations.get_diffusion_source_rates", "pygmo_fwork/pygmol/equations.py:Equations.get_wall_fluxes"]}
{"id": "C29", "title": "densities are not driven negative", "statement": "If all densities are non-negative, there are electrons, Coulomb coupling is weak and the density of a species is zero, then its time derivative is positive. Hence exact solutions that start positive stay positive as long as the equations stay defined.", "quantifier": "all non-negative states with a vanishing component and all networks", "why_tests_cant": "sign condition for all states", "anchors": ["pygmo_fwork/pygmol/equations.py:Equations.get_dn_dt", "pygmo_fwork/pygmol/equations.py:Equations.get_min_n_correction", "pygmo_fwork/pygmol/equations.py:Equations.get_objective_functions"]}
{"id": "C30", "title": "minimum-density correction", "statement": "The artificial minimum-density source is zero for every species at or above the threshold density and strictly positive below it.", "quantifier": "all densities", "why_tests_cant": "case split over reals", "anchors": ["pygmo_fwork/pygmol/equations.py:Equations.get_min_n_correction"]}
{"id": "C31", "title": "electron density and temperatures", "statement": "The electron density used by the model balances the charge of the heavy species exactly. The electron temperature is never below the gas temperature and, when above it, satisfies rho = 3/2 n_e T_e. The ion temperature lies between the gas temperature and 0.5 eV, falls with pressure and has no jump at 1 mtorr.", "quantifier": "all density vectors", "why_tests_cant": "all states", "anchors": ["pygmo_fwork/pygmol/equations.py:Equations.get_electron_density", "pygmo_fwork/pygmol/equations.py:Equations.get_electron_temperature", "pygmo_fwork/pygmol/equations.py:Equations.get_ion_temperature"]}
{"id": "C32", "title": "power profile", "statement": "The interpolated external power is continuous, stays between the smallest and largest prescribed power, hits the prescribed values at the prescribed strictly increasing times and is linear between them. De-duplication of equal times moves no time by more than one shift in a float array, leaves strictly increasing times alone, separates pairs of equal times; three equal times are always rejected. With an integer time array a time is moved by up to one whole second (defect).", "quantifier": "all power profiles and times", "why_tests_cant": "piecewise-linear interpolation over all profiles", "anchors": ["pygmo_fwork/pygmol/equations.py:Equations.get_power_ext", "pygmo_fwork/pygmol/equations.py:Equations.__init__"]}
{"id": "C33", "title": "initial densities respect pressure and ionisation degree", "statement": "The generated initial densities sum to p/(kT) if every fed species is neutral and there is a neutral species; the electron density is the requested ionisation degree times the total density if there is a positive ion; all densities are non-negative if the requested fractions fit into the total density; and what is generated is accepted by the validation and read back into the same vector. (With a fed ion the pressure is wrong: witness.)", "quantifier": "all chemistries and parameters", "why_tests_cant": "identity over all feeds", "anchors": ["pygmo_fwork/global_model.py:GlobalModel.generate_initial_n", "pygmo_fwork/pygmol/model.py:Model._build_y0"]}
{"id": "C34", "title": "widest paths", "statement": "find_max_bottleneck_paths returns for every source the maximum over all directed paths to the target of the minimum edge weight, together with a path that attains it, independent of the order in which ties are broken; unreachable nodes get width zero and no path.", "quantifier": "all finite weighted graphs, targets and tie-breaking orders", "why_tests_cant": "optimality over all paths and schedules", "anchors": ["pygmo_fwork/optichem/graph.py:Graph.find_max_bottleneck_paths"]}
{"id": "C35", "title": "shortest paths", "statement": "find_shortest_paths returns for every source the minimum total length of a path to the target and a path attaining it for non-negative lengths, independent of tie-breaking.", "quantifier": "all finite graphs with non-negative lengths", "why_tests_cant": "optimality over all paths", "anchors": ["pygmo_fwork/optichem/graph.py:Graph.find_shortest_paths"]}
{"id": "C36", "title": "maximum flow", "statement": "get_max_flow terminates without an error for every graph with non-negative capacities and every source in the graph; its value is the value of a flow, no flow has a larger value, it equals the capacity of a cut, it does not depend on the order of iteration of the sets, and it is zero if source equals target. (A species without edges raises KeyError: witness.)", "quantifier": "all finite graphs, all non-negative capacities (not only integers) and all iteration orders", "why_tests_cant": "max-flow/min-cut optimality", "anchors": ["pygmo_fwork/optichem/graph.py:Graph.get_max_flow"]}
{"id": "C37", "title": "coupling coefficients are normalised", "statement": "For non-negative rates distribute_weights succeeds with all four methods and yields one graph per important time. The DRG weight of an edge B -> A is the turnover of A in reactions involving B (and by B at the walls) over the total turnover of A; the DRGEP weight is the net change of A by reactions involving B over the larger of total production and consumption; both lie in (0,1]. With DRG an edge is missing exactly if there is no such turnover; with DRGEP, DRG1 and DRG2 a species in exact balance loses all its incoming edges (witness), and weights of DRG1 can exceed one (witness).", "quantifier": "all rates and networks", "why_tests_cant": "inequalities over all real rates", "anchors": ["pygmo_fwork/optichem/graph.py:ChemistryGraph.distribute_weights"]}
{"id": "C38", "title": "species ranking", "statement": "The ranking lists every species that is neither important nor special exactly once, in ascending order of its score with nan last; the score is the maximum, over all important species and times, of the largest bottleneck, inverse path length, product of weights or flow among all paths (flows) from the species to the important species. It does not depend on the iteration order of sets. (Findings: a species without any edge gets nan and is ranked last, i.e. as most important; two times equal in the 4-digit label overwrite each other; max_product fails for weights above one and yields nan for a product of exactly one; max_flow fails for species without edges.)", "quantifier": "all graphs, important species, times and search methods", "why_tests_cant": "all inputs", "anchors": ["pygmo_fwork/optichem/graph.py:ChemistryGraph.get_ranking"]}
{"id": "C39", "title": "compression keeps the ends and a subsequence", "statement": "compress_solution returns a subsequence of the rows containing the first and the last row; a second compression of the (re-indexed) result changes nothing.", "quantifier": "all solution frames and thresholds", "why_tests_cant": "loop invariant over all frames", "anchors": ["pygmo_fwork/results.py:ResultsParser.compress_solution"]}
{"id": "C40", "title": "compression drops only redundant rows", "statement": "Every dropped row is, compared with the last retained row before it, within the time-step threshold or within the relative threshold in every column; consecutive retained rows (the last excepted) differ by more than the thresholds; this determines the result uniquely. For non-decreasing times the number of retained rows is at most 2 + (t_last - t_first)/(t_last*min_timestep). (Findings: a column that is exactly zero blocks the relative criterion; negative values are never seen as different; a frame without the default index raises KeyError.)", "quantifier": "all frames and thresholds", "why_tests_cant": "invariant over all frames", "anchors": ["pygmo_fwork/results.py:ResultsParser.compress_solution"]}
{"id": "C41", "title": "reduction error measures", "statement": "The maximal error is zero exactly if all important outputs of both solutions agree at all important times; errors are invariant under a common positive scaling; 0 <= rms error <= maximal error; a maximal error x means that every important output differs by at most x times the mean of its full value and the maximum of the full values, hence by at most x times that maximum. Values between rows are interpolated linearly. Conversely the maximal error is at most the rms error times the square root of the number of values compared (outputs times times), and this bound is attained.", "quantifier": "all pairs of solutions with increasing times, outputs and times in range", "why_tests_cant": "real-valued inequalities", "anchors": ["pygmo_fwork/optichem/errors.py:SolutionsDiff"]}
{"id": "C42", "title": "the reduction loop terminates and tries each species once", "statement": "run_reduction finishes with exactly one result (a value or an exception) for every ranking and every behaviour of the model backend; every species is tried at most once and only if it is enabled, neither special nor protected, and not important; the loop ends only after max_unsuccess_streak + 1 rejections since the last accepted removal, when no eligible species is left, or when the ranking has nothing untried; runs that fail and removals the chemistry refuses do not count as rejections. If the backend and the error measure raise nothing unexpected, the only exception the loop can raise is a KeyError, and only when the removal of a species takes an important output with it. (Findings: that KeyError does occur; a negative threshold gives an IndexError.)", "quantifier": "all rankings (fixed and dynamic), chemistries and backend outcomes", "why_tests_cant": "all backend behaviours", "anchors": ["pygmo_fwork/optichem/reduction.py:run_reduction", "pygmo_fwork/optichem/reduction.py:ReductionIterator.remove_one_species_and_run"]}
{"id": "C43", "title": "the current chemistry is the last accepted one", "statement": "At every iteration of the reduction loop (no solution has nan as its error against the base case, threshold not negative) the chemistry agrees with that of the last row of the history whose error is within the threshold, in its enabled species and reactions, protection and ad-hoc attributes; the run of that row was made with it and its error against the base case is within the threshold; only eligible species have been removed and every important output is still there; at the end of the reduction the chemistry is as before it. Every row of the history tells the truth: the species removed with the one that was tried, how many are left and how many have been removed. (Finding: a nan error is accepted unchecked, and the next rejection silently brings the removed species back.)", "quantifier": "all sequences of backend outcomes, rankings and networks", "why_tests_cant": "invariant over all schedules of successes and failures", "anchors": ["pygmo_fwork/optichem/reduction.py:run_reduction"]}
{"id": "C44", "title": "Morris trajectories", "statement": "Every Morris trajectory from a seed on the grid succeeds for two or more factors, yields one point per factor after the seed, changes exactly one factor by exactly the step (up or down) between consecutive points, changes each factor exactly once and stays on the grid, strictly inside (0,1); the seed is the grid point nearest to the drawn value. With the settings in the code the direction of every step is determined by the seed. (Finding: for settings whose grid is not representable in five decimals the rounding leaves the grid.)", "quantifier": "all numbers of factors, seeds, permutations and sign orders; all settings that pass the constructor's checks and whose cells are multiples of 1e-5", "why_tests_cant": "all random choices", "anchors": ["pygmo_fwork/optichem/morris.py:Morris._trajectory", "pygmo_fwork/optichem/morris.py:Morris._get_seed_x"]}
{"id": "C45", "title": "Morris perturbations are neutral at the centre", "statement": "A Morris perturbation of the rate coefficients sets every present reaction's Arrhenius prefactor to its nominal value times the factor: twice the reaction's own factor for a 'reactions' trajectory, the product of twice the factor over the distinct ordinary species taking part (as reactant or product) for a 'species' trajectory; factor value 1/2 leaves it unchanged, a reaction is affected only by the factors of the species taking part in it, and the perturbed coefficient is between 0 and 2^m times the nominal one for m species taking part. Nothing else in the chemistry changes, and the values do not depend on the perturbations applied before.", "quantifier": "all networks, reachable chemistry states, factor values and earlier perturbations", "why_tests_cant": "all inputs", "anchors": ["pygmo_fwork/optichem/morris.py:Morris._map_species_factors_to_k", "pygmo_fwork/optichem/morris.py:Morris._map_reactions_factors_to_k"]}
{"id": "C46", "title": "perturbed return coefficients conserve particles", "statement": "Mapping a Morris factor to a return coefficient, when it succeeds, sets that coefficient to nominal*range^(2x-1), compensates it in the coefficient with which the stuck species returns itself (never negative), so keeps the number of returned particles, and touches nothing else; it is the identity at x=1/2 and stays within the relative range. After any sequence of mappings each coefficient depends only on the last factor of its pair: there is no drift. (Finding: for a species that does not return itself, every trajectory varying one of its coefficients fails, since each factor exceeds 1/2 at some point of every trajectory.)", "quantifier": "all networks, reachable chemistry states, sequences of factors", "why_tests_cant": "real-valued identity", "anchors": ["pygmo_fwork/optichem/morris.py:Morris._map_a_factor_to_ret_coef"]}
{"id": "C47", "title": "trajectory identifiers never collide", "statement": "The identifier given to a new trajectory is the lowest free index from 1 to 998 (free: no finished trajectory has it), and none is found only if all 998 are finished; a batch gets as many identifiers as asked for, all distinct, none of a finished trajectory, and the lowest such; different indices give different names.", "quantifier": "all directory contents, all batch sizes", "why_tests_cant": "all histories of earlier runs", "anchors": ["pygmo_fwork/optichem/morris.py:Morris._get_next_traj_id"]}
{"id": "C48", "title": "ids assigned by the XML builder", "statement": "Whatever was added before, assigning ids succeeds and changes nothing but ids: the electron gets 0, M gets 999, any other species one more than the number of ordinary species before it, and the reactions 1 to n. Reaction ids are distinct; species ids are distinct exactly if there are fewer than 999 ordinary species or there is no M (with more, a collision: witness for every number).", "quantifier": "all histories of calls on the builder with named species", "why_tests_cant": "all sizes and histories", "anchors": ["plaschem/xml_inputs.py:XmlBuilder.assign_species_ids", "plaschem/xml_inputs.py:XmlBuilder.assign_reactions_ids", "plaschem/xml_inputs.py:XmlBuilder.assign_ids"]}
{"id": "C49", "title": "one species of each name in the XML builder", "statement": "After any history of additions from attributes, instances, reactions, chemistries and files, of sorting, id assignment and reset, including calls that raised, no two species of the builder have the same name. Adding a species explicitly is refused, without effect, exactly if its name is there; species that come with a reaction or a file are skipped if their name is there. Unless reactions were taken from a file, every reaction names only species that are there.", "quantifier": "all histories of calls with named species", "why_tests_cant": "histories, including exceptions in between", "anchors": ["plaschem/xml_inputs.py:XmlBuilder.add_rp_from_attributes", "plaschem/xml_inputs.py:XmlBuilder.add_rp_from_instance", "plaschem/xml_inputs.py:XmlBuilder.add_reaction_from_attributes", "plaschem/xml_inputs.py:XmlBuilder.add_reaction_from_instance", "plaschem/xml_inputs.py:XmlBuilder.add_chemistry_from_instance", "plaschem/xml_inputs.py:XmlBuilder.add_chemistry_from_xml"]}
{"id": "C50", "title": "XML round trip", "statement": "Species and reactions that are constructed and changed through their setters, added to a builder, written to a file and parsed, come back: same ids in the same order, the same answer of every getter that had one (name, state, mass, charge, coefficients, rates in both unit systems, elasticity, LaTeX, ...), the same units, the same reactants and products. For a chemistry, the species that take part in a reaction come back in the order of the chemistry. Required: names without commas, surrounding spaces or angle brackets, no attribute that is an empty string, a mass, a stateless name if there is a state, a rate or special number (each requirement with a witness that it is needed).", "quantifier": "all species and reaction instances reachable through constructors and setters, all lists of them, all number formats with exact round trip", "why_tests_cant": "round trip for all inputs", "anchors": ["plaschem/xml_inputs.py:XmlBuilder.dump_xml", "plaschem/xml_inputs.py:XmlParser", "plaschem/species.py:RP", "plaschem/reactions.py:Reaction"]}
{"id": "C51", "title": "classification and the listing by class", "statement": "The class of a reaction belongs to the scheme, is the one whose English description (numbers of electrons, charges, states and composition on both sides) the reaction meets, and depends only on the multisets of reactants and products, the elastic flag and the energy loss. Classification raises exactly for reactions with only electrons as reactants, for two ions of like sign, and for an ion and a neutral with two charged products. After any history of sorting, listing and printing, the listing can be made iff every reaction is classifiable and then contains every reaction exactly once, under its class, in the current order of reactions, types and categories in the order of the scheme and none of them empty.", "quantifier": "all reactions accepted by the constructor; all lists of species and reactions and all histories of calls on the classifier", "why_tests_cant": "decision logic over all reactions, memo tables over all histories", "anchors": ["plaschem/classification.py:ReactionClassifier._classify", "plaschem/classification.py:ReactionClassifier.get_classified_reactions"]}
{"id": "C52", "title": "sorting species and reactions", "statement": "After any history of calls, sorting the reactions succeeds and gives the stable order by the positions of their reactants and then products in the current species list; sorting the species gives, if all keys exist, the stable ascending order of keys and otherwise changes nothing. For species with at most three known elements, counts up to 9 and charges up to 9, keys exist and their order is: electron, fewer elements, smaller atomic number and count of the first, second, third element, ground state before excited, neutral before positive before negative; M last.", "quantifier": "all species and reaction lists, all formula parsers, all histories", "why_tests_cant": "an order over all species; memo tables over all histories", "anchors": ["plaschem/classification.py:ReactionClassifier._get_species_sort_key", "plaschem/classification.py:ReactionClassifier.sort_species", "plaschem/classification.py:ReactionClassifier.sort_reactions"]}
{"id": "C53", "title": "parameter lookup by alternative names", "statement": "The value passed last for a model parameter, under any of its names, is returned by lookups under every one of its names; lookups under any other name, and constructions with any other name, are errors. (A parameter passed twice under different names is accepted silently, the last one wins.)", "quantifier": "all parameter sets and keys", "why_tests_cant": "all keys and values", "anchors": ["pygmo_fwork/pygmol/model_parameters.py:ModelParameters.__getitem__"]}
{"id": "C54", "title": "accepted model parameters are usable", "statement": "If ModelParameters accepts its input, all scalar parameters are positive, feed values are positive, power values are non-negative, power and time series have the same length (at least two) and the times start at or before 0 and end at least ten percent after the end of the simulation. Conversely a dictionary that passes each parameter under one of its names, with values of the right types that meet these conditions, is accepted, in whichever order.", "quantifier": "all parameter dictionaries", "why_tests_cant": "validation over all inputs", "anchors": ["pygmo_fwork/pygmol/model_parameters.py:ModelParameters.__init__"]}
{"id": "C55", "title": "results never come from a stale run", "statement": "Data returned by any getter of GlobalModel come from the last call of run, which was successful and after which the parameters were not reloaded; after a failed run and before any run every getter raises. (The backend alone does return stale data after a failed run, and a failed reload leaves an object reporting success: witnesses.)", "quantifier": "all histories of runs with any outcome, modifications of the chemistry, reloads and getter calls", "why_tests_cant": "state machine over all histories", "anchors": ["pygmo_fwork/global_model.py:GlobalModel.run"]}
{"id": "C56", "title": "HPEM reaction strings", "statement": "The backward HPEM string of a reaction is the forward string of the reaction with reactants and products exchanged, and the strings exist exactly if every species has an HPEM name.", "quantifier": "all reactions", "why_tests_cant": "all reactions", "anchors": ["plaschem/reactions.py:Reaction.get_hpem_string"]}
{"id": "C57", "title": "the right-hand side is a function of time and state", "statement": "Whatever methods of the equations object were called before, in whatever order and with whatever arguments, and whatever the uninitialised work arrays contained, the objective function returns the same value for the same time and state.", "quantifier": "all data, call histories, initial array contents, times and states", "why_tests_cant": "work arrays are shared and partly filled in __init__; a stale-cache error shows up only for particular call histories", "anchors": ["pygmo_fwork/pygmol/equations.py:Equations.get_objective_functions", "pygmo_fwork/pygmol/equations.py:Equations.__init__"]}
{"id": "C58", "title": "diagnostics report what the solver used", "statement": "Source rates reported by the methods called with the state only (as the diagnostics of a finished run do) are exactly the ones whose sum is the right-hand side that the solver integrates.", "quantifier": "all data, call histories, times and states", "why_tests_cant": "two ways of calling each method (with or without intermediate results) have to agree in every state", "anchors": ["pygmo_fwork/pygmol/equations.py:Equations.get_objective_functions", "pygmo_fwork/pygmol/model.py:Model.diagnose"]}
{"id": "C59", "title": "element and electron balance of the whole right-hand side", "statement": "Above the density floor the atoms of an element change only by the flow terms, if the wall returns what it takes; the electron density changes only by what the reactions produce and what the charge lost at the wall takes with it, if only neutral gas is fed.", "quantifier": "all networks reachable by disabling and resetting, all states, elements and call histories", "why_tests_cant": "a statement about sums over all species and reactions of arbitrary networks", "anchors": ["pygmo_fwork/pygmol/equations.py:Equations.get_dn_dt", "plaschem/chemistry.py:Chemistry.get_stoichiomatrix"]}
{"id": "C60", "title": "elastic collisions never heat electrons", "statement": "The electron energy loss per elastic collision is non-negative in every state.", "quantifier": "all data, states and call histories", "why_tests_cant": "must hold for every temperature and mass combination", "anchors": ["pygmo_fwork/pygmol/equations.py:Equations.get_el_en_losses"]}
{"id": "C61", "title": "the right-hand side is defined on physical states", "statement": "No denominator of the right-hand side vanishes if no density is negative, each species has a partner to collide with, there are electrons and neutrals, Coulomb collisions are weak, the chemistry has a positive ion, species have a size and (default diffusion model) negative ions stick.", "quantifier": "all physical data and states", "why_tests_cant": "a division by zero in a single component occurs in exceptional states only", "anchors": ["pygmo_fwork/pygmol/equations.py:Equations.get_objective_functions", "pygmo_fwork/pygmol/equations.py:Equations.get_mean_free_paths"]}
{"id": "C62", "title": "electron energy budget", "statement": "If the wall returns neutral species only and positive ions are heavy, the wall terms never heat the electrons; with non-negative inelastic energy losses the energy density above its floor grows at most by the external power density minus 3/2 T_e per electron produced. (Consuming electrons without power raises the energy density: the creation/destruction term has a questionable sign.)", "quantifier": "all physical data, states, times and call histories", "why_tests_cant": "signs of sums over arbitrary networks and states", "anchors": ["pygmo_fwork/pygmol/equations.py:Equations.get_drho_dt", "pygmo_fwork/pygmol/equations.py:Equations.get_drho_dt_el_walls", "pygmo_fwork/pygmol/equations.py:Equations.get_drho_dt_ions_walls", "pygmo_fwork/pygmol/equations.py:Equations.get_drho_dt_gain_loss"]}
{"id": "C63", "title": "results are labelled by what they belong to", "statement": "Right after a successful run the solution and the wall fluxes are labelled by the enabled species and the rates by the ids of the enabled reactions, if there are at least two species, the number of reactions is not 1 and differs from the number of species. (Otherwise the run fails or rates are labelled as species; and a modification of the chemistry after the run mislabels the fluxes: witnesses.)", "quantifier": "all chemistries and solutions", "why_tests_cant": "the labelling depends on coincidences of counts", "anchors": ["pygmo_fwork/pygmol/model.py:Model.diagnose", "pygmo_fwork/pygmol/model.py:Model._post_process"]}
{"id": "C64", "title": "the parts of a graph agree", "statement": "A graph built by adding edges with positive weights has as nodes the ends of the edges, and its edge set, successors, predecessors and edge attributes all describe exactly the added edges with their weights; non-positive weights are refused.", "quantifier": "all lists of edges", "why_tests_cant": "consistency of redundant data structures for all construction histories", "anchors": ["pygmo_fwork/optichem/graph.py:Graph.add_edge", "pygmo_fwork/optichem/graph.py:Graph.update_edge_attributes"]}
{"id": "C65", "title": "finished trajectories are complete, immutable and unique", "statement": "In a directory shared by any number of processes that run Morris trajectories with equally many digits in their numbers of factors, interleaved in any way and killed at any point: a trajectory that has its meta file filled lists exactly the runs, steps and factors of one call and holds the solutions of all runs that call computed; no later action of any process changes it; every call that returns leaves such a trajectory, and no two calls return with the same trajectory. (Finding: with different numbers of digits two concurrent calls can finish in the same directory, the later one overwriting the meta file of the earlier one.)", "quantifier": "all interleavings of all numbers of processes, all crash points, all jobs", "why_tests_cant": "the number of schedules and crash points is unbounded", "anchors": ["pygmo_fwork/optichem/morris.py:MorrisMethod.run_trajectory", "pygmo_fwork/optichem/morris.py:MorrisMethod._prepare_logging", "pygmo_fwork/optichem/morris.py:MorrisMethod._log_solution"]}
{"id": "C66", "title": "trajectories run one after another are coherent", "statement": "If calls that add trajectories to a Morris run do not overlap in time and are not killed, all trajectories that finish have the same chemistry, parameters, trajectory type and backend (up to case); a call with a different configuration never finishes, and a call that is undisturbed, coherent with the run so far, whose model runs succeed and whose directory is new or empty, does finish. (Findings: overlapping calls and calls killed between the two meta files let incoherent trajectories into one run; a call killed while dumping the run's meta data blocks the run for ever; so does a backend name in upper case after the first trajectory; an abandoned trajectory directory blocks the automatic identifier.)", "quantifier": "all sequences of calls", "why_tests_cant": "all histories of calls", "anchors": ["pygmo_fwork/optichem/morris.py:MorrisMethod._assert_coherence", "pygmo_fwork/optichem/morris.py:MorrisMethod._dump_meta", "pygmo_fwork/optichem/morris.py:MorrisMethod.run_trajectory"]}
{"id": "C67", "title": "elementary effects are single-factor difference quotients", "statement": "Evaluating a logged trajectory yields for every output and time exactly one elementary effect per factor; it is the difference quotient of the output between two consecutive runs that differ in that factor only, and the effects times the logged steps add up to the change of the output over the trajectory.", "quantifier": "all models, trajectories that change each factor once, outputs and times in range", "why_tests_cant": "any model function and any trajectory", "anchors": ["pygmo_fwork/optichem/morris.py:MorrisMethod.evaluate_trajectory"]}
{"id": "C68", "title": "Morris statistics", "statement": "The mean output is the mean over trajectories of the mean over their runs; mu (sigma) of a factor is the mean (sample standard deviation) of exactly one elementary effect per trajectory. For an output affine in a factor mu is its slope and sigma is zero; mu never exceeds a Lipschitz constant of the output in that factor; sigma is zero only if the effect is the same in all trajectories.", "quantifier": "all models, all sets of trajectories", "why_tests_cant": "any model function and any number of trajectories", "anchors": ["pygmo_fwork/optichem/morris.py:MorrisMethod.get_morris_stats"]}
{"id": "C69", "title": "ranking of Morris factors", "statement": "From two or more trajectories the ranking lists every factor exactly once, in ascending order of the documented score (mean or max); with positive mean outputs a factor that has no influence on the important outputs at the important times comes before every factor with a nonzero elementary effect on one of them; the ranking does not depend on the units of the outputs. (Findings: from a single trajectory the default method gives nan for all factors; for outputs with a negative mean sigma counts negatively, so an influential factor can come before an inert one.)", "quantifier": "all models, all sets of trajectories, both methods, all lists of outputs and times", "why_tests_cant": "any model function, any sample", "anchors": ["pygmo_fwork/optichem/morris.py:MorrisMethod.get_ranking"]}
{"id": "C70", "title": "printed reactions of one category line up", "statement": "If reactions are sorted only before the first string is asked for, then the strings of any two reactions of one category have equal length and show the names of their reactants (a permutation of them) and products starting in the same columns, whatever is called in between; after a listing a string is available for every reaction as long as nothing is sorted. (Sorting again after printing breaks the alignment: witness.)", "quantifier": "all species and reaction lists and all histories of calls", "why_tests_cant": "stale caches show up only in particular histories", "anchors": ["plaschem/classification.py:ReactionClassifier.get_aligned_reaction_string"]}
{"id": "C71", "title": "sorting the elements of an XML input", "statement": "For elements with distinct ids in canonical notation that parse, have sort keys and can be classified, sort_elements succeeds and only permutes: the species are in the order of the classifier, the reactions by class in the order of the scheme and within a class by the positions of their reactants and products. With duplicate ids the outcome is that of assigning ids, sorting, and assigning again. (An id such as 07 makes it raise: witness.)", "quantifier": "all builders", "why_tests_cant": "orders over all inputs", "anchors": ["plaschem/xml_inputs.py:XmlBuilder.sort_elements"]}
{"id": "C72", "title": "reported contributions add up to the derivative", "statement": "For every chemistry in any reachable state, any equations built from it, any point, time and history of evaluations: for every enabled heavy species the sum of all reported volumetric rates and surface rates, the flow term and the density floor correction is the time derivative the solver integrates. For the electron the volumetric rates add up to the electron production that enters the energy equation and there are no surface rates. Printed production plus printed consumption is the total.", "quantifier": "all chemistries and histories of their modification, all equations, points, times, histories of evaluations, all ways to refer to a species", "why_tests_cant": "an identity between two separately coded computations, over all inputs and real numbers", "anchors": ["pygmo_fwork/results.py:ResultsParser.get_volumetric_rates", "pygmo_fwork/results.py:ResultsParser.get_surface_rates", "pygmo_fwork/pygmol/equations.py"]}
{"id": "C73", "title": "volumetric and surface rates of a species", "statement": "Volumetric rates are available exactly for enabled species and frames labelled by the enabled reactions; they list, once each and in descending order, exactly the enabled reactions that change the number of particles of the species, with that change times the rate. Surface rates are empty for the electron and M; otherwise they list, once each, the non-zero contributions of all enabled heavy species: loss of the species itself and its return by others. M is neither produced nor consumed in a balanced chemistry. The printed lists show the strongest processes of the right sign, as many as asked for. (Surface rates are not sorted as documented, and are refused for all species after an ad-hoc return coefficient for a species disabled later: witnesses.)", "quantifier": "all chemistries in reachable states, all frames, all species", "why_tests_cant": "all inputs and histories", "anchors": ["pygmo_fwork/results.py:ResultsParser.get_volumetric_rates", "pygmo_fwork/results.py:ResultsParser.get_surface_rates", "pygmo_fwork/results.py:ResultsParser.print_production_processes", "pygmo_fwork/results.py:ResultsParser.print_consumption_processes"]}
{"id": "C74", "title": "interpolated rows of results", "statement": "Rows of a result table can be requested exactly for times within its range. The result has the requested times and the columns of the table; values at logged times are those logged, others lie on the straight line between the neighbouring rows. Requesting the logged times returns the table; requesting rows of a finer table of rows gives what requesting them from the table gives.", "quantifier": "all tables with increasing times, all requested times", "why_tests_cant": "all tables and times (real numbers)", "anchors": ["pygmo_fwork/results.py:ResultsParser.get_results_frames"]}
{"id": "C75", "title": "convergence check", "statement": "An output is reported as converged exactly if its last value and its interpolated value at the start of the window (the first value, if the window starts before the table) do not cancel and differ by at most eps times the absolute value of their mean. So the verdict does not depend on the unit, only gets more lenient with eps, is positive for a constant output other than zero, and negative for values of opposite sign if eps < 2. The end time warning is given exactly if the run stopped short of 95% of the prescribed time, up to 1e-8. (An output that stays zero is never converged; an output that oscillates inside the window can be: witnesses.)", "quantifier": "all tables, tolerances and windows", "why_tests_cant": "all tables and real parameters", "anchors": ["pygmo_fwork/global_model.py:GlobalModel.check_convergency"]}
{"id": "C76", "title": "logging a run", "statement": "A call to log results is refused, without effect, exactly if the results directory is not there, the path cannot be resolved or is a file, or the run exists and is not to be overwritten. A call that returns leaves the directory of the run with exactly the six complete files of this call and everything outside as it was; reading any file back under the same run id gives what was logged. A call for a plain name that is not refused can return.", "quantifier": "all file systems, results directories, run ids, contents, orders of deletion", "why_tests_cant": "all states of the file system and run ids", "anchors": ["pygmo_fwork/global_model.py:GlobalModel.log_results", "pygmo_fwork/pygmol/model.py:PyGMol.dump_logs", "pygmo_fwork/results.py:ResultsParser.fetch_solution", "pygmo_fwork/results.py:ResultsParser.fetch_rates", "pygmo_fwork/results.py:ResultsParser.fetch_wall_fluxes"]}
{"id": "C77", "title": "logged runs do not disturb each other", "statement": "A call changes nothing outside the directory of its run, wherever it is stopped. A finished run stays readable, unchanged, through every later history of calls stopped anywhere, as long as none is told to overwrite it. After any history, the files that can be read for a run all belong to one call for this run; at most one is incomplete, and then none of the later ones is there.", "quantifier": "all histories of calls, each stopped after any number of file system operations", "why_tests_cant": "all crash points and histories", "anchors": ["pygmo_fwork/global_model.py:GlobalModel.log_results", "pygmo_fwork/results.py:ResultsParser.fetch_solution", "pygmo_fwork/results.py:ResultsParser.fetch_rates", "pygmo_fwork/results.py:ResultsParser.fetch_wall_fluxes"]}
{"id": "C78", "title": "limits of logging", "statement": "What logging does not guarantee, by witnesses: a call stopped after making the directory makes every later call without overwrite fail; an interrupted overwriting call leaves neither the old nor the new results; an incomplete file is read without an error; with an empty run id, overwriting deletes all runs; a run id with two dots is written outside the results directory.", "quantifier": "all states for the first and the fourth, existence for the others", "why_tests_cant": "the first and the fourth hold for every crash point and file system", "anchors": ["pygmo_fwork/global_model.py:GlobalModel.log_results", "pygmo_fwork/global_model.py:GlobalModel.run"]}
{"id": "C79", "title": "comparing runs", "statement": "A reference to a run (name, backend or directory, file) means the directory and file documented for its form, uniquely. A comparison succeeds exactly if every reference leads to a solution (and, for relative values, there is a run). It has one row per run in the order given; values are those of the last row of each solution, or relative differences v = v0*(1+x/100) to the first run where that is not zero. (Different runs can get the same row name; a file named like a backend cannot be referred to by two parts: witnesses.)", "quantifier": "all lists of references, directories and logged solutions", "why_tests_cant": "all inputs", "anchors": ["pygmo_fwork/results.py:ResultsParser._parse_run_identifiers", "pygmo_fwork/results.py:ResultsParser._fetch_results_dir", "pygmo_fwork/results.py:ResultsParser.compare"]}
{"id": "C80", "title": "LaTeX form of species names", "statement": "A species name has an automatic LaTeX form exactly if it has no round brackets or ends with the only pair of them; everything else raises an error. For a formula of element symbols with numbers below 20 and up to three charge signs or four stars, the form typesets to the symbols upright, numbers as subscripts, signs as superscript with 2+, 3+ and so on. Different names without TeX characters have different forms. (Numbers from 20 on are typeset wrongly, names with ^ or _ collide: witnesses.)", "quantifier": "all names; all lists of element symbols with numbers below 20", "why_tests_cant": "all names, through thousands of successive replacements that could interfere", "anchors": ["plaschem/latex.py:Texify.texify_species", "plaschem/species.py:RP.get_latex"]}
{"id": "C81", "title": "LaTeX form of reactions", "statement": "The LaTeX form of a reaction has, on both sides, exactly one term for every different species in the order of first occurrence, with its multiplicity as coefficient if more than one, provided that the species have different plain names and no explicit forms. Species with the same explicit form lose a term.", "quantifier": "all reactions with any number of species and multiplicities", "why_tests_cant": "all reactions", "anchors": ["plaschem/reactions.py:Reaction.get_latex", "plaschem/species.py:RP.get_latex"]}
{"id": "C82", "title": "LaTeX form of rate coefficients", "statement": "The LaTeX form of a rate coefficient is the Arrhenius formula, without power for exponent zero and without exponential for energy zero, whose pre-exponential factor is right to three digits, and whose exponent, activation energy (with its sign) and energy loss are right to hundredths if they are not, rounded, nonzero multiples of ten. A multiple of ten is always shown wrong (300 as 3: witness). Without kinetic data an error is raised.", "quantifier": "all reactions, all correct formatters of numbers", "why_tests_cant": "all numbers", "anchors": ["plaschem/latex.py:Texify.texify_rate_coefficient", "plaschem/latex.py:ReactionsTable"]}
{"id": "C83", "title": "neutral model: acceptance and equations", "statement": "A neutral chemistry is accepted exactly if it passes the checks of a chemistry without charge requirement and all its species other than the electron and M are neutral. In every state reached from it the equations are accepted, and their right-hand side is that of the full model with zero electron energy derivative, whatever the uninitialised memory and whatever was called before; reported rates are the ones used. Wall fluxes, however, can never be reported (TypeError), and an electron is accepted although the documentation says otherwise: its collisions then run at a rate that does not depend on electrons.", "quantifier": "all neutral chemistries and reachable states; all states of the solution; all histories of calls and contents of uninitialised arrays", "why_tests_cant": "all chemistries, states and call histories", "anchors": ["pygmo_fwork/pygmol/neutral_model.py:NeutralChemistry.assert_consistency", "pygmo_fwork/pygmol/neutral_model.py:NeutralChemistry.get_reactions_stoich_coefs_electron", "pygmo_fwork/pygmol/neutral_model.py:NeutralEquations.get_objective_functions", "pygmo_fwork/pygmol/neutral_model.py:NeutralEquations.get_diffusivities"]}
{"id": "C84", "title": "neutral model: positivity, balances and start", "statement": "Exact solutions of the neutral model that start positive stay positive, and no denominator vanishes along them if there are two or more species with positive sizes (with one species the mean free path is always 0/0: witness). The atoms of an element change only by flow, if the wall returns what it takes. Without feeds the start has the set pressure; with feeds it is too low by 1e-15 of it for every fed species. Given initial densities are taken by name regardless of order and not checked otherwise.", "quantifier": "all neutral data, all exact solutions, all chemistries with balanced reactions, all initial dictionaries", "why_tests_cant": "all solutions of differential equations, all chemistries", "anchors": ["pygmo_fwork/pygmol/neutral_model.py:NeutralEquations.get_objective_functions", "pygmo_fwork/pygmol/neutral_model.py:NeutralModel._build_y0", "pygmo_fwork/pygmol/neutral_model.py:NeutralModel._y0_from_init_params"]}
{"id": "C85", "title": "import of HPEM files", "statement": "A file of the documented form (species lines, a line *, reaction lines, cells free of separators, any white space around cells, any comment without !) with distinct species names is imported exactly if the species that occur in the kept reactions are new to the builder and every kept reaction has at most three reactants and only species of the file or of the builder. On success exactly these species and reactions are appended in file order (reactions with special numbers other than 1 and -1 dropped on request), each with the values of its line: E is renamed e, ^ becomes +, a return species is set only for a nonzero sticking coefficient, rate units follow the number of reactants, activation units follow the presence of an electron, and these are always the units the reaction has to have. Read back with ids assigned, the getters return the values of the line. A file without the line *, or with any other line that has no ! (such as an empty last line), is refused and nothing is added. All imported elements carry the same id; an import that fails later leaves species behind.", "quantifier": "all files of the form, all builders, both options; all lines for the refusals", "why_tests_cant": "all files and all ways a greedy regular expression with backtracking can match", "anchors": ["plaschem/xml_inputs.py:XmlBuilder.add_chemistry_from_hpem", "plaschem/xml_inputs.py:XmlBuilder.add_rp_from_attributes", "plaschem/xml_inputs.py:XmlBuilder.add_reaction_from_attributes"]}
{"id": "C86", "title": "import from the QDB database", "statement": "Reactions of the database are imported in turn; a lumped reaction stands for the resolved reactions it lumps, at any depth. Either all of them have data, and then exactly the species they need that were not there yet (the first of each name) and the reactions are appended in order, or the import stops with an error at the first one without data, after what came before it. Species that differ in formula or states get different names if the formulas carry at most three charges and states are free of separators. If formula and states identify a species and all reactions have usable data, the file written by an empty builder after the import is read again with each species once, all reactions in order, and the masses, charges, Arrhenius parameters and units of the database; missing or zero species data are replaced by the defaults. Over every history of calls of a builder, with imports of HPEM files and from the database among them and including those that failed half way, the builder has one species of each name, and unless elements were taken over from a file every reaction names species that are there.", "quantifier": "all chemistries of the database (any number and nesting of reactions and data sets), all builders, all histories of calls", "why_tests_cant": "all chemistries, all histories and all points where an import can fail", "anchors": ["plaschem/xml_inputs.py:XmlBuilder.add_reaction_from_qdb", "plaschem/xml_inputs.py:XmlBuilder.add_rp_from_qdb", "plaschem/xml_inputs.py:XmlBuilder.add_chemistry_from_qdb", "plaschem/xml_inputs.py:XmlBuilder.add_chemistry_from_hpem"]}
{"id": "C87", "title": "printed frames", "statement": "A frame whose axes are lists of species or of reactions is printed with its values where they were. With annotations it gets a row and a column of labels in front: names of species, equations of reactions. A value is red exactly if the species or reaction of its row or column is disabled in the chemistry, a label exactly if the object it labels is. The frame is refused with a KeyError exactly if an axis has ids that are neither all species nor all reactions. Without annotations the values and colours are the same.", "quantifier": "all chemistries in all states (any set of disabled species and reactions), all frames of any size", "why_tests_cant": "all frames and all states of the chemistry", "anchors": ["plaschem/pretty_print.py:PrettyPrint.print"]}
{"id": "C88", "title": "table of species attributes", "statement": "The table of species attributes has one row for each species selected (all, or only enabled ones, or without special ones), in the order of the chemistry or sorted by the classification key, and one column for each attribute not ignored, followed by one of its units if asked for. Each cell holds what the getter returns for that species, or three dots for a missing value; with pretty printing it is red exactly if the species is disabled, and blue exactly if it is enabled and the value differs from the one passed. A table exists whenever the getters answer, except for a special species that was passed a text for a numeric attribute it does not have.", "quantifier": "all lists of species in all states, all options", "why_tests_cant": "all species, all values passed for any attribute, all options together", "anchors": ["plaschem/chemistry.py:Chemistry.species_attributes"]}
{"id": "C89", "title": "table of reaction attributes", "statement": "The table of reaction attributes has one row for each reaction selected. Without headings the rows are in the order of the chemistry or sorted, with the equations of the reactions. With headings every reaction is found exactly once under the heading of its type and category, headings come in the order of the classification scheme, each once and none without reactions; reactions of one class show the names of their species in the same columns of text. Each cell holds what the getter returns, or three dots for a missing value; it is red exactly if the reaction is disabled, and blue exactly if it is enabled and the value differs from the one passed. A table exists whenever the getters answer and the sorting and classification are possible.", "quantifier": "all lists of species and reactions in all states, all options", "why_tests_cant": "all reactions, all values passed, all options together", "anchors": ["plaschem/chemistry.py:Chemistry.reactions_attributes", "plaschem/classification.py:ReactionClassifier"]}
{"id": "C90", "title": "LaTeX tables", "statement": "After any calls of its methods a LaTeX table has the last frame, caption and label given, the last note of each superscript in the order in which the superscripts were first given, and for each cell the last decorator given since the frame was loaded. Reading its text (in both layouts) finds as many columns announced as the frame has, the column labels as heading, and exactly the rows of the frame in order with the decorated cells in the order of the columns, provided the texts have no line breaks and cells no separators. A cell decorated for notes shows what it showed before, followed by exactly the marks given. Its braces are balanced if those of the texts in it are. The table of reactions has one row for each enabled reaction, in order, with id, equation, rate coefficient, energy loss and source under the columns asked for; it is refused for unknown columns and for enabled reactions without Arrhenius parameters.", "quantifier": "all histories of calls, all frames of any size, all texts, all lists of reactions", "why_tests_cant": "all texts in cells, all sizes and all orders of calls", "anchors": ["plaschem/latex.py:TexTable", "plaschem/latex.py:ReactionsTable"]}
{"id": "C91", "title": "batches of Morris trajectories", "statement": "A batch is refused exactly for a given trajectory id, for return coefficients without their arguments, when 998 trajectories are finished, and for an empty pool; then no trajectory has changed. Otherwise it runs as many trajectories as asked for, with different ids, the smallest of those not finished. In every schedule of the worker processes the batch comes to an end; each of its trajectories is then complete, or its worker raised and the trajectory has no meta file, and no other trajectory has changed. In a directory in order a worker of a well-posed batch raises only while it compares the meta data at a moment when another worker is writing them; with one worker nothing is lost, and after any number of such batches exactly the trajectories 1 to N are there, all complete.", "quantifier": "all arguments, all directories, all numbers of workers and all interleavings of their file operations, all histories of batches", "why_tests_cant": "schedules of the workers; the loss of a trajectory depends on a race", "anchors": ["pygmo_fwork/optichem/morris.py:MorrisMethod.run_morris", "pygmo_fwork/optichem/morris.py:MorrisMethod.run_trajectory", "pygmo_fwork/optichem/morris.py:MorrisMethod._prepare_logging"]}
{"id": "C92", "title": "the coupling graph of a chemistry", "statement": "The constructor of the chemistry graph accepts the logged rates and wall fluxes exactly if the columns are the time stamp followed by the enabled reactions (by id), or the enabled heavy species (by name), in the order of the chemistry, the time stamps of the two frames agree, and no disabled species has ad-hoc return coefficients. For accepted frames with non-negative rates the DRG weight of the edge from a species b to a species a is the turnover of a in the enabled reactions in which b takes part, and by b sticking to the wall, divided by the total turnover of a. The ranking lists every enabled species but the targets, the electron and the placeholder exactly once, ascending by the largest strength of a path to a target over all targets and times.", "quantifier": "all chemistries after any history of calls, all frames, all reactor sizes, all targets, all search methods but the maximal flow, all orders of iteration of sets", "why_tests_cant": "all chemistries, histories and frames; sums over arbitrarily many reactions and species", "anchors": ["pygmo_fwork/optichem/graph.py:ChemistryGraph.__init__", "pygmo_fwork/optichem/graph.py:ChemistryGraph.assert_input_consistency", "pygmo_fwork/optichem/graph.py:ChemistryGraph.distribute_weights", "pygmo_fwork/optichem/graph.py:ChemistryGraph.get_ranking"]}
{"id": "C93", "title": "a reduction and its files", "statement": "A reduction in a new directory does step by step what the reduction without files (C42, C43) does, although it restores chemistries from files it wrote earlier. If the process dies after any file operation, the meta data and the compressed solution and chemistry attributes of every finished run are on the disk, unchanged and complete, and nothing outside the directory of the reduction has been touched; the table of the history is that of the finished runs or incomplete. The constructor refuses a directory exactly if the parent is missing, or the name is taken by a file or by a directory that is not empty, and a refusal changes nothing; a directory with a reduction in it is refused for ever.", "quantifier": "all chemistries, backends, error measures, rankings, interrupts of model runs by the user, crash points, lengths of the reduction", "why_tests_cant": "every crash point and every interrupt of reductions of any length", "anchors": ["pygmo_fwork/optichem/reduction.py:ReductionIterator.__init__", "pygmo_fwork/optichem/reduction.py:ReductionIterator.make_dir_structure_if_clear", "pygmo_fwork/optichem/reduction.py:ReductionIterator._run_model", "pygmo_fwork/optichem/reduction.py:ReductionIterator.run_base_case", "pygmo_fwork/optichem/reduction.py:ReductionIterator.remove_one_species_and_run", "pygmo_fwork/optichem/reduction.py:ReductionIterator.log", "pygmo_fwork/optichem/reduction.py:ReductionIterator.run_reduction", "pygmo_fwork/global_model.py:GlobalModel.log_results"]}
{"id": "C94", "title": "laws of the kinetic and transport coefficients", "statement": "The rate coefficients follow the Arrhenius law, of electron processes in the electron temperature and of all others in the gas temperature, and grow with that temperature if B and C are not negative. Reaction rates scale with the power of the order of the reaction if all densities and the electron energy density are scaled together. The Debye length, the mean speeds and the cross sections obey their defining equations; the hard-sphere cross section is symmetric. Free diffusion obeys the Einstein relation with the collision frequency; neutrals diffuse freely and negative ions do not reach the wall. The ambipolar diffusivity lies between 2 and 1 + Te/Ti times the mean diffusivity of the positive ions. The loss of a species at the wall exceeds neither its thermal flux times the sticking coefficient nor what diffusion allows, is zero without sticking and grows with the sticking coefficient.", "quantifier": "all data, all states, all temperatures", "why_tests_cant": "laws over all real inputs", "anchors": ["pygmo_fwork/pygmol/equations.py:Equations.get_reaction_rate_coefficients", "pygmo_fwork/pygmol/equations.py:Equations.get_reaction_rates", "pygmo_fwork/pygmol/equations.py:Equations.get_debye_length", "pygmo_fwork/pygmol/equations.py:Equations.get_mean_speeds", "pygmo_fwork/pygmol/equations.py:Equations.get_sigma_sc", "pygmo_fwork/pygmol/equations.py:Equations.get_ambipolar_diffusivity_pos", "pygmo_fwork/pygmol/equations.py:Equations.get_wall_fluxes", "pygmo_fwork/pygmol/equations.py:Equations.get_free_diffusivities", "pygmo_fwork/pygmol/equations.py:Equations.get_diffusivities"]}
{"id": "C95", "title": "looking up species and reactions", "statement": "Looking up a species in a chemistry by id, name or object returns exactly the species designated, enabled or not, and raises ChemistrySpeciesNotPresentError if there is none; looking up a reaction by id returns exactly the reaction with that id, enabled or not, and otherwise raises ChemistryReactionNotPresentError. Looking up a species in a reaction by name or id returns exactly the reactant or product with that name or id, and otherwise raises ValueError.", "quantifier": "all chemistries, all histories of calls, all identifiers", "why_tests_cant": "all chemistries and histories", "anchors": ["plaschem/chemistry.py:Chemistry.get_rp", "plaschem/chemistry.py:Chemistry.get_reaction", "plaschem/reactions.py:Reaction.get_rp"]}
{"id": "C96", "title": "the figure that compares reductions", "statement": "The figure of several reductions is made exactly if there is one, styles and labels suffice, all have the same maximal error, each has a row within it, and each dead end comes after such a row (and, with annotations, styles are not empty and dead ends have names). Then the labelled lines are, in order, one curve through exactly the rows within the maximal error of each reduction; the dead ends are exactly the rows above it, each joined to the last row within it before; end points and texts are where they belong. For tables of reductions the figure can always be made; each curve starts at the origin, goes strictly to the right and stays within the maximal error; default axis limits leave exactly half a species and 0.9 % around all points. What is read from the directory of a reduction that has ended is its table. Names are changed character by character. (Findings: a species called NaN is read back as missing, so that the annotated figure raises; zeros in names are not lowered.)", "quantifier": "all numbers of reductions of any length, all rankings, backends and error measures, all options", "why_tests_cant": "all tables reductions can write", "anchors": ["pygmo_fwork/optichem/reduction.py:compare_reduction_runs"]}
{"id": "C97", "title": "exact solutions over time", "statement": "For an exact solution of the global model over any time interval on which the electron density and the collision integrals stay defined: all densities stay positive and, if reactions conserve atoms and the wall returns no more atoms than it gets, their sum grows at most linearly in time, with a rate that only the feed and the artificial correction determine, whatever the rate coefficients are (no blow-up in finite time). Elements that are not fed do not grow while the pressure is not below the set pressure. Without consumption of electrons in reactions, the electron energy density grows at most by the power supplied. (Finding: the electron energy itself has no floor; a solution can start at zero and become negative although the data are physical.)", "quantifier": "all physical data, all chemistries with balanced reactions, all solutions on all time intervals", "why_tests_cant": "all initial states and all times; a numeric run samples one", "anchors": ["pygmo_fwork/pygmol/equations.py:Equations.get_objective_functions", "pygmo_fwork/pygmol/equations.py:Equations.get_flow_source_rates", "pygmo_fwork/pygmol/equations.py:Equations.get_dn_dt", "pygmo_fwork/pygmol/equations.py:Equations.get_drho_dt", "pygmo_fwork/pygmol/equations.py:Equations.get_min_n_correction", "pygmo_fwork/pygmol/equations.py:Equations.get_min_rho_correction"]}
{"id": "C98", "title": "a reduction stepped by hand", "statement": "For every history of run_base_case and remove_one_species_and_run calls on a ReductionIterator: run_base_case raises ReductionRunError exactly if it returned before, remove_one_species_and_run raises it exactly if the base case has not been run or can_be_removed says no; the calls that return are one base case followed by removals of distinct eligible species, and there is one row for each, in order; the chemistry is always that of a successful run of the history. If all removals have the same backtracking flag, the chemistry is that of the last row to which the iterator goes back (without backtracking the last successful one, with it the last one within the maximal error), and can_be_removed says yes exactly for eligible species which the chemistry still has. Without backtracking the number of species never grows from row to row. After a reduction has ended, a further run_reduction or run_base_case raises ReductionRunError. (Finding: if flags are mixed, a removed species can come back and can then not be removed.)", "quantifier": "all histories of calls, all flags, all chemistries, backends and error measures", "why_tests_cant": "all orders of calls and all outcomes of runs", "anchors": ["pygmo_fwork/optichem/reduction.py:ReductionIterator.run_base_case", "pygmo_fwork/optichem/reduction.py:ReductionIterator.remove_one_species_and_run", "pygmo_fwork/optichem/reduction.py:ReductionIterator.can_be_removed", "pygmo_fwork/optichem/reduction.py:ReductionIterator.run_reduction"]}
{"id": "C99", "title": "stored model parameters can be used again", "statement": "For all model parameters that are accepted, under whichever of their names and in whichever order they are passed, dict(ModelParameters(...)), which is logged and stored with Morris runs, is again accepted after it was written and loaded with its entries in any order, and gives the same values. A further trajectory of a Morris run passes the check of model parameters exactly if all its values are those the run was begun with (the feeds as a dictionary), whichever names and order are used.", "quantifier": "all parameters, all names and orders of them, all orders of the entries of the stored dictionary", "why_tests_cant": "all dictionaries of parameters", "anchors": ["pygmo_fwork/pygmol/model_parameters.py:ModelParameters.__init__", "pygmo_fwork/pygmol/model_parameters.py:ModelParameters.__getitem__", "pygmo_fwork/pygmol/model_parameters.py:ModelParameters.keys", "pygmo_fwork/optichem/morris.py:Morris._assert_coherence", "pygmo_fwork/optichem/morris.py:Morris._dump_meta", "pygmo_fwork/global_model.py:GlobalModel.log_results", "pygmo_fwork/results.py:ResultsParser.fetch_model_params"]}
{"id": "C100", "title": "which species the constructor accepts", "statement": "RP(id, attributes, units) is accepted exactly if: the id is non-negative; a name without < and > is passed; a mass is passed unless the name is M; a stateless name is passed if a non-empty state is; all attributes are known and each value is None, a text, or (where the attribute is a number) a number; and units are passed only beside values of the five attributes with units, each being the only unit there is. The species then keeps exactly what was passed. Of an accepted species, the name and state never raise; the mass raises exactly if it was passed as None or is no number, the charge exactly if it is a text that is no integer, the stateless name exactly if there is a state (also an empty text) and no stateless name. (Finding: such species are accepted.)", "quantifier": "all ids, attributes and units", "why_tests_cant": "all dictionaries of arguments", "anchors": ["plaschem/species.py:RP.__init__", "plaschem/species.py:RP.set_species_attribute", "plaschem/species.py:RP.get_stateless", "plaschem/species.py:RP.get_mass", "plaschem/species.py:RP.get_charge"]}
{"id": "C101", "title": "which chemistries the constructor accepts", "statement": "Chemistry(species, reactions) is accepted exactly if: ids of species, ids of reactions and names of species are unique; there is an electron and a positive ion (unless the class does not require charge); every species object of every reaction was passed, and every species passed takes part in a reaction; the return coefficients of all species can be determined, and every return species of a species whose sticking coefficient is not zero was passed. Otherwise it raises ChemistryConsistencyError (if the return coefficients can be determined). The new chemistry has everything enabled, no ad-hoc values, and protects exactly the electron and a positive ion without competitor (nothing if charge is not required). The order of species and reactions does not matter. (Finding: the return species of a species that does not stick are not checked, and the chemistry breaks when it is made to stick.)", "quantifier": "all collections of species and reactions", "why_tests_cant": "all chemistries", "anchors": ["plaschem/chemistry.py:Chemistry.__init__", "plaschem/chemistry.py:Chemistry.assert_consistency", "plaschem/chemistry.py:Chemistry.set_protected_species"]}
{"id": "C102", "title": "kinds of processes and the collision partner of the electron", "statement": "get_electron_collision_partner returns the first heavy reactant (not e, not M) of a reaction with an electron among its reactants, and raises ReactionValueError exactly if there is no electron or nothing heavy; with a single heavy reactant the answer does not depend on the order of the reactants. is_ion_process says whether some heavy reactant is charged; a constructed reaction without electrons and ions among its reactants has products of total charge zero. get_special_number is the number given, else 10 for electron processes and 20 for others. The kind of a process does not depend on the order of reactants.", "quantifier": "all reactions", "why_tests_cant": "all reactions and orders", "anchors": ["plaschem/reactions.py:Reaction.get_electron_collision_partner", "plaschem/reactions.py:Reaction.is_ion_process", "plaschem/reactions.py:Reaction.is_electron_process", "plaschem/reactions.py:Reaction.get_special_number"]}
{"id": "C103", "title": "the pressure is regulated without overshoot", "statement": "If the reactions and the wall keep the number of particles, then along every exact solution of the equations a pressure that starts at or above the set pressure stays there, and as long as no density is so low that the artificial correction acts, it only falls; one that starts at or below the set pressure stays there and only rises. In the neutral model the law is exact: 1/p - 1/p0 decays as exp(-t / 1 ms), whatever the reactions are.", "quantifier": "all data and exact solutions, for all times", "why_tests_cant": "all chemistries, parameters and solutions; overshoot is a statement about every instant", "anchors": ["pygmo_fwork/pygmol/equations.py:ElectronEnergyEquations.get_flow_source_rates", "pygmo_fwork/pygmol/equations.py:ElectronEnergyEquations.get_dn_dt", "pygmo_fwork/pygmol/neutral_model.py:NeutralEquations"]}
{"id": "C104", "title": "the neutral model over time", "statement": "Exact solutions of the neutral model that start positive: densities stay positive and their sum grows at most linearly with a rate given by the feed and the artificial correction, for every accepted neutral chemistry whose reactions balance (nothing is assumed along the solution); elements that are not fed do not grow while the pressure is not below the set pressure; the energy does not change.", "quantifier": "all accepted neutral chemistries, parameters and exact solutions", "why_tests_cant": "all chemistries and rate coefficients, every instant of time", "anchors": ["pygmo_fwork/pygmol/neutral_model.py:NeutralEquations", "pygmo_fwork/pygmol/neutral_model.py:NeutralChemistry"]}
{"id": "C105", "title": "directories of the workspace", "statement": "A query for a directory of the workspace (results of a backend, Morris or reduction results, staging directory) returns exactly if the workspace is configured, the backend is known (in any case of letters) or the binary exists, and no file is in the way. The directory then exists with its parents and nothing else has changed; a query that raises changes nothing. Answers do not depend on earlier queries, nor does the result on their order. Different queries give directories none of which is inside another. Any number of processes may ask at the same time: nobody gets an error and everybody who returns finds the directory. A run logged into the directory of its backend is found by everybody asking for this backend. (A file that is not YAML raises an error of the parser, not the documented one.)", "quantifier": "all configurations, file systems, sequences of queries, schedules of concurrent processes, moments of interruption", "why_tests_cant": "all schedules and file systems; absence of races cannot be tested", "anchors": ["pygmo_fwork/config.py:Config.__init__", "pygmo_fwork/config.py:Config.__getitem__", "pygmo_fwork/config.py:Config.get_results_dir", "pygmo_fwork/config.py:Config.get_globalkin_stage_dir", "pygmo_fwork/config.py:Config.get_morris_results_dir", "pygmo_fwork/config.py:Config.get_reduction_results_dir", "pygmo_fwork/config.py:Config.default_log_name"]}
{"id": "C106", "title": "a logged run can be repeated from its log", "statement": "A call of GlobalModel.run reaches the solver exactly if its arguments are acceptable (a string run id and a directory when logging, a positive electron temperature, densities for exactly the species with a positive total charge), and the solver then starts from the given or generated densities. Unless it is stopped while logging, a call that raises has changed nothing on disk except that the default directory may have been made. However it ends, other runs are untouched, and so is an existing run that is not to be overwritten (the call then raises). If a logging call returns, the run is found with all its tables in the directory, and for the default directory by everybody asking for the backend; the logged parameters are accepted and have the values of the first run, and a call with the logged electron temperature and densities starts the solver from the same vector, in whichever order the dictionaries are loaded. With acceptable arguments and a new run id whatever the solver gives is logged.", "quantifier": "all models, arguments, file systems, configurations, results of the solver, moments of interruption, orders of loaded dictionaries", "why_tests_cant": "reproducibility of every run and absence of side effects in every failure", "anchors": ["pygmo_fwork/global_model.py:GlobalModel.run", "pygmo_fwork/global_model.py:GlobalModel.log_results", "pygmo_fwork/results.py:ResultsParser.fetch_model_params", "pygmo_fwork/results.py:ResultsParser.fetch_initial_params", "pygmo_fwork/pygmol/model.py:PyGMol._y0_from_init_params"]}
{"id": "C107", "title": "reaction filters and aligned per-reaction data", "statement": "get_reactions(disabled) returns, in construction order and without duplicates, all reactions or the enabled ones; every per-reaction getter (Arrhenius coefficients, electron energy loss, gas heating, elasticity, ids) and the stoichiometric matrix with the same filter has the same index in the same order and at each id the own value of that reaction: the stored one, else 0 (exponent and activation energy: 0 if there is a pre-exponential factor, else none), elastic if declared so or, if nothing is declared, if the same species are on both sides.", "quantifier": "all chemistries, all reachable states (histories of calls), both filters", "why_tests_cant": "alignment must hold after every history of enabling, disabling and ad-hoc changes", "anchors": ["plaschem/chemistry.py:Chemistry.get_reactions", "plaschem/chemistry.py:Chemistry.get_reactions_arrh_b", "plaschem/chemistry.py:Chemistry.get_reactions_arrh_c", "plaschem/chemistry.py:Chemistry.get_reactions_el_en_loss", "plaschem/chemistry.py:Chemistry.get_reactions_ges_heat_contrib", "plaschem/chemistry.py:Chemistry.get_reactions_elastic", "plaschem/chemistry.py:Chemistry.get_reactions_id"]}
{"id": "C108", "title": "histories with restarts from files", "statement": "For every history in which calls on a chemistry alternate with load_chemistry_attributes of files that this or another chemistry with the same species and reactions dumped (after such a history), successful or not: the state is one that calls alone could have led to. A chemistry that loaded a file behaves as the one that wrote it: the getters return the same, every further history of calls raises the same exceptions and leads to states that agree, and it writes the same file again. Loading succeeds exactly if no stored ad-hoc return coefficient names a disabled species. (Finding: a file of another chemistry is refused after it was put in force, and the chemistry is left without electrons.)", "quantifier": "all chemistries, all histories of calls, dumps and loads (of any depth: files written by restored chemistries), all files dumped in them, with or without hash check", "why_tests_cant": "histories of arbitrary length with any number of restarts; states after loads that raise half-way", "anchors": ["plaschem/chemistry.py:Chemistry.load_chemistry_attributes", "plaschem/chemistry.py:Chemistry.dump_chemistry_attributes"]}
{"id": "C109", "title": "which reactions can be constructed", "statement": "Whatever the types in which attributes are passed (None, text, int, float, bool), the constructor of a reaction accepts exactly: a positive id; one to three reactants and at least one product; arrh_a or special_number passed; only known attributes, each None or of a type that suits it, elastic None, a bool or one of six spellings; units only beside unitful attributes that are passed, always beside arrh_a and arrh_c; an arrh_a that is (or reads as) a non-negative float with the unit that suits the number of reactants; an arrh_c in eV with electrons among the reactants and in K otherwise; other energies in eV; species that answer with name, charge and atoms, and balance in charge and in every kind of atom. The reaction keeps what was passed. Its getters return the factor exactly if it was passed with a value, and raise exactly if their attribute is a text that is no number; the elastic and electron flags never raise. The order of reactants, products and attributes does not matter. (Findings: unreadable texts are accepted for all numbers but arrh_a, for which they raise ValueError; special_number=None is accepted in place of a rate.)", "quantifier": "all ids, lists of species (constructed or not), dictionaries of attributes and units, formula parsers", "why_tests_cant": "an equivalence over all combinations of arguments", "anchors": ["plaschem/reactions.py:Reaction.__init__", "plaschem/reactions.py:Reaction.set_reaction_attribute", "plaschem/reactions.py:Reaction.assert_consistency"]}
{"id": "C110", "title": "what any history of calls on a graph leads to", "statement": "After any sequence of calls on a new graph that add edges and set attributes of nodes and edges, exceptions caught by the caller, the graph answers as follows. Its edges are those that were added and its nodes are their ends. The successors and predecessors of a node are the nodes at the other ends of its edges. An attribute has the value that was given to it last by a call that did not raise, and no value without such a call; adding an edge again changes no attribute. Setting attributes of an edge raises AssertionError exactly if a weight that is not positive is among them, otherwise KeyError exactly if the edge was never added; for a node KeyError exactly if no edge was added at it; the graph is then unchanged, the other attributes passed included. So weights are positive at all times. A weighting function and its inverse are accepted exactly if both or neither are passed.", "quantifier": "all sequences of calls of any length, all nodes, names and values of attributes", "why_tests_cant": "histories are unbounded; order, repetition and failed calls in between matter", "anchors": ["pygmo_fwork/optichem/graph.py:Graph.add_edge", "pygmo_fwork/optichem/graph.py:Graph.update_edge_attributes", "pygmo_fwork/optichem/graph.py:Graph.update_node_attributes", "pygmo_fwork/optichem/graph.py:Graph._default_weighting_functions"]}
{"id": "C111", "title": "from the directory of a Morris run to its statistics", "statement": "The evaluation of a Morris run reads every trajectory directory there is. After any history of worker processes on the directory, with any interleaving and deaths at any moment, it succeeds in reading exactly if every listed trajectory is finished, and each is then read as one of the walks that were run, with the solutions of the model at its points. The statistics then follow: the mean output is the mean over the walks, and mu and sigma of a factor are the mean and the sample standard deviation of the elementary effects of that factor, one per trajectory: the difference quotients of the output over the step of the factor on the walk. After any number of batches with one worker, each of one trajectory at least, every trajectory asked for is read exactly once, in whatever order the directories are listed, and mu of a factor in which the output is affine is its slope. In contrast, a process that dies after it has made the directory of its first run leaves a trajectory that no later process changes, and no later evaluation of that Morris run succeeds.", "quantifier": "all histories of processes and batches, all interleavings, all points of death, all numbers of factors (at least two), all models, times, outputs and orders of listing", "why_tests_cant": "schedules, crash points and histories are unbounded; the statistics depend on what all of them left on the disk", "anchors": ["pygmo_fwork/optichem/morris.py:MorrisMethod.evaluate_trajectory", "pygmo_fwork/optichem/morris.py:MorrisMethod.get_morris_stats", "pygmo_fwork/optichem/morris.py:MorrisMethod.run_morris", "pygmo_fwork/optichem/morris.py:MorrisMethod.run_trajectory", "pygmo_fwork/results.py:ResultsParser.fetch_solution"]}
{"id": "C112", "title": "what mu and sigma of a Morris run say about a chemistry", "statement": "For every chemistry in any reachable state with rate data for all enabled reactions: after any number of batches with one worker over its reactions, the evaluation gives for each enabled reaction, under its id, the mean over the trajectories (mu) and the sample standard deviation (sigma) of values each of which is twice the change of the output between two chemistries. These two are as the analysed one in everything but the rate coefficients; all rate coefficients of the two are equal but that of the reaction, which differs by its nominal value. For batches over the species the same holds for each enabled species under its name (if it has a character that is not a digit), with two chemistries whose rate coefficients are equal for all reactions in which the species does not take part, and in one common ratio for all others. The chemistry of each run depends on the vector of factors of that run only, not on the runs before it. So a reaction without influence on the output has mu and sigma zero, and one on whose rate the output depends linearly has as mu the change of the output for a change of its rate by twice the nominal value.", "quantifier": "all chemistries and histories of calls that led to their state, all seeds and orders of factors, all numbers of batches and trajectories, all solvers (functions of the chemistry), times and outputs", "why_tests_cant": "no test can run all chemistries, trajectories and histories of batches; the claim goes through the mapping of factors, the mutable chemistry shared by the runs of a trajectory, the files and their evaluation", "anchors": ["pygmo_fwork/optichem/morris.py:MorrisMethod.run_trajectory", "pygmo_fwork/optichem/morris.py:MorrisMethod._map_species_factors_to_k", "pygmo_fwork/optichem/morris.py:MorrisMethod._map_reactions_factors_to_k", "pygmo_fwork/optichem/morris.py:MorrisMethod.run_morris", "pygmo_fwork/optichem/morris.py:MorrisMethod.get_morris_stats"]}
{"id": "C113", "title": "what mu and sigma of a Morris run over return coefficients say about a chemistry", "statement": "After any number of batches with one worker over return coefficients of a chemistry (any reachable state, no pair given twice, no \">\" in the names of the stuck species, a solver that does not use the order in which coefficients are kept), the evaluation gives for each pair, under r(stuck>returned), as mu and sigma the mean and the sample standard deviation over the trajectories of twice the change of the output between two chemistries of that trajectory. These two are as the analysed one but for return coefficients; that of the pair is its nominal value times range^y in one and times range^(y+1) in the other, with y between -1 and 0; the stuck species returns as many particles as before in both; all other coefficients of it and of all other species are equal in both. The chemistry of a run is determined by its vector of factors: two trajectories that meet in a vector have the same chemistry there.", "quantifier": "all chemistries and histories that led to their state, all lists of pairs and ranges, all seeds and orders, all numbers of batches and trajectories, all solvers, times and outputs", "why_tests_cant": "each step changes the shared chemistry in place by a difference to its present coefficients, so errors could build up along the trajectory; no test covers all trajectories, chemistries and batches", "anchors": ["pygmo_fwork/optichem/morris.py:MorrisMethod.run_trajectory", "pygmo_fwork/optichem/morris.py:MorrisMethod._map_a_factor_to_ret_coef", "pygmo_fwork/optichem/morris.py:MorrisMethod.run_morris", "pygmo_fwork/optichem/morris.py:MorrisMethod.get_morris_stats"]}
{"id": "C114", "title": "what a finished reduction promises about the reduced mechanism", "statement": "When run_reduction has ended (on a new reduction run id; solutions of the backend are tables with increasing times; the full solution is not negative and, for every important output, positive at an important time), its directory has a table with a last line within the maximal error, with the number of the species left; the run it names has its solution and a chemistry_attributes.yaml on the disk. That solution differs from the full one, in every important output and at every important time, by at most the error in the line (hence the maximal error) times the largest full value. The attributes can be loaded into any state of the chemistry (if ad-hoc return coefficients name species that are left), which is then the chemistry the run was made with. That chemistry is consistent, keeps every important output and protected species and all ad-hoc coefficients, lacks only eligible species, and is the largest consistent part of the full chemistry without the species of the lines within the maximal error; one call of disable with these species on the full chemistry succeeds and gives the same species and reactions. If the ranking in force after the last run within the maximal error lists all eligible species that are left then and max_unsuccess_streak is not below their number, every eligible species that is left has been tried and was refused, failed or was above the maximal error. (Finding: it may nevertheless be removable from the final chemistry, since nothing is tried twice.)", "quantifier": "all chemistries and histories that led to their state, all rankings, all behaviours of the backend, all histories of removals, refusals, failed and rejected runs, all important outputs and times", "why_tests_cant": "the reduced mechanism is the result of many removals, rejections and restored files, each depending on solutions; no test covers all such histories, and the bound is about all outputs and times", "anchors": ["pygmo_fwork/optichem/reduction.py:ReductionIterator.run_reduction", "pygmo_fwork/optichem/reduction.py:ReductionIterator.remove_one_species_and_run", "pygmo_fwork/optichem/errors.py:SolutionsDiff.get_error_max", "plaschem/chemistry.py:Chemistry.disable", "plaschem/chemistry.py:Chemistry.load_chemistry_attributes"]}
{"id": "C115", "title": "in what order a reduction tries the species", "statement": "Every row of the history of a reduction but the first is about the first species, in the ranking in force (the fixed one, or the one the ranking function gave after the last accepted run), that may be removed, is still in the chemistry and has not been tried; if the ranking is ascending this is one with the lowest score of all of them. With a ranking function that builds the chemistry graph from the logs of the run, weights it with drg and ranks by strongest paths to targets (which are important outputs), the species tried is no more strongly coupled to the targets, in the chemistry of the last accepted run, than any other that may be removed, is there and is untried; and if max_unsuccess_streak is not below the number of species that may be removed and the reduction ends, each of them that is left has been tried in vain. The ranking function raises exactly when the logs do not match the chemistry, a species with ad-hoc return coefficients has been removed, or nothing but targets is left. (Finding: it is called after an accepted run before it is checked whether anything is left to remove, so no such reduction gets down to its targets; it raises instead and the chemistry is not reset.)", "quantifier": "all chemistries and histories that led to their state, all rankings and ranking functions, all behaviours of the backend, all histories of removals, refusals, failed and rejected runs, all logged rates and fluxes", "why_tests_cant": "which species is next depends on all that happened before, on implicit removals and restored chemistries and on a ranking that is recomputed in between; tests run a few fixed histories", "anchors": ["pygmo_fwork/optichem/reduction.py:ReductionIterator.run_reduction", "pygmo_fwork/optichem/graph.py:ChemistryGraph.__init__", "pygmo_fwork/optichem/graph.py:ChemistryGraph.distribute_weights", "pygmo_fwork/optichem/graph.py:ChemistryGraph.get_ranking"]}
{"id": "C116", "title": "a chemistry graph built from the results of a run", "statement": "Take any chemistry, a run of the model with it that succeeded, and the rates and wall fluxes that run logged at any times between its first and last step, whatever the model was used for before. A chemistry graph can be built from these logs exactly if the number of enabled reactions differs from the number of enabled heavy species (finding: with equal numbers the model labels the rates by species names and the constructor refuses them, so a reduction guided by such graphs never continues from a chemistry with equal numbers). The rates in the graph are those of the equations, interpolated between the steps of the solver and exact at its steps. If the parameters are physical and no density went negative, the graph can be weighted and ranks every enabled heavy species that is no target. At a logged step, total production less total consumption of a heavy species, by which DRGEP normalises, together with flow and artificial correction is the time derivative the solver integrated.", "quantifier": "all chemistries and histories that led to their state, all equations, solutions, times, earlier uses of the model; all reductions guided by graphs of their runs", "why_tests_cant": "the labels of the logs depend on the counts of species and reactions of the state the chemistry happens to be in, and the balance has to hold for all stoichiometries, return coefficients and solutions", "anchors": ["pygmo_fwork/pygmol/model.py:Model.diagnose", "pygmo_fwork/pygmol/model.py:Model.get_rates", "pygmo_fwork/pygmol/model.py:Model.get_wall_fluxes", "pygmo_fwork/results.py:ResultsParser.get_results_frames", "pygmo_fwork/optichem/graph.py:ChemistryGraph.__init__", "pygmo_fwork/optichem/graph.py:ChemistryGraph.distribute_weights"]}
{"id": "C117", "title": "a reduction along the ranking of a Morris run over the species", "statement": "Take a Morris run over the species of a chemistry, with at least two trajectories in any number of calls, and important outputs with positive means. Its ranking raises nothing and lists every enabled species exactly once, in ascending order of the documented scores, all of them numbers. A species with whose rates (all those of its reactions, times a common factor) the important outputs do not change has the score 0; a species whose step on some trajectory changes some important output has a positive score. The ranking passes the check of run_reduction that it is sorted, before every pass of the loop. A reduction along this ranking tries at each point the species with the lowest score among those that may be removed, are still there and have not been tried; so it does not try a species with influence while there is a removable one without. Given enough allowed failures, each species that is still there at the end and could have been removed has been tried.", "quantifier": "all chemistries, backends, trajectories, batches, directory listings, outputs and times, both scoring methods, all orders of equal scores; all reductions with that ranking, all threshold and streak settings, at every point of the history", "why_tests_cant": "it joins the random trajectories of one analysis with the refusals, failures and restorations of another; the order must hold for every history", "anchors": ["pygmo_fwork/optichem/morris.py:MorrisMethod.get_ranking", "pygmo_fwork/optichem/morris.py:MorrisMethod.get_morris_stats", "pygmo_fwork/optichem/reduction.py:ReductionIterator.run_reduction"]}
{"id": "C118", "title": "what disabling species does to the equations of the global model", "statement": "Take a chemistry, disable species and reactions in it by any calls, and build the equations of the global model from it before and after with the same parameters. At states in which the kept species have the same densities, the electron energy is the same and the disabled species have no density: electron density, electron temperature and pressure agree, every kept reaction has the same rate, and a disabled reaction has a rate only if it was cut off, that is all its heavy reactants are still enabled. If no positive ion and no fed species was disabled, the right-hand sides for the kept densities differ by exactly what the reactions cut off make and use up; if moreover no disabled ion is returned by the wall as a kept one, those for the electron energy differ by exactly the energy exchanged in them. If no reaction was cut off, the reduced equations are the full ones on the kept species. After a request for species alone, a reaction cut off would make a disabled species (or has a disabled electron or M). Disabling a positive ion does change the equations, even at states where it has no density: the ambipolar diffusivity and the sheath voltage are means over the enabled positive ions.", "quantifier": "all chemistries, reachable states, sequences of disable calls, parameters, constants, densities, energies and times", "why_tests_cant": "an identity between two systems of differential equations over all networks and real states", "anchors": ["plaschem/chemistry.py:Chemistry.disable", "pygmo_fwork/pygmol/equations.py:Equations.__init__", "pygmo_fwork/pygmol/equations.py:Equations.get_objective_functions"]}
{"id": "C119", "title": "the order in which species and reactions are listed does not matter", "statement": "Take two chemistries with the same species and reactions (same ids), listed in different orders. Either both can be constructed or neither, and they start in the same state. After any history of calls, every further call disables, enables, protects and overrides the same species and reactions in both and raises the same exception; the getters return the same species and reactions up to order. Built with the same parameters, the equations of the global model give each species and the electron energy the same rate of change, and each reaction the same rate, at states with the same densities - provided all heavy reactants of an enabled elastic electron collision have the same mass. For an elastic collision with two kinds of heavy reactants the order does matter: the energy loss is computed with the mass of the one listed first.", "quantifier": "all pairs of chemistries that are permutations of each other, all histories of calls, parameters, densities, energies and times", "why_tests_cant": "invariance under all permutations of all chemistries over all histories and real states", "anchors": ["plaschem/chemistry.py:Chemistry.__init__", "plaschem/chemistry.py:Chemistry.disable", "pygmo_fwork/pygmol/equations.py:Equations.__init__", "pygmo_fwork/pygmol/equations.py:Equations.get_dy_dt"]}
{"id": "C120", "title": "what an ad-hoc attribute changes in the equations of the global model", "statement": "Set an ad-hoc pre-exponential factor of one reaction of a chemistry, after any history of calls, and compare the equations of the global model before and after at states with the same densities and the same parameters. That reaction has the rate it would have with the new factor, converted to SI by the unit of the reaction; every other reaction has the rate it had. Each species is made and lost by the change of that one rate times its net count in the reaction, and the electron energy changes by the loss of that reaction per event; for a disabled reaction nothing changes. With the factor zero the reaction may as well be disabled: the equations are the same. Set an ad-hoc sticking coefficient or ad-hoc return coefficients of a species: no reaction rate changes; each species changes by what the wall does to it through that species, now against before, and the electron energy only by what charged species lost or gained so carry with them; for a disabled species, the electron and M nothing changes. The new sticking coefficient is what the wall loss of the species is computed with, and the return coefficients are those given - or none if the species does not stick.", "quantifier": "all chemistries, histories of calls, reactions, species, ad-hoc values, parameters, densities, energies and times", "why_tests_cant": "a claim that nothing else in the equations changes, for every chemistry, history and real state", "anchors": ["plaschem/chemistry.py:Chemistry.set_adhoc_reactions_attributes", "plaschem/chemistry.py:Chemistry.set_adhoc_species_attributes", "pygmo_fwork/pygmol/equations.py:Equations.__init__", "pygmo_fwork/pygmol/equations.py:Equations.get_dy_dt"]}
{"id": "C121", "title": "the equations determine the time development", "statement": "Take physical data (as in C29). From every state with positive densities, a positive density of electrons and no vanishing denominator, and for a power that is continuous in time (as given by C32), the equations of the global model have an exact solution for a while, which stays in such states; a solution can be continued from its end as long as its last state is such a state. An exact solution that starts with positive densities and stays where the equations are defined is the only one with its initial state: any other solution over the same time that starts in the same state, wherever it may go, is equal to it at every time. Hence two set-ups from the same chemistry and parameters have the same time development, and the order in which species and reactions are listed does not matter for it (elastic collisions with one kind of partner).", "quantifier": "all data and chemistries, parameters, initial states, time intervals and pairs of exact solutions", "why_tests_cant": "existence and uniqueness of solutions of a differential equation is a statement about all functions of time", "anchors": ["pygmo_fwork/pygmol/equations.py:Equations.get_dy_dt", "pygmo_fwork/pygmol/equations.py:Equations.get_power_ext", "pygmo_fwork/pygmol/model.py:GlobalModel.run"]}
{"id": "C122", "title": "from accepted input to a well-posed model", "statement": "The data of the equations of the global model, read from a chemistry after any history of calls and from parameters, are physical (the hypothesis of C29, C97, C121 and others) exactly if: temperature, radius, length and pressure are positive and no enabled species is fed negatively; every enabled heavy species has positive mass and no negative sticking coefficient in force, none of its return coefficients in force towards an enabled species is negative, and no enabled reaction has a negative pre-exponential factor in force; stoichiometry never spoils it. If species are passed with positive masses and without negative sticking and return coefficients, reactions were accepted by their constructor, model parameters were accepted, and no call of the history set a negative ad-hoc value, the data are physical. In that case, for a chemistry with charge and an enabled neutral species, species of positive size, negative ions that stick and strictly increasing power times, there is exactly one time development from every state with positive densities, electrons and weakly coupled ions, at least for a while; all densities stay positive on it. (Finding: negative ad-hoc factors are accepted although Reaction refuses negative factors; the equations are then not physical.)", "quantifier": "all chemistries, histories of calls, accepted parameters and initial states", "why_tests_cant": "joins what constructors and setters check, over all histories, with existence and uniqueness of solutions for all real states", "anchors": ["plaschem/species.py:RP.__init__", "plaschem/reactions.py:Reaction.__init__", "plaschem/chemistry.py:Chemistry.set_adhoc_species_attributes", "plaschem/chemistry.py:Chemistry.set_adhoc_reactions_attributes", "pygmo_fwork/pygmol/model_parameters.py:ModelParameters.__init__", "pygmo_fwork/pygmol/equations.py:Equations.__init__"]}
{"id": "C123", "title": "what the runs of a Morris analysis solve", "statement": "For every chemistry after any history of calls for which the equations of the global model can be set up, and every vector of Morris factors of its reactions or species: the equations can be set up for the perturbed chemistry too; at the same densities each reaction has the rate it has in the analysed chemistry times its factor (twice its own factor, or the product of twice the factors of the enabled species taking part in it), each species is made and lost by what these changes amount to by its net counts, the electron energy changes by the energy exchanged in them, and flow, wall, power and all else are the same. If the analysed chemistry is physical so are all runs, and from every state in which the equations are defined each run has exactly one time development, at least for a while. With all factors 1/2 the time development is that of the analysed chemistry. An elementary effect of a reaction compares two systems of equations that differ by exactly one occurrence of the reaction at its nominal rate; one of a species compares two in which the rates of the reactions it takes part in are in one common ratio above two and all others equal. A reaction without electrons whose products are its reactants has no elementary effect: both developments are the same.", "quantifier": "all chemistries, histories of calls, vectors of factors, parameters, states and times", "why_tests_cant": "relates the equations and their solutions for all chemistries, all vectors of real factors and all states", "anchors": ["pygmo_fwork/optichem/morris.py:MorrisMethod.run_trajectory", "pygmo_fwork/optichem/morris.py:MorrisMethod._map_species_factors_to_k", "pygmo_fwork/optichem/morris.py:MorrisMethod._map_reactions_factors_to_k", "plaschem/chemistry.py:Chemistry.set_adhoc_reactions_attributes", "pygmo_fwork/pygmol/equations.py:Equations.get_dy_dt"]}
{"id": "C124", "title": "what the runs of a Morris analysis over return coefficients solve", "statement": "For every chemistry after any history of calls for which the equations of the global model can be set up, and every Morris trajectory over return coefficients: each run that does not fail has equations that can be set up; at the same state it has the same reaction rates and the same losses to the wall; of what sticks to the wall, the coefficients times range^(2x-1) come back, and by as much less (or more) of the sticking species itself, so that the total number of particles coming back is that of the analysed chemistry; the electron energy changes by what the electrons that follow the moved charges carry and by nothing else. If the analysed chemistry is physical so is each run, and from every state in which the equations are defined each run has exactly one time development, at least for a while. The development depends on the vector of factors only, not on the trajectory by which it was reached, and with all factors 1/2 it is that of the analysed chemistry. An elementary effect compares two systems of equations which differ in the source of the returned species and, with opposite sign, in that of the sticking species, and in the electron energy only if the charges of the two differ.", "quantifier": "all chemistries, histories of calls, trajectories, ranges of coefficients, parameters, states and times", "why_tests_cant": "relates the equations and their solutions for all chemistries, all trajectories of factors and all states", "anchors": ["pygmo_fwork/optichem/morris.py:MorrisMethod._map_a_factor_to_ret_coef", "pygmo_fwork/optichem/morris.py:MorrisMethod.run_trajectory", "plaschem/chemistry.py:Chemistry.set_adhoc_species_attributes", "plaschem/chemistry.py:Chemistry.get_return_matrix", "pygmo_fwork/pygmol/equations.py:Equations.get_dy_dt"]}
{"id": "C125", "title": "how far the time development goes", "statement": "For every physical chemistry and every start in which the equations of the global model are defined, there is a time up to which the time development exists: either the end of the run, which it reaches in a state in which the equations are defined, or an earlier (or the same) time before which the state leaves every compact set of states in which they are defined. Every other solution with this start agrees with it as long as both exist, and a development that leaves cannot be continued through such a state. If besides every species contains a conserved quantity that the wall does not create, the wall gives back neutrals only, ions are not lighter than a few electrons, reactions cost the electrons energy and none takes up more electrons than it releases, then densities and energy can not run away, no single density can run empty, and the one thing that can stop the development is the edge: all neutrals together or the electrons vanish, or two charged species come as close to each other as the screening length allows. Both hold for accepted input after every history of calls.", "quantifier": "all physical equations, starts, powers and lengths of the run; all chemistries, histories of calls and accepted parameters", "why_tests_cant": "is about the existence of solutions of the differential equations for all starts and up to all times, which no finite number of integrations shows", "anchors": ["pygmo_fwork/pygmol/equations.py:Equations.get_dy_dt", "pygmo_fwork/pygmol/equations.py:Equations.get_min_n_correction", "pygmo_fwork/pygmol/equations.py:Equations.get_min_rho_correction", "pygmo_fwork/pygmol/model.py:Model._solve"]}
{"id": "C126", "title": "small changes of the start or of the rates change the time development little", "statement": "For every physical chemistry whose time development reaches the end of the run in states in which the equations are defined: every run with a start and with pre-exponential factors near enough to the given ones also has a time development up to the end of the run, in states in which the equations are defined, and at all times each density and the electron energy differ from those of the first by at most a constant times the largest difference of the starts and of the factors. Hence for the runs of a Morris analysis over species or reactions: at every vector of factors that changes the rates by a small enough part (for reactions: near enough to the middle vector) the run reaches its end, and it differs from that with the analysed chemistry by at most a constant times this part, so that elementary effects stay bounded.", "quantifier": "all physical equations, runs, starts, rates, and times; all chemistries, histories of calls and vectors of factors", "why_tests_cant": "is about the existence of and the distance between solutions for all nearby starts and rates at all times", "anchors": ["pygmo_fwork/pygmol/equations.py:Equations.get_dy_dt", "pygmo_fwork/pygmol/model.py:Model._solve", "pygmo_fwork/optichem/morris.py:MorrisMethod._map_species_factors_to_k", "pygmo_fwork/optichem/morris.py:MorrisMethod._map_reactions_factors_to_k"]}
{"id": "C127", "title": "reactions that are slow enough can be disabled at the cost of a small error", "statement": "If reactions of a chemistry are disabled, but no species other than the electron and the placeholder M, and the run of the global model with the reduced chemistry reaches its end in states in which the equations are defined, then so does the run with the full chemistry from the same start, for all small enough rate coefficients of the disabled reactions; at all times each density and the electron energy of the two runs differ by at most a constant times the largest pre-exponential factor of a disabled reaction. The constant depends on the reduced chemistry and its run only, so that the error of the reduced chemistry goes to zero with the rates of the reactions removed.", "quantifier": "all chemistries, histories of calls, choices of disabled reactions, rate coefficients of them, parameters, starts, and times", "why_tests_cant": "is about exact solutions of two systems of differential equations at all times and about all small rate coefficients", "anchors": ["pygmo_fwork/pygmol/equations.py:Equations.get_dy_dt", "pygmo_fwork/pygmol/model.py:Model._solve", "plaschem/chemistry.py:Chemistry.disable", "plaschem/chemistry.py:Chemistry.set_adhoc_reactions_attributes"]}
{"id": "C128", "title": "small changes of the return coefficients change the time development little", "statement": "For every physical chemistry whose time development reaches the end of the run in states in which the equations are defined: every run from the same start with non-negative return coefficients near enough to the given ones also has a time development up to the end of the run, in states in which the equations are defined, and at all times each density and the electron energy differ from those of the first by at most a constant times the largest difference of the coefficients. Hence for the runs of a Morris analysis over return coefficients, at every point of every trajectory: if all coefficients under analysis are multiplied by numbers near enough to one, the run reaches its end and differs from that with the analysed chemistry by at most a constant times the largest relative change.", "quantifier": "all physical equations, runs, return coefficients and times; all chemistries, histories of calls, choices of coefficients, trajectories and points of them", "why_tests_cant": "is about the existence of and the distance between exact solutions for all nearby coefficients at all times", "anchors": ["pygmo_fwork/pygmol/equations.py:Equations.get_dy_dt", "pygmo_fwork/pygmol/model.py:Model._solve", "pygmo_fwork/optichem/morris.py:MorrisMethod", "plaschem/chemistry.py:Chemistry.set_adhoc_species_attributes"]}
{"id": "C129", "title": "small changes of the power or of the feed flows change the time development little", "statement": "For every physical chemistry whose time development reaches the end of the run in states in which the equations are defined: every run of the same chemistry from the same start with the same model parameters except for non-negative feed flows and a power series (at the same times) near enough to the given ones also has a time development up to the end of the run, in states in which the equations are defined, and at all times each density and the electron energy differ from those of the first by at most a constant times the largest difference of the flows and of the powers. A feed that is not named counts as zero, so naming a new feed gas with a small flow is a small change.", "quantifier": "all chemistries, histories of calls, model parameters, runs, feed flows, power series and times", "why_tests_cant": "is about the existence of and the distance between exact solutions for all nearby parameters at all times", "anchors": ["pygmo_fwork/pygmol/equations.py:Equations.get_dy_dt", "pygmo_fwork/pygmol/equations.py:Equations.get_flow_source_rates", "pygmo_fwork/pygmol/equations.py:Equations.get_drho_dt_ext", "pygmo_fwork/pygmol/model.py:Model._solve"]}
{"id": "C130", "title": "the error reported for a reduced chemistry is the error of the exact solutions, up to the accuracy of the solver", "statement": "Let the outputs read from the full and from the reduced solution at the times considered differ from the exact ones by at most some accuracy. (a) If the maximal error is reported as x, then at each time each exact output of the reduced chemistry differs from that of the full one by at most x times the largest value of the full one (enlarged by the accuracy) plus twice the accuracy. (b) If the exact outputs differ by at most c and each full output is at least M at one of the times, the reported error is at most 2 (c + 2 accuracy) / (M - 2 accuracy). (c) Hence the error reported for a chemistry in which only slow reactions are disabled can be made as small as asked for: for every threshold there are a bound for the rates and an accuracy such that the error reported for densities of species is below the threshold for all rates below the bound and all solutions of that accuracy.", "quantifier": "all pairs of solutions, outputs, times and accuracies; for (c) all chemistries, histories of calls, disabled reactions, rates, parameters and starts", "why_tests_cant": "relates computed numbers to exact solutions, which no test knows, for all solutions of a given accuracy", "anchors": ["pygmo_fwork/optichem/errors.py:SolutionsDiff.get_error_max", "pygmo_fwork/optichem/errors.py:SolutionsDiff.get_output_errors", "pygmo_fwork/pygmol/model.py:Model._post_process", "plaschem/chemistry.py:Chemistry.disable"]}
{"id": "C131", "title": "final rates and fluxes", "statement": "After a run of the global model that succeeded, whatever was asked of it since, the final rates are those of the last state of the solution, one for each enabled reaction, in order and under its id, and the final fluxes to the wall are those of the last state, one for each enabled heavy species, in order and under its name. They are the values that are read from the tables over time at the last time. Together they account for the end of the run: at the last state, the time derivative of each density is the sum over the reactions of the particles gained times the final rate, plus the net final flux from the wall, plus gas flow and correction of small densities. (Finding: with as many enabled reactions as heavy species the final rates are labelled by species.)", "quantifier": "all chemistries, solutions with any number of steps, and histories of calls before and after the run", "why_tests_cant": "all chemistries and all orders of calls of the equations object, whose arrays are reused", "anchors": ["pygmo_fwork/pygmol/model.py:Model.get_rates_final", "pygmo_fwork/pygmol/model.py:Model.get_wall_fluxes_final", "pygmo_fwork/pygmol/model.py:Model.diagnose"]}
{"id": "C132", "title": "files of chemistry attributes and the XML file of the chemistry", "statement": "Chemistry attributes can be dumped exactly if the chemistry was not read from an XML file or that file exists. If a chemistry refers to another XML file than the one whose attributes were dumped, or the content of the file has changed since, or the file is gone, then load_chemistry_attributes with the check of hashes raises ChemistryAttributeError and changes nothing; if nothing of that has changed, the check makes no difference, and without the check the XML file plays no role. check_coherence says yes only if path and content of the XML file are those at the time of the dump. (Finding: a dump that raises because the XML file is gone has already emptied the file it should write; a good dump is lost, and loading raises TypeError instead of the documented ChemistryAttributeError from then on.)", "quantifier": "all chemistries, states, paths, contents of XML files before and after, and states into which is loaded", "why_tests_cant": "all states and all changes of the files between dump and load", "anchors": ["plaschem/chemistry.py:Chemistry.dump_chemistry_attributes", "plaschem/chemistry.py:Chemistry.load_chemistry_attributes", "plaschem/chemistry.py:Chemistry.xml_hash", "plaschem/chemistry.py:Chemistry.check_coherence"]}
{"id": "C133", "title": "small changes of energy losses change a run little", "statement": "If a run of the global model reaches its end in states in which the equations are defined, so does every run of the same chemistry in which the energies lost by electrons in inelastic collisions differ little enough, and at all times the densities and the electron energy differ from those of the first run by at most a constant times the largest difference of the losses. The losses given for elastic collisions and for reactions without electrons play no role.", "quantifier": "all physical equations, runs, times and changes of losses below a bound", "why_tests_cant": "all runs and all changes; a statement about exact solutions", "anchors": ["pygmo_fwork/pygmol/equations.py:Equations.get_el_en_losses", "pygmo_fwork/pygmol/equations.py:Equations.get_dy_dt"]}
{"id": "C134", "title": "the table of results of a run holds what its columns say", "statement": "After a successful run the table of results has the columns t, the names of the enabled heavy species in order, e, Te, Tg and p, if no species has one of these five names. Each row is a step of the solver: its time, the densities of the species, the electron density that makes the plasma neutral, the electron temperature that belongs to the electron energy density (but at least that of the gas), the gas temperature, and the pressure of an ideal gas of all heavy species. The final solution is the last row. A species named Te (tellurium) is the exception: its densities are replaced by the electron temperatures.", "quantifier": "all chemistries, successful runs, solutions, steps and columns", "why_tests_cant": "all chemistries and solutions of any length", "anchors": ["pygmo_fwork/pygmol/model.py:Model._post_process", "pygmo_fwork/pygmol/model.py:Model.get_solution", "pygmo_fwork/pygmol/model.py:Model.get_solution_final"]}
