{"id": "C01", "title": "Node names and node numbers stay in one-to-one correspondence", "statement": "After any sequence of successful or failing Circuit.create_node / Circuit.add_node / new_internal_node calls on a fresh circuit, int_node_to_ext and ext_node_to_int are mutually inverse: each known name has exactly one number, each number exactly one name, asking for a known name again returns the number first assigned to it, and a number once assigned is never re-assigned to another name.", "quantifier": "all finite sequences of node-creating calls with arbitrary node names, including repeated names, '0' and names that already exist", "why_tests_cant": "Needs an invariant over unbounded call histories; a test exercises a handful of name orders.", "anchors": ["ahkab/circuit.py:Circuit.create_node", "ahkab/circuit.py:Circuit.add_node", "ahkab/circuit.py:Circuit.new_internal_node"]}
{"id": "C02", "title": "Node numbers are contiguous, with the reference node numbered 0", "statement": "After any sequence of node-creating calls, the numbers in use are exactly 0..n-1 if the reference node '0' was mentioned and exactly 1..n otherwise, n being the number of names known; only the name '0' ever gets number 0. Every node number is therefore a valid row of the unreduced MNA matrix.", "quantifier": "all finite sequences of node-creating calls", "why_tests_cant": "The numbering formula is a function of the dictionary size and of whether '0' was seen yet, so it has to be right at every history, e.g. '0' arriving last.", "anchors": ["ahkab/circuit.py:Circuit.create_node", "ahkab/circuit.py:Circuit.add_node", "ahkab/circuit.py:Circuit.get_nodes_number"]}
{"id": "C03", "title": "Removing an element does not damage the node table of the remaining circuit", "statement": "After Circuit.remove_elem on any element of any circuit: every remaining element still refers only to nodes present in the node table, and nodes created later never receive a number that is already in use.", "quantifier": "all circuits, all elements removed from them, all later node additions", "why_tests_cant": "A removal/insertion history is needed; unit tests remove one element and stop.", "anchors": ["ahkab/circuit.py:Circuit.remove_elem", "ahkab/circuit.py:Circuit.add_node"]}
{"id": "C04", "title": "Internal nodes are fresh", "statement": "Circuit.new_internal_node either raises ValueError leaving the node table unchanged, or returns a name that was not in the circuit; two successful calls on the same circuit never return the same name, whatever other calls happen between them.", "quantifier": "all histories of node creation calls interleaved with new_internal_node", "why_tests_cant": "Freshness must hold against every user-chosen name.", "anchors": ["ahkab/circuit.py:Circuit.new_internal_node"]}
{"id": "C05", "title": "Looking up branch-current indices by part id is the inverse of looking up part ids by index", "statement": "For any circuit whose part ids are unique up to case, find_vde_index(id) of a voltage-defined element equals the number of voltage-defined elements preceding it, and find_vde applied to that index plus the number of non-reference nodes returns the element with that id; find_vde_index raises ValueError exactly for ids that name no voltage-defined element, and find_vde raises IndexError exactly for out-of-range indices.", "quantifier": "all circuits (lists of elements of any kind), all part ids and indices, any letter case", "why_tests_cant": "The index is position-dependent: it must be right for every interleaving of voltage-defined and other elements.", "anchors": ["ahkab/circuit.py:Circuit.find_vde_index", "ahkab/circuit.py:Circuit.find_vde", "ahkab/circuit.py:is_elem_voltage_defined"]}
{"id": "C06", "title": "The assembled MNA system conserves current", "statement": "For every circuit of linear elements, in the unreduced MNA matrix and constant vector the sum of the node (KCL) rows is zero: whatever enters the circuit at one node leaves at another, for every value of the unknowns.", "quantifier": "all lists of R, C, L, V, I, E, F, G, H elements on arbitrary nodes with arbitrary values, all unknown vectors", "why_tests_cant": "It is an algebraic invariant of an accumulation over an arbitrary element list.", "anchors": ["ahkab/dc_analysis.py:generate_mna_and_N"]}
{"id": "C07", "title": "The MNA equations say exactly what the circuit laws say", "statement": "For every circuit of linear elements and every vector of node voltages and branch currents, row n of mna*x+N is the algebraic sum of the element currents leaving node n, and the row of each voltage-defined element is its documented constitutive law (V: v1-v2-V; L in DC: v1-v2; E: v1-v2-alpha*(vs1-vs2); H: v1-v2-alpha*I).", "quantifier": "all circuits of linear elements, all unknown vectors", "why_tests_cant": "A refinement statement over arbitrary netlists; tests compare a few circuits against stored numbers.", "anchors": ["ahkab/dc_analysis.py:generate_mna_and_N", "ahkab/components/sources/HVSource.py", "ahkab/components/sources/EVSource.py"]}
{"id": "C08", "title": "Dynamic elements enter transient and AC through the same, correct matrix", "statement": "For every circuit, row n of D*dx/dt is the sum of the currents C*d(v1-v2)/dt of the capacitors leaving node n (plus cmin), the row of each inductor is -L*dI/dt minus the sum of M*dI_other/dt over its couplings, all other rows are zero, and the AC analysis uses entry-by-entry the same matrix as the transient analysis.", "quantifier": "all circuits with any mix of capacitors, inductors, couplings and voltage-defined elements in any order", "why_tests_cant": "Branch rows are found by counting elements, so correctness depends on arbitrary element orders.", "anchors": ["ahkab/transient.py:generate_D", "ahkab/ac.py:_generate_AC"]}
{"id": "C09", "title": "Mutual inductance is reciprocal and physical", "statement": "Adding a coupling K between two distinct inductors produces the same mutual term in both inductors' equations; the mutual inductance is K*sqrt(L1*L2) so for |K|<=1 the stored energy of the coupled pair is never negative; a coupling of an inductor with itself or with an unknown inductor is rejected with an error.", "quantifier": "all inductor values, all K, all couplings lists, all currents", "why_tests_cant": "Energy positivity is an inequality over all currents; reciprocity over arbitrary circuits.", "anchors": ["ahkab/circuit.py:Circuit.add_inductor_coupling", "ahkab/transient.py:generate_D", "ahkab/components/Inductor.py:InductorCoupling"]}
{"id": "C10", "title": "AC excitation contains exactly the AC sources", "statement": "In the AC analysis the constant vector has, at node rows, the signed sum of the phasors of the current sources connected there, at branch rows minus the phasor of the corresponding voltage source, and zero for every other element; sources without AC value contribute nothing and DC values never leak in.", "quantifier": "all circuits and all AC source specifications", "why_tests_cant": "Rows are located by counting elements in arbitrary orders.", "anchors": ["ahkab/ac.py:_generate_Nac"]}
{"id": "C11", "title": "Dropping the reference row and column loses nothing", "statement": "For every circuit, a vector satisfies the reduced system (row and column 0 removed) if and only if its extension with reference voltage 0 satisfies the full system including the KCL at the reference node.", "quantifier": "all circuits, all unknown vectors", "why_tests_cant": "Relies on current conservation of arbitrary netlists.", "anchors": ["ahkab/utilities.py:remove_row_and_col", "ahkab/utilities.py:remove_row", "ahkab/dc_analysis.py:generate_mna_and_N"]}
{"id": "C12", "title": "Gmin loads only nodes, never branch equations", "statement": "The Gmin matrix added to help convergence is diagonal (after removal of the reference), equals gmin on every non-reference node and zero on every branch equation of voltage-defined elements, for every circuit.", "quantifier": "all circuits (number of nodes and voltage-defined elements), all gmin values", "why_tests_cant": "Index arithmetic over all sizes including circuits with no voltage-defined elements.", "anchors": ["ahkab/dc_analysis.py:build_gmin_matrix"]}
{"id": "C13", "title": "Newton damping keeps non-linear port voltages within the lock range", "statement": "For every proposed Newton update and every list of locked ports, the damping factor is in (0,1]; after damping no locked port voltage moves by more than the lock limit; the factor is the largest such number, i.e. an update already within limits is not damped.", "quantifier": "all update vectors, all port lists, all iteration numbers with damping of first iterations disabled", "why_tests_cant": "Universal inequality over real vectors; also the port with both nodes at ground.", "anchors": ["ahkab/dc_analysis.py:get_td"]}
{"id": "C14", "title": "Convergence is reported exactly when every unknown meets its tolerance", "statement": "convergence_check returns True iff for every node voltage |dv| <= vea+ver*|v+dv| with the residual current below tolerance and for every branch current |di| <= iea+ier*|i+di| with its residual voltage below tolerance; a single offending unknown at any position makes it False; tightening tolerances never turns False into True.", "quantifier": "all vectors of any length, all splits between voltages and currents (including no currents)", "why_tests_cant": "Universally quantified positions and lengths.", "anchors": ["ahkab/utilities.py:convergence_check", "ahkab/utilities.py:voltage_convergence_check", "ahkab/utilities.py:current_convergence_check", "ahkab/utilities.py:custom_convergence_check"]}
{"id": "C15", "title": "A linear circuit is solved exactly in one Newton step", "statement": "With default options, for a circuit without non-linear elements the Newton solver returns the exact solution of mna*x+N=0 (over exact arithmetic) from any starting point, and reports convergence.", "quantifier": "all non-singular linear systems, all starting points", "why_tests_cant": "Universal over systems and starting points.", "anchors": ["ahkab/dc_analysis.py:mdn_solver"]}
{"id": "C16", "title": "A successful DC solve solves the circuit that was asked for", "statement": "When dc_solve reports success, the last solver call it made was for the circuit with full-strength sources (and, at the end of Gmin stepping, with the smallest Gmin step); a homotopy that did not reach the actual circuit is never reported as a solution.", "quantifier": "all outcomes of every inner Newton solve (any pattern of convergence, failures and exceptions)", "why_tests_cant": "The outcome pattern of the inner solver is adversarial: exhaustive testing of 2^21 patterns with arbitrary circuits is not possible.", "anchors": ["ahkab/dc_analysis.py:dc_solve", "ahkab/dc_analysis.py:set_next_solve_method"]}
{"id": "C17", "title": "The DC solve always terminates after a bounded number of attempts, in the documented order", "statement": "Whatever the inner solver does, dc_solve ends after at most 21 Newton solves; it tries the standard solve first, then Gmin stepping, then source stepping, each only if enabled, and reports failure only when every enabled method has failed.", "quantifier": "all outcome patterns of the inner solver and all enabled/disabled combinations of methods", "why_tests_cant": "Termination under every outcome pattern.", "anchors": ["ahkab/dc_analysis.py:dc_solve", "ahkab/dc_analysis.py:get_solve_methods", "ahkab/dc_analysis.py:more_solve_methods_available", "ahkab/dc_analysis.py:set_next_solve_method"]}
{"id": "C18", "title": "A DC sweep visits exactly the requested values and leaves the circuit unchanged", "statement": "dc_analysis with start, stop, step runs one operating point at start, start+step, ..., never past stop, and after it returns (or raises) the swept source has its original DC value again.", "quantifier": "all start/stop/step values, all outcomes of the individual operating points", "why_tests_cant": "Universal over sweep parameters and failure points.", "anchors": ["ahkab/dc_analysis.py:dc_analysis", "ahkab/utilities.py:lin_axis_iterator"]}
{"id": "C19", "title": "Linear axes are evenly spaced and hit both end points", "statement": "Iterating a linear axis from min to max with an integer number of points >= 2 yields exactly that many values, the first is min, the last is max, consecutive differences are equal, and indexing the axis object agrees with iterating it; all values lie between min and max.", "quantifier": "all min, max, all integer points >= 2, all indices", "why_tests_cant": "Inductive over the number of points.", "anchors": ["ahkab/utilities.py:lin_axis_iterator"]}
{"id": "C20", "title": "Logarithmic axes are geometrically spaced and hit both end points", "statement": "Iterating a log axis from min to max (both positive) with an integer number of points >= 2 yields exactly that many values, the first is min, the last is max, consecutive ratios are equal, and values are monotone and within the end points.", "quantifier": "all positive min<max, all integer points >= 2", "why_tests_cant": "Inductive over the number of points.", "anchors": ["ahkab/utilities.py:log_axis_iterator"]}
{"id": "C21", "title": "combinations enumerates every k-subset once", "statement": "utilities.combinations(L, k) yields every choice of k elements of L (by position, in order) exactly once and nothing else, for 1 <= k <= len(L), and raises ValueError otherwise.", "quantifier": "all lists and all k", "why_tests_cant": "Universal over list lengths and k.", "anchors": ["ahkab/utilities.py:combinations"]}
{"id": "C22", "title": "PSS step, points and period are always consistent", "statement": "check_step_and_points returns an integer number of points and a step with (points-1)*step equal to the period exactly, whichever of step/points/default was supplied, and a supplied step is never exceeded by more than what rounding to an integer number of points requires.", "quantifier": "all periods, steps, points and defaults", "why_tests_cant": "Universal over numeric inputs, including degenerate ones.", "anchors": ["ahkab/utilities.py:check_step_and_points"]}
{"id": "C23", "title": "Memoising a pure device function never changes its value", "statement": "For a function whose value depends only on its hashable arguments, every call through the memoize decorator, after any sequence of previous calls and with any cache size limit, returns the same value as a direct call; the cache never grows past its limit plus one entry.", "quantifier": "all pure functions, all call histories, all cache limits", "why_tests_cant": "Universally quantified histories including evictions.", "anchors": ["ahkab/utilities.py:memoize"]}
{"id": "C24", "title": "Changing device state invalidates cached device evaluations", "statement": "After a device or model parameter changes (for example the temperature of a diode model), evaluating the device again returns the value for the new parameters even if the same voltages were evaluated before.", "quantifier": "all histories of parameter changes and evaluations", "why_tests_cant": "A history property.", "anchors": ["ahkab/utilities.py:memoize", "ahkab/diode.py:diode_model.set_temperature", "ahkab/diode.py:diode_model.get_gm"]}
{"id": "C25", "title": "The transient history buffer returns the most recent points, newest first", "statement": "After any sequence of additions to a history buffer of length n, the buffer holds exactly the last min(n, added) points in reverse order of insertion; asking for the DF vector gives the same list; asking whether it is full is true iff n points have been added.", "quantifier": "all lengths and all insertion sequences", "why_tests_cant": "Inductive over histories.", "anchors": ["ahkab/transient.py:dfbuffer"]}
{"id": "C26", "title": "Transient time points run strictly forward from tstart and never pass tstop", "statement": "In every transient analysis that completes, the recorded times start at tstart, are strictly increasing, end at or beyond tstop, and no recorded time is greater than tstop.", "quantifier": "all outcome patterns of Newton solves and of the local error estimator, with and without step control, all tstart<tstop, all tstep", "why_tests_cant": "The step sequence depends on adversarial outcomes of the inner solver.", "anchors": ["ahkab/transient.py:transient_analysis", "ahkab/transient.py:check_step"]}
{"id": "C27", "title": "Time steps respect their limits", "statement": "Every time step tried by the transient analysis is positive and not longer than the maximum step; with step control it is at most twice the previous one; the analysis never loops for ever at a failing time point: after finitely many consecutive rejections it raises.", "quantifier": "all outcome patterns of the inner solver and error estimator", "why_tests_cant": "Adversarial step histories.", "anchors": ["ahkab/transient.py:transient_analysis", "ahkab/transient.py:check_step"]}
{"id": "C28", "title": "Implicit Euler differentiates linear waveforms exactly", "statement": "For every step size h>0 and every affine waveform, the implicit Euler formula returns its exact derivative at the new time point, and the predictor its exact next value; the value returned is independent of older history.", "quantifier": "all affine waveforms, all non-zero step sizes, all previous-step sizes", "why_tests_cant": "Identity over the reals.", "anchors": ["ahkab/implicit_euler.py:get_df", "ahkab/implicit_euler.py:get_df_coeff"]}
{"id": "C29", "title": "The trapezoidal formula differentiates quadratic waveforms exactly", "statement": "For every quadratic waveform, any step sizes, given the exact past value and derivative, the trapezoidal formula returns the exact derivative at the new time point and its predictor the exact value.", "quantifier": "all quadratics, all positive step sizes", "why_tests_cant": "Identity over the reals.", "anchors": ["ahkab/trap.py:get_df"]}
{"id": "C30", "title": "The order-n Gear formula differentiates every polynomial of degree <= n exactly", "statement": "For every order n, every (possibly non-uniform) set of distinct past time points and every polynomial waveform of degree <= n, the Gear/BDF formula returns its exact derivative at the new time point.", "quantifier": "all orders, all time grids with distinct points, all polynomials of degree up to the order", "why_tests_cant": "Quantifies over order, grid and polynomial simultaneously.", "anchors": ["ahkab/gear.py:get_df"]}
{"id": "C31", "title": "The Gear predictor extrapolates polynomials of degree <= n exactly", "statement": "For every order n, every set of n+1 distinct past time points and every polynomial of degree <= n, the predicted value at the new time point is exact.", "quantifier": "all orders, grids and polynomials", "why_tests_cant": "Quantifies over order, grid and polynomial.", "anchors": ["ahkab/gear.py:get_df"]}
{"id": "C32", "title": "A pulse source behaves as documented at all times", "statement": "The pulse waveform stays between v1 and v2, equals v1 before the delay, is periodic with period per after it (t>=td), and within a period follows the documented rise/high/fall/low sequence, for rise, width and fall times fitting in the period.", "quantifier": "all pulse parameters, all real times", "why_tests_cant": "Continuous time and seven real parameters.", "anchors": ["ahkab/time_functions.py:pulse"]}
{"id": "C33", "title": "A piece-wise linear source interpolates its points", "statement": "The PWL waveform equals x[i] at t[i], is the straight line between consecutive points, is constant before the first and after the last point, and with a repeat time is periodic in the repeated part.", "quantifier": "all point lists with increasing times, all times", "why_tests_cant": "Universal over lists and times.", "anchors": ["ahkab/time_functions.py:pwl"]}
{"id": "C34", "title": "Analytic sources are continuous at their delay and hold their offset before it", "statement": "sin, exp, sffm and am sources hold their initial value before the delay time and start continuously from it (limit from the right equals the value before), exp never leaves the interval between v1 and v2 when v1<=v2 and td2>=td1.", "quantifier": "all parameters, all times", "why_tests_cant": "Real-analysis statement.", "anchors": ["ahkab/time_functions.py:sin", "ahkab/time_functions.py:exp", "ahkab/time_functions.py:sffm", "ahkab/time_functions.py:am"]}
{"id": "C35", "title": "Unit suffixes scale numbers by the documented factor, whatever their letter case", "statement": "convert_units applied to a decimal number followed by one of the documented suffixes returns the number times the suffix factor, in every upper/lower case combination; MEG is never confused with M, nor MIL with M; an unknown suffix raises and never silently changes the magnitude.", "quantifier": "all numerals, all suffix strings, all letter cases", "why_tests_cant": "The language of numerals and suffix strings is infinite.", "anchors": ["ahkab/netlist_parser.py:convert_units"]}
{"id": "C36", "title": "Analysis directives bind each token to one parameter", "statement": "parse_single_analysis assigns every token of an analysis line to exactly one documented parameter (by label if label=value, otherwise by position), fills every omitted optional parameter with its default, and raises NetlistParseError on a missing required parameter, an unknown label, a duplicate or an excess token; the result does not depend on the order of the labelled tokens.", "quantifier": "all token lists for all documented analysis specifications", "why_tests_cant": "Universal over token lists and permutations.", "anchors": ["ahkab/netlist_parser.py:parse_single_analysis"]}
{"id": "C37", "title": "Continuation lines join to the line they continue", "statement": "Joining physical lines with '+' continuation yields the same logical lines as concatenating each '+' line (without the '+') to its predecessor; no character other than the '+' markers and line ends is lost, and the number of logical lines is the number of lines not beginning with '+'.", "quantifier": "all files (all lists of lines)", "why_tests_cant": "Inductive over files.", "anchors": ["ahkab/netlist_parser.py:join_lines"]}
{"id": "C38", "title": "Subcircuit instances are isolated from each other and from the caller", "statement": "Instantiating a subcircuit connects its port nodes to the instance's nodes and maps ground to ground; every other node of the subcircuit gets a node private to that instance: two different instances never share a local node and no local node coincides with a node of the caller.", "quantifier": "all subcircuits, all instance names and connections, all node names", "why_tests_cant": "Quantifies over names; collisions need adversarial names.", "anchors": ["ahkab/circuit.py:_circuit_wrapper", "ahkab/netlist_parser.py:parse_sub_instance"]}
{"id": "C39", "title": "Initial conditions set exactly the requested unknowns", "statement": "Building x0 from a user supplied dictionary sets the listed node voltages and branch currents and leaves every other unknown 0; applying element initial conditions to an operating point makes each capacitor with ic see exactly that voltage and each inductor carry exactly that current, changing nothing else that is not needed.", "quantifier": "all circuits and all initial condition sets", "why_tests_cant": "Aliasing between unknowns depends on element connections.", "anchors": ["ahkab/dc_analysis.py:build_x0_from_user_supplied_ic", "ahkab/dc_analysis.py:modify_x0_for_ic"]}
{"id": "C40", "title": "A switch's resistance always lies between RON and ROFF and follows its hysteresis", "statement": "For every control voltage and switch state the resistance is strictly between RON and ROFF (positive), decreases monotonically with the control voltage at fixed state, and the state flips only when the control voltage leaves the hysteresis window.", "quantifier": "all control voltages, all model parameters with 0<RON<ROFF, all histories", "why_tests_cant": "Real-valued inequality and histories.", "anchors": ["ahkab/switch.py:vswitch_model"]}
{"id": "C41", "title": "Switch transconductances are the derivatives of the switch current", "statement": "The conductances returned by the switch model with respect to output and control voltage equal the partial derivatives of its current.", "quantifier": "all operating points and parameters", "why_tests_cant": "Derivative identity over reals.", "anchors": ["ahkab/switch.py:vswitch_model.get_go", "ahkab/switch.py:vswitch_model.get_gm"]}
{"id": "C42", "title": "Diode conductance is the derivative of diode current", "statement": "The diode model's conductance equals the derivative of its current at every voltage; the current is 0 at 0 V and strictly increasing.", "quantifier": "all voltages, all model parameters", "why_tests_cant": "Derivative identity and monotonicity over reals.", "anchors": ["ahkab/diode.py:diode_model._get_i", "ahkab/diode.py:diode_model.get_gm"]}
{"id": "C43", "title": "Square-law MOS current is continuous and drain/source symmetric", "statement": "The square-law MOS drain current and output conductance have no jump at the boundary between ohmic and saturation region for any LAMBDA; swapping drain and source reverses the current exactly; n- and p-type devices are mirror images.", "quantifier": "all bias points and parameters", "why_tests_cant": "Continuity and symmetry over reals.", "anchors": ["ahkab/mosq.py:mosq_mos_model.get_ids", "ahkab/mosq.py:mosq_mos_model.get_voltages", "ahkab/mosq.py:mosq_mos_model.get_gmd"]}
{"id": "C44", "title": "Square-law MOS transconductances are the derivatives of the drain current", "statement": "gm, gmd and gmb returned by the model equal the partial derivatives of the drain current in every region.", "quantifier": "all bias points strictly inside a region, all parameters", "why_tests_cant": "Derivative identities over reals.", "anchors": ["ahkab/mosq.py:mosq_mos_model.get_gm", "ahkab/mosq.py:mosq_mos_model.get_gmd", "ahkab/mosq.py:mosq_mos_model.get_gmb"]}
{"id": "C45", "title": "Device Jacobian stamps conserve current and ignore the reference potential", "statement": "For every non-linear device and bias, the columns of the unreduced conductance stamp sum to zero (current conservation) and so do its rows (shifting all terminal voltages changes nothing), also with drain and source exchanged; and adding the folded reduced stamp to the Jacobian gives the same matrix as adding the full stamp entry by entry and dropping the reference.", "quantifier": "all devices, biases and terminal connections, including terminals tied together or to ground", "why_tests_cant": "Quantifies over connection patterns and biases.", "anchors": ["ahkab/mosq.py:mosq_device.gstamp", "ahkab/diode.py:diode.gstamp", "ahkab/switch.py:switch_device.g"]}
{"id": "C46", "title": "EKV normalised charge and current are inverse, increasing functions", "statement": "ismall2qsmall and qsmall2ismall are mutually inverse on non-negative values; the normalised voltage is a strictly increasing function of the normalised current so the Newton inversion has at most one solution, and the derivative it uses is the true derivative; swapping drain and source reverses the sign of the current.", "quantifier": "all non-negative currents/charges, all bias points", "why_tests_cant": "Real-analysis statement.", "anchors": ["ahkab/ekv.py:ekv_mos_model.ismall2qsmall", "ahkab/ekv.py:ekv_mos_model.qsmall2ismall", "ahkab/ekv.py:ekv_mos_model.get_vsmall", "ahkab/ekv.py:ekv_mos_model.get_voltages"]}
{"id": "C47", "title": "Setting a device temperature depends only on the last temperature set", "statement": "Setting the temperature of a MOS model twice gives the same model as setting only the second temperature; setting the current temperature again changes nothing.", "quantifier": "all temperatures and histories", "why_tests_cant": "History property.", "anchors": ["ahkab/mosq.py:mosq_mos_model.set_device_temperature", "ahkab/ekv.py:ekv_mos_model.set_device_temperature"]}
{"id": "C48", "title": "What is written to a results file is what is read back", "statement": "Reading back a results file returns the samples written, in order, under the header they were written for, independent of header letter case and of the order in which headers are requested; reading it in chunks with skip/nsamples and concatenating gives the same as reading it at once, and the end-of-file flag is true exactly when the last sample has been delivered.", "quantifier": "all data matrices, headers, chunk sizes", "why_tests_cant": "Universal over chunkings and header permutations.", "anchors": ["ahkab/csvlib.py:write_csv", "ahkab/csvlib.py:load_csv", "ahkab/csvlib.py:get_headers_index"]}
{"id": "C49", "title": "Case-insensitive dictionaries are consistent maps up to case", "statement": "For keys inserted once, case_insensitive_dict lookup, membership and get agree, ignore the letter case and return the last value stored under that key.", "quantifier": "all insertion sequences and keys", "why_tests_cant": "History property.", "anchors": ["ahkab/results.py:case_insensitive_dict"]}
{"id": "C50", "title": "Every reported variable is read from its own unknown", "statement": "In op, dc, tran and ac results, the value reported for V(node) is the unknown of that node and the value reported for I(element) is the branch current of that element, for every circuit; the number of variables equals the number of unknowns and the names are pairwise distinct up to case when part ids and node names are.", "quantifier": "all circuits", "why_tests_cant": "Depends on two independently written counting loops agreeing for arbitrary element orders.", "anchors": ["ahkab/results.py:op_solution", "ahkab/results.py:tran_solution", "ahkab/dc_analysis.py:generate_mna_and_N"]}
{"id": "C51", "title": "Reported total power is the power delivered by the sources", "statement": "The total power dissipation reported with an operating point is minus the sum over all sources of (voltage across) x (current through), and equals the power dissipated in the resistors of a linear DC circuit.", "quantifier": "all circuits and solutions", "why_tests_cant": "Tellegen-type identity over arbitrary circuits.", "anchors": ["ahkab/results.py:op_solution._get_elements_op"]}
{"id": "C52", "title": "The Gmin check lists exactly the variables that depend on Gmin", "statement": "gmin_check lists a variable iff the two solutions differ by more than the relative tolerance of the larger plus the absolute tolerance for its unit; it is symmetric in the two solutions and empty when they are equal.", "quantifier": "all pairs of solutions", "why_tests_cant": "Universal over values.", "anchors": ["ahkab/results.py:op_solution.gmin_check"]}
{"id": "C53", "title": "run executes the requested analyses once each, in order", "statement": "run(circ, list) executes each analysis once in the order given, returns for each analysis type the result of the last analysis of that type, does not modify the caller's list, and leaves the queue empty when it was used; an analysis that asked for x0='op' receives the most recent operating point computed before it in the same run. An analysis that raises has been taken from the queue and the others stay in it; a label that nothing provides raises ValueError when operating points stand before the analysis.", "quantifier": "all analysis lists and queues", "why_tests_cant": "History property.", "anchors": ["ahkab/ahkab.py:run", "ahkab/ahkab.py:queue", "ahkab/ahkab.py:_handle_netlist_ics"]}
{"id": "C54", "title": "The shooting update satisfies the linearised periodic system", "statement": "In each iteration of the shooting method the updates dx_i computed for all points of the period satisfy MA_i*dx_i + MB*dx_{i-1} + T_i = 0 for every i, with dx_{-1} = dx_{N-1} (periodicity), whenever the matrices it inverts are invertible.", "quantifier": "all numbers of points, all matrices", "why_tests_cant": "Matrix recurrence of arbitrary length.", "anchors": ["ahkab/shooting.py:_compute_dxN", "ahkab/shooting.py:_compute_dx", "ahkab/shooting.py:shooting_analysis"]}
{"id": "C55", "title": "The brute-force PSS matrix encodes implicit Euler and periodicity", "statement": "Multiplying the brute-force PSS matrix by a stacked vector gives, at block 0, x_0 - x_{N-1} and at block i the implicit Euler discretisation (mna + D/h) x_i - D/h x_{i-1}.", "quantifier": "all sizes and numbers of points", "why_tests_cant": "Block-matrix identity of arbitrary size.", "anchors": ["ahkab/bfpss.py:_build_CMAT"]}
{"id": "C56", "title": "FFT length is the smallest power of two not below the requested number of points", "statement": "spicefft uses 2^k points with 2^k >= np and 2^(k-1) < np for every np >= 2, and 2 for smaller np.", "quantifier": "all requested np", "why_tests_cant": "Universal over integers.", "anchors": ["ahkab/fourier.py:spicefft"]}
{"id": "C57", "title": ".FFT directive parameters reach the parameter they name", "statement": "The value given as start=, stop=, np=, fmin=, fmax=, window=, alpha=, freq=, format= in a .FFT line is passed to the FFT function parameter with that meaning.", "quantifier": "all .FFT lines", "why_tests_cant": "A specification table; the claim ranges over all parameter values.", "anchors": ["ahkab/fourier.py:specs", "ahkab/netlist_parser.py:parse_postproc"]}
{"id": "C58", "title": "The ground-path check accepts exactly the circuits whose nodes all have a DC path to ground", "statement": "check_ground_paths accepts a circuit iff every node is connected to the reference node through a chain of elements that conduct DC.", "quantifier": "all circuits", "why_tests_cant": "Graph reachability over arbitrary graphs.", "anchors": ["ahkab/utilities.py:check_ground_paths"]}
{"id": "C59", "title": "The circuit check rejects malformed circuits and nothing else", "statement": "check_circuit rejects a circuit iff it has fewer than two nodes, no reference node, fewer than two elements, duplicate part ids, or nodes without a path to ground.", "quantifier": "all circuits", "why_tests_cant": "Decision logic over arbitrary circuits.", "anchors": ["ahkab/utilities.py:check_circuit"]}
{"id": "C60", "title": "Printed netlist lines parse back to the same element", "statement": "For every element, parsing the line produced by get_netlist_elem_line yields an element with the same id, nodes and parameters.", "quantifier": "all elements of all types with all parameter values", "why_tests_cant": "Round trip over infinite value sets.", "anchors": ["ahkab/components/Component.py", "ahkab/netlist_parser.py:parse_elem_resistor", "ahkab/components/sources/VSource.py"]}
{"id": "C61", "title": "The symbolic equations are the numeric equations with symbols in place of numbers", "statement": "Substituting element values for the symbols in the symbolic MNA matrix and vector gives the numeric MNA matrix (plus s times the dynamic matrix) and vector of the same linear circuit.", "quantifier": "all linear circuits, all values, all s", "why_tests_cant": "Equality of two independently written assemblers over arbitrary netlists.", "anchors": ["ahkab/symbolic.py:generate_mna_and_N", "ahkab/dc_analysis.py:generate_mna_and_N", "ahkab/transient.py:generate_D"]}
{"id": "C62", "title": "Reported poles are the natural frequencies of the circuit", "statement": "For a linear circuit with invertible (shifted) MNA matrix, s is a finite natural frequency (det(mna + s*D)=0, s different from the shift) iff 2*pi*p computed from a non-zero eigenvalue of the time-constant matrix equals s; a mutual inductance changes the poles accordingly.", "quantifier": "all linear circuits, all shifts", "why_tests_cant": "Determinant identity over arbitrary circuits.", "anchors": ["ahkab/pz.py:calculate_singularities"]}
{"id": "C63", "title": "Matrix helper functions do what their documentation says", "statement": "expand_matrix adds zero rows/columns and preserves all entries; set_submatrix changes exactly the addressed block; remove_row_and_col and remove_row delete exactly the addressed row/column and preserve all other entries in order; removing what was just added restores the matrix.", "quantifier": "all matrices and indices", "why_tests_cant": "Universal over sizes.", "anchors": ["ahkab/utilities.py:expand_matrix", "ahkab/utilities.py:set_submatrix", "ahkab/utilities.py:remove_row_and_col", "ahkab/utilities.py:remove_row"]}
{"id": "C64", "title": "A failed add leaves the circuit unchanged", "statement": "If an add_* call raises (zero resistance, zero capacitance, unknown model, unknown sense source), the circuit has the same nodes and elements as before the call.", "quantifier": "all circuits and all failing add calls", "why_tests_cant": "Exception-safety over all states and inputs.", "anchors": ["ahkab/circuit.py:Circuit.add_resistor", "ahkab/circuit.py:Circuit.add_capacitor", "ahkab/circuit.py:Circuit.add_diode", "ahkab/circuit.py:Circuit.add_switch"]}
{"id": "C65", "title": "A grounded network of positive resistors has exactly one operating point", "statement": "For every network of positive resistances in which each node is connected to ground through resistors, the reduced conductance matrix assembled by the simulator is symmetric positive definite, so for every set of current sources the operating point exists and is unique; without Gmin and with any non-negative Gmin.", "quantifier": "all resistor networks connected to ground, all current sources", "why_tests_cant": "Existence/uniqueness over arbitrary graphs.", "anchors": ["ahkab/dc_analysis.py:generate_mna_and_N", "ahkab/dc_analysis.py:build_gmin_matrix"]}
{"id": "C66", "title": "Resistor networks dissipate: the assembled conductance matrix is passive", "statement": "For every list of resistors with positive values (on arbitrary nodes) and every vector of node voltages the quadratic form v' G v of the assembled matrix is the sum of (v1-v2)^2/R over the resistors and hence non-negative, and the matrix is symmetric.", "quantifier": "all resistor lists, all voltage vectors", "why_tests_cant": "Quadratic form over arbitrary netlists.", "anchors": ["ahkab/dc_analysis.py:generate_mna_and_N"]}
{"id": "C67", "title": "The order of elements in the netlist does not change node equations", "statement": "Permuting the elements of a circuit that are not voltage-defined leaves the MNA matrix and constant vector unchanged; in general permuting all elements permutes only the branch unknowns.", "quantifier": "all circuits, all permutations", "why_tests_cant": "Universal over permutations.", "anchors": ["ahkab/dc_analysis.py:generate_mna_and_N"]}
{"id": "C68", "title": "Operating points of linear circuits superpose", "statement": "The operating point of a linear circuit is a linear function of its independent source values: scaling all sources scales the solution, and the response to the sum of two source sets is the sum of the responses.", "quantifier": "all linear circuits and source values", "why_tests_cant": "Linearity over arbitrary circuits.", "anchors": ["ahkab/dc_analysis.py:generate_mna_and_N", "ahkab/dc_analysis.py:mdn_solver"]}
{"id": "C69", "title": "Independent sources return their DC value outside transient and their waveform inside", "statement": "V(t)/I(t) of an independent source equal its dc_value when it has no time function or when no time is given and a dc value is set, and equal its time function at that time otherwise; a failing combination raises instead of returning a stale value.", "quantifier": "all sources and times", "why_tests_cant": "Decision table over all attribute combinations.", "anchors": ["ahkab/components/sources/VSource.py:VSource.V", "ahkab/components/sources/ISource.py:ISource.I"]}
{"id": "C70", "title": "Time dependent sources are evaluated at the solver's time and placed at the right equation", "statement": "In dc_solve/transient, the time-dependent part of the constant vector has at each node row the signed sum of the time-dependent current sources there and at each branch row minus the value of the time-dependent voltage source of that branch, zero elsewhere; together with the DC constant vector each source is counted exactly once.", "quantifier": "all circuits with any mix of DC and time-dependent sources, all times", "why_tests_cant": "Double counting / omission must be excluded for every mix and order of elements.", "anchors": ["ahkab/dc_analysis.py:dc_solve", "ahkab/dc_analysis.py:generate_mna_and_N"]}
{"id": "C71", "title": "Boolean parameters accept exactly the documented spellings", "statement": "convert_boolean maps the documented true spellings to True and false spellings to False, case-insensitively, and raises NetlistParseError on anything else.", "quantifier": "all strings", "why_tests_cant": "Infinite input set.", "anchors": ["ahkab/netlist_parser.py:convert_boolean"]}
{"id": "C72", "title": "param=value splitting loses nothing", "statement": "parse_param_value_from_string splits at the first '=' so that label and value re-joined with '=' give the original string, and rejects strings that are not of the form param=value.", "quantifier": "all strings", "why_tests_cant": "Infinite input set.", "anchors": ["ahkab/netlist_parser.py:parse_param_value_from_string", "ahkab/netlist_parser.py:is_valid_value_param_string"]}
{"id": "C73", "title": "Temperature conversions are inverse", "statement": "Celsius2Kelvin and Kelvin2Celsius are mutually inverse.", "quantifier": "all temperatures", "why_tests_cant": "Identity over reals (exact arithmetic).", "anchors": ["ahkab/utilities.py:Celsius2Kelvin", "ahkab/utilities.py:Kelvin2Celsius"]}
{"id": "C74", "title": "The progress ticker never indexes outside its frames", "statement": "However often it is stepped, the ticker's frame index stays within its list of frames and cycles through all of them.", "quantifier": "all step counts", "why_tests_cant": "Unbounded iteration.", "anchors": ["ahkab/ticker.py:ticker.step"]}
{"id": "C75", "title": "Resistor value and conductance stay reciprocal", "statement": "After any sequence of assignments to value and g of a resistor, g*value = 1, and assigning zero is rejected or leaves the invariant intact.", "quantifier": "all assignment histories", "why_tests_cant": "History property.", "anchors": ["ahkab/components/Resistor.py:Resistor"]}
{"id": "C76", "title": "Elements of a circuit built through the API refer to valid nodes", "statement": "In any circuit built by any sequence of add_* calls, every node number an element refers to (terminals, sense nodes, device ports) is in the node table; each successful call appends one element connected to exactly the named nodes in the given polarity; and if the reference node is present, all numbers are valid rows of the equation system.", "quantifier": "all sequences of add_* calls, including failing ones", "why_tests_cant": "Unbounded call histories; tests build a handful of circuits.", "anchors": ["ahkab/circuit.py:Circuit.add_resistor", "ahkab/circuit.py:Circuit.add_vcvs", "ahkab/circuit.py:Circuit.add_mos", "ahkab/circuit.py:Circuit.add_node"]}
{"id": "C77", "title": "A failed convergence check can tell which unknowns failed", "statement": "convergence_check called with debug=True returns, besides the flag, a list with one entry per checked unknown, and mdn_solver returns it as convergence_by_node when it does not converge.", "quantifier": "all vectors and tolerances", "why_tests_cant": "The content of the list depends on all inputs.", "anchors": ["ahkab/utilities.py:convergence_check", "ahkab/utilities.py:custom_convergence_check", "ahkab/dc_analysis.py:mdn_solver"]}
{"id": "C78", "title": "The Newton solver reports exactly what its last step showed", "statement": "mdn_solver performs between 1 and MAXIT iterations, reports convergence iff the last convergence check passed (or the circuit is linear), never reports a point as converged whose last increment or residual is out of tolerance, and stays at an exact solution.", "quantifier": "all circuits, starting points, iteration limits", "why_tests_cant": "Iterates depend on arbitrary device functions.", "anchors": ["ahkab/dc_analysis.py:mdn_solver", "ahkab/dc_analysis.py:_update_J_and_Tx"]}
{"id": "C79", "title": "Damping of the first iterations never fakes convergence", "statement": "With options.nr_damp_first_iters enabled, a circuit reported as converged by mdn_solver still satisfies its equations within tolerance.", "quantifier": "all circuits and option settings", "why_tests_cant": "Depends on the solution of arbitrary systems.", "anchors": ["ahkab/dc_analysis.py:mdn_solver", "ahkab/dc_analysis.py:get_td"]}
{"id": "C80", "title": "A DC sweep returns a solution iff some sweep value was solved", "statement": "dc_analysis returns a dc_solution when a solution was found for at least one sweep value and None when there was none; every point in the returned solution is a value at which the operating point was computed, with the solution found there.", "quantifier": "all sweeps, all outcome patterns of the operating points, skipping allowed or not", "why_tests_cant": "Adversarial failure patterns.", "anchors": ["ahkab/dc_analysis.py:dc_analysis"]}
{"id": "C81", "title": "Local error estimates are exact one degree above the order", "statement": "For a waveform that is a polynomial of degree order+1 and the value that the differentiation formula determines from the exact derivative, the local truncation error computed from the predictor (transient.py lte) equals the actual error of that value, for implicit Euler, trapezoidal rule and Gear of any order.", "quantifier": "all polynomials of degree order+1, all non-degenerate time grids and steps, all Gear orders", "why_tests_cant": "Identity over polynomials, grids and orders at once.", "anchors": ["ahkab/transient.py:transient_analysis", "ahkab/implicit_euler.py:get_df", "ahkab/trap.py:get_df", "ahkab/gear.py:get_df"]}
{"id": "C82", "title": "Duplicate part ids are detected", "statement": "has_duplicate_elem is true exactly if two different elements of the circuit have the same part id.", "quantifier": "all circuits", "why_tests_cant": "ids come from user text and sub-circuit expansion, so every pair of positions matters", "anchors": ["ahkab/circuit.py:Circuit.has_duplicate_elem"]}
{"id": "C83", "title": "Documented analysis and source syntax is accepted", "statement": "Every parameter that doc/help/Netlist-Syntax.rst names for an analysis or a time function is accepted under that name, is mandatory exactly when documented so, and has the documented default.", "quantifier": "all documented parameters and all lines using them", "why_tests_cant": "A test checks single lines; the claim covers every documented parameter with arbitrary other tokens.", "anchors": ["ahkab/netlist_parser.py:parse_single_analysis", "ahkab/time_functions.py:time_fun_specs", "ahkab/dc_analysis.py:specs", "ahkab/ac.py:specs", "ahkab/pz.py:specs", "ahkab/pss.py:specs", "doc/help/Netlist-Syntax.rst"]}
{"id": "C84", "title": "Every line of a netlist file reaches its destination, once and in order", "statement": "Reading a netlist file drops comments, sends .model, post-processing and other directive lines to their lists, element lines outside subcircuits to the main netlist and those inside to their subcircuit, in order, ignores everything after .end, and fails exactly on nested, unopened or unclosed subcircuits and malformed includes.", "quantifier": "all files", "why_tests_cant": "The groups depend on the whole history of subcircuit directives; tests use a few files.", "anchors": ["ahkab/netlist_parser.py:parse_circuit"]}
{"id": "C85", "title": "The line number recorded for a netlist line is its number in the file", "statement": "Every logical line is recorded with the number, in the file, of the physical line where it begins; this number is what parse errors report.", "quantifier": "all files", "why_tests_cant": "Depends on all preceding blank and continuation lines.", "anchors": ["ahkab/netlist_parser.py:parse_circuit", "ahkab/netlist_parser.py:join_lines"]}
{"id": "C86", "title": "A comment at the end of an element line changes nothing", "statement": "If an element line is accepted, then the same line followed by a comment (a word starting with * and anything after it) is accepted and gives the same element.", "quantifier": "all accepted element lines, all comments", "why_tests_cant": "The comment interacts with word counts and positions differently in every parser; tests use a few comments.", "anchors": ["ahkab/netlist_parser.py:parse_elem_capacitor", "ahkab/netlist_parser.py:parse_elem_inductor", "ahkab/netlist_parser.py:parse_elem_inductor_coupling", "ahkab/netlist_parser.py:parse_elem_vsource"]}
{"id": "C87", "title": "Documented element lines are accepted and give the documented element", "statement": "Every element line written according to the documented syntax is accepted, and the element has the id, nodes, values and options of the line, with the documented defaults.", "quantifier": "all lines of the documented forms", "why_tests_cant": "Infinitely many names and values; optional parameters in many combinations.", "anchors": ["ahkab/netlist_parser.py:parse_elem_diode", "ahkab/netlist_parser.py:parse_elem_isource", "ahkab/netlist_parser.py:parse_time_function", "doc/help/Netlist-Syntax.rst"]}
{"id": "C88", "title": "References inside a subcircuit stay inside the instance", "statement": "If an element of a subcircuit refers to another element of it by id (controlling source of F and H elements, inductors of a coupling), then in every instance it refers to the corresponding element of the same instance.", "quantifier": "all subcircuits, all instances", "why_tests_cant": "Needs instances whose element ids coincide with ids of the caller; results are plausible but wrong.", "anchors": ["ahkab/netlist_parser.py:parse_sub_instance", "ahkab/circuit.py:get_elem_by_name"]}
{"id": "C89", "title": "The switch closes above VT+VH and opens below VT-VH", "statement": "A switch evaluated at a control voltage above VT+VH is closed afterwards, and one evaluated below VT-VH is open; VON and VOFF determine VT and VH by the documented relations, VH not being negative.", "quantifier": "all models, all control voltages, all states", "why_tests_cant": "Hysteresis with a smooth transition: real control voltages near the thresholds, all histories.", "anchors": ["ahkab/switch.py:vswitch_model._update_status", "ahkab/switch.py:vswitch_model.__init__"]}
{"id": "C90", "title": "Diode temperature: state depends only on the last temperature set", "statement": "Setting the temperature of a diode model to T gives the same saturation current, breakdown voltage, series resistance and thermal voltage whatever temperatures were set before, and setting the present temperature changes nothing; the thermal voltage used in the current is that of the temperature set.", "quantifier": "all histories of temperatures, all model parameters", "why_tests_cant": "Quantifies over histories; identities of exponentials and powers over reals.", "anchors": ["ahkab/diode.py:diode_model.set_temperature", "ahkab/diode.py:diode_model.get_i"]}
{"id": "C91", "title": "MOS model constructors treat n and p symmetrically", "statement": "A MOS model accepts exactly the types n and p (either case), and a p-type model built with mirrored arguments (or with the defaults) has the internal threshold and temperature coefficient of the n-type one.", "quantifier": "all argument values", "why_tests_cant": "Quantifies over argument values and absent arguments of two constructors.", "anchors": ["ahkab/ekv.py:ekv_mos_model.__init__", "ahkab/mosq.py:mosq_mos_model.__init__"]}
{"id": "C92", "title": "p-type EKV transistor is the mirror image of the n-type", "statement": "With the same internal parameters, negating all terminal voltages of a p-type EKV device gives minus the current and the same three conductances as the n-type device.", "quantifier": "all bias points and parameters", "why_tests_cant": "Symmetry over reals.", "anchors": ["ahkab/ekv.py:ekv_mos_model.get_ids", "ahkab/ekv.py:ekv_mos_model.get_gmg"]}
{"id": "C93", "title": "AC results read back are the phasors computed", "statement": "Whatever name of a node voltage or branch current is asked for, in any letter case, an AC result gives the complex numbers that were computed for that unknown at the frequencies of the sweep.", "quantifier": "all circuits, sweeps and option settings", "why_tests_cant": "Round trip through modulus and phase over complex numbers.", "anchors": ["ahkab/results.py:ac_solution.add_line", "ahkab/results.py:ac_solution.__getitem__"]}
{"id": "C94", "title": "Every pole and zero can be read from a pole-zero result", "statement": "A pole-zero result gives under p0, p1, ... and z0, z1, ... in any letter case the poles and zeros it was built from.", "quantifier": "all lists of poles and zeros", "why_tests_cant": "Universal over list lengths.", "anchors": ["ahkab/results.py:pz_solution.__init__", "ahkab/results.py:pz_solution.__getitem__"]}
{"id": "C95", "title": "Analyses of a netlist use the last operating point of that netlist", "statement": "main executes the analyses of a netlist once each in their order; an analysis that asks for the operating point (uic=1, uic=2, .pz) gets the result of the last .op before it in the same netlist, and the netlist is refused if there is none.", "quantifier": "all netlists, all sessions", "why_tests_cant": "The operating point comes from a dictionary of the module that survives from one netlist to the next.", "anchors": ["ahkab/ahkab.py:main", "ahkab/ahkab.py:_handle_netlist_ics", "ahkab/ahkab.py:run"]}
{"id": "C96", "title": "get_op_x0 returns an operating point", "statement": "get_op_x0(circ) runs one operating point analysis and returns its solution, without touching the queue.", "quantifier": "all circuits", "why_tests_cant": "The value is of another type than documented; no test uses it as x0.", "anchors": ["ahkab/ahkab.py:get_op_x0"]}
{"id": "C97", "title": "Analysis descriptions fit the functions that execute them", "statement": "Every description produced by the parser for an accepted directive, or by a constructor new_*, passes exactly keyword arguments known to the function registered for its type and all the required ones.", "quantifier": "all directive lines, all analysis types", "why_tests_cant": "Keyword mismatch shows at run time only, for the one type concerned.", "anchors": ["ahkab/ahkab.py:analysis", "ahkab/ahkab.py:main", "ahkab/netlist_parser.py:parse_single_analysis", "ahkab/netlist_parser.py:parse_temp_directive"]}
{"id": "C98", "title": "The shooting method returns a solution with the period asked for", "statement": "When the shooting method has converged, the solution at the last point (time = period) equals the solution at the first (time 0), for sources that have the given period.", "quantifier": "all circuits, numbers of points, periods", "why_tests_cant": "An error of one step in the period changes waveforms by a small amount that a tolerance hides.", "anchors": ["ahkab/shooting.py:shooting_analysis", "ahkab/utilities.py:check_step_and_points"]}
{"id": "C99", "title": "The residual of the brute-force method is that of the discretised equations", "statement": "The residual used by the Newton iteration of the brute-force PSS method is the column vector CMAT*x + T + Tf + Tt with CMAT*x the matrix product, for every number of unknowns and points.", "quantifier": "all sizes", "why_tests_cant": "The storage type of the matrix depends on the problem size.", "anchors": ["ahkab/bfpss.py:bfpss", "ahkab/bfpss.py:_build_Tf"]}
{"id": "C100", "title": "The FFT uses 1024 points unless told otherwise", "statement": "A .FFT directive without NP= uses an FFT of 1024 points.", "quantifier": "all .FFT lines without NP", "why_tests_cant": "The default of the directive and of the function are in different places.", "anchors": ["ahkab/fourier.py:specs", "ahkab/fourier.py:spicefft", "ahkab/netlist_parser.py:parse_postproc"]}
{"id": "C101", "title": "Harmonic analysis reports DC and harmonics one to nine of the given frequency", "statement": "spicefft with freq=f returns the frequencies 0, f, 2f, ... 9f.", "quantifier": "all frequencies and intervals", "why_tests_cant": "Sampling and frequency axis depend on the interval in ways a single example hides.", "anchors": ["ahkab/fourier.py:spicefft"]}
{"id": "C102", "title": "The interval used by .FOUR is chosen as documented", "statement": "fourier() uses a whole number of periods, at least one, not more than half of the simulation if possible, and otherwise as many as possible, taken from the end.", "quantifier": "all simulation intervals and fundamentals", "why_tests_cant": "Case distinction over the ratio of two real numbers.", "anchors": ["ahkab/fourier.py:fourier"]}
{"id": "C103", "title": ".FOUR reports DC and nine harmonics with the matching bins", "statement": "fourier() returns the frequencies 0, f, ... 9f and, in the same order, the bins of the discrete Fourier transform at these frequencies.", "quantifier": "all numbers of periods and fundamentals", "why_tests_cant": "Index arithmetic over an arbitrary number of periods.", "anchors": ["ahkab/fourier.py:fourier"]}
{"id": "C104", "title": "fmin and fmax keep DC and exactly the band", "statement": "spicefft with fmin and/or fmax returns the DC component and exactly those components with fmin <= f <= fmax, each with its own value, and refuses a band without components.", "quantifier": "all spectra and bands", "why_tests_cant": "Universal over spectra.", "anchors": ["ahkab/fourier.py:spicefft"]}
{"id": "C105", "title": "The total harmonic distortion is that of the signal", "statement": "For a signal composed of DC and harmonics (below the aliasing limit) the THD returned by fourier() and spicefft() is the root of the sum of squares of the amplitudes of harmonics 2 and up over the amplitude of the fundamental.", "quantifier": "all amplitudes, phases, intervals", "why_tests_cant": "Identity of trigonometric sums over arbitrary numbers of samples.", "anchors": ["ahkab/fourier.py:fourier", "ahkab/fourier.py:spicefft"]}
{"id": "C106", "title": "The printed DC component is the DC component of the signal", "statement": "print_fourier prints as DC component the mean value of the analysed signal.", "quantifier": "all signals of harmonics", "why_tests_cant": "Scale factor that depends on the number of samples.", "anchors": ["ahkab/printing.py:print_fourier", "ahkab/fourier.py:fourier"]}
{"id": "C107", "title": "A plain FFT reports the multiples of the inverse of the interval", "statement": "spicefft without freq returns the frequencies k/(stop-start), k = 0 ... N/2-1, for N samples, and as many values, value k being bin k.", "quantifier": "all intervals and sizes", "why_tests_cant": "Universal over sizes.", "anchors": ["ahkab/fourier.py:spicefft"]}
{"id": "C108", "title": "Plot labels denote the quantities they name", "statement": "V(a), V(a,b) and I(x) in .PLOT, .FOUR and .FFT are translated to the node voltage, the voltage between two nodes and the current, for all names and for the reference node.", "quantifier": "all names", "why_tests_cant": "Regular expressions over arbitrary names.", "anchors": ["ahkab/plotting.py:_split_netlist_label"]}
{"id": "C109", "title": "A plotted voltage between two nodes is the voltage between them", "statement": "For .PLOT the curve of V(a,b) is the difference of the node voltages; for AC results its magnitude.", "quantifier": "all results", "why_tests_cant": "Complex numbers of different phase.", "anchors": ["ahkab/netlist_parser.py:parse_postproc", "ahkab/plotting.py:plot_results"]}
{"id": "C110", "title": "Symbolic unknowns are symbols of their own", "statement": "In the symbolic analysis every node voltage and every branch current is a symbol different from the symbols of the element values.", "quantifier": "all circuits, all node names and part ids", "why_tests_cant": "Needs an adversarial pair of names; the equations are then silently different.", "anchors": ["ahkab/symbolic.py:get_variables", "ahkab/symbolic.py:_symbol_factory"]}
{"id": "C111", "title": "Symbolic substitutions reach the equations", "statement": "A substitution given to the symbolic analysis replaces every occurrence of the symbol in the equations, whatever the element it belongs to.", "quantifier": "all circuits, all substitutions", "why_tests_cant": "Every element type has its own code path.", "anchors": ["ahkab/symbolic.py:generate_mna_and_N", "ahkab/symbolic.py:_parse_substitutions"]}
{"id": "C112", "title": "Symbolic gain is the AC response", "statement": "The gain computed by the symbolic analysis for a source, evaluated at s, is the response of the small-signal AC equations at s to that source at 1 and all others at 0.", "quantifier": "all linear circuits, all sources, all s", "why_tests_cant": "Derivative of a rational function against another analysis.", "anchors": ["ahkab/symbolic.py:calculate_gains", "ahkab/symbolic.py:symbolic_analysis", "ahkab/ac.py:ac_analysis"]}
{"id": "C113", "title": "Reported zeros are zeros of the transfer function", "statement": "The frequencies reported as zeros are those at which the output port voltage vanishes when the input source drives the circuit, and no other.", "quantifier": "all linear circuits, sources, output ports and shifts", "why_tests_cant": "Determinant identity over arbitrary circuits.", "anchors": ["ahkab/pz.py:calculate_singularities"]}
{"id": "C114", "title": "calculate_poles returns the poles", "statement": "calculate_poles returns the pole-zero solution without zeros of the circuit.", "quantifier": "all circuits", "why_tests_cant": "The function is not covered; fails always.", "anchors": ["ahkab/pz.py:calculate_poles"]}
{"id": "C115", "title": "The pole-zero analysis ends", "statement": "For every linear circuit with invertible MNA matrix the pole-zero analysis returns after finitely many repetitions.", "quantifier": "all linear circuits, shifts, random numbers", "why_tests_cant": "Non-termination cannot be observed by a test, and the shifts are random.", "anchors": ["ahkab/pz.py:calculate_singularities"]}
{"id": "C116", "title": "The DC guess gives every node the voltage suggested for it", "statement": "get_dc_guess returns None or a vector with one entry per node (without the reference) and one zero per branch current; suggestions for the same pair of nodes are used once; the voltages found are stored at the nodes they were found for, and all other nodes get 0, so that the guess satisfies the equations kept.", "quantifier": "all circuits, any number of elements, any node numbering, any solver of the reduced system", "why_tests_cant": "The position of nodes without a guess decides which entries move; tests only start Newton from the guess and Newton converges anyway.", "anchors": ["ahkab/dc_guess.py:get_dc_guess"]}
{"id": "C117", "title": "Every port of an element gets the guess listed for it", "statement": "The equations built by get_dc_guess pair the i-th port of an element with the i-th entry of its dc_guess, skipping ports whose nodes coincide, and an element with a valid dc_guess never makes the guess fail.", "quantifier": "all elements, any number of ports", "why_tests_cant": "The pairing shifts only for shorted ports, and fails only for diodes with an initial condition.", "anchors": ["ahkab/dc_guess.py:get_dc_guess", "ahkab/diode.py:__init__"]}
{"id": "C118", "title": "Command-line options have the effect described in their help", "statement": "Every numeric option given on the command line sets its own entry of the options module to the number given and nothing else; options not given leave the default; --dc-guess none starts operating points from zero and --dc-guess guess from the guess.", "quantifier": "all combinations of options", "why_tests_cant": "The options are independent switches; tests never run the command line.", "anchors": ["ahkab/__main__.py:_cli", "ahkab/dc_analysis.py:op_analysis"]}
{"id": "C119", "title": "A reported operating point solves the circuit with the Gmin it is reported with", "statement": "op_analysis returns a point only if Newton converged on the circuit with the conductance stored in the attribute gmin of the result at every node (0: none); for a linear circuit with exactly one solution that solution is returned from any starting point; None is returned only if the circuit with Gmin cannot be solved.", "quantifier": "all circuits, linear or not, all options and starting points", "why_tests_cant": "Needs circuits whose matrix is singular without Gmin, where the homotopies take over silently.", "anchors": ["ahkab/dc_analysis.py:op_analysis", "ahkab/dc_analysis.py:dc_solve"]}
{"id": "C121", "title": "Every transient point satisfies the circuit equations", "statement": "Every point (t, x) in the results of a transient analysis of a linear circuit satisfies M x + Gmin x + D dx + N + T(t) = 0 at its own time, where dx is the derivative the differentiation formula in use assigns to the point and N, T(t) are the constant and time dependent sources.", "quantifier": "For all linear circuits, methods (implicit Euler, trapezoidal, Gear of any order), initial points and sequences of time steps and rejected steps.", "why_tests_cant": "A test compares one waveform with a reference within a tolerance; it does not say that each point is a solution of the discrete equations for every circuit and step sequence.", "anchors": ["ahkab/transient.py:transient_analysis", "ahkab/dc_analysis.py:dc_solve"]}
{"id": "C122", "title": "The transient history holds what the formula needs", "statement": "During a transient analysis the buffer holds the newest points, newest first, as many as its length allows, and the differentiation formula of each pass never lacks a past value; with step control a prediction is available from the pass on that asks for one.", "quantifier": "For all methods, Gear orders, circuits and sequences of kept and rejected steps, with and without step control.", "why_tests_cant": "The failing combination depends on the pass number, the method and the step control setting; tests run only a few passes of a few methods with step control on.", "anchors": ["ahkab/transient.py:transient_analysis", "ahkab/transient.py:dfbuffer", "ahkab/gear.py:get_df", "ahkab/trap.py:get_df", "ahkab/implicit_euler.py:get_df"]}
{"id": "C123", "title": "A transient step is kept only if every local error is within tolerance", "statement": "With a posteriori step control a step is kept exactly if the estimated local error of each node voltage is at most (vea + ver*abs(v)) and of each current at most (iea + ier*abs(i)), up to the factor threshold^(order+1).", "quantifier": "For all previous points, local error vectors, orders, thresholds up to 2 and option values.", "why_tests_cant": "Which variable decides depends on the data; waveform tests cannot see that currents are checked against the voltage tolerance.", "anchors": ["ahkab/transient.py:transient_analysis", "ahkab/options.py:vea", "ahkab/options.py:iea"]}
{"id": "C124", "title": "Without sources the stored energy never increases", "statement": "In a transient analysis of a circuit of resistors, capacitors and inductors without sources, done with implicit Euler or the trapezoidal rule, the stored energy at each point is at most the energy at every earlier point, the initial one included, whatever the time steps are and whichever of the methods of dc_solve are enabled (options.nr_damp_first_iters being off, as by default).", "quantifier": "For all passive linear circuits, initial points and sequences of positive time steps, kept or rejected.", "why_tests_cant": "It is a statement about all circuits and all step sequences (unconditional stability); tests simulate single circuits for a limited time.", "anchors": ["ahkab/transient.py:transient_analysis", "ahkab/implicit_euler.py:get_df", "ahkab/trap.py:get_df"]}
{"id": "C125", "title": "The limit on time points", "statement": "With transient_max_time_iter = N > 0 an analysis that needs at most N points returns its results and one that needs more is halted after N points; with 0 there is no limit.", "quantifier": "For all settings and all sequences of outcomes of the solver and of step control.", "why_tests_cant": "The boundary case needs an analysis whose number of points equals the limit.", "anchors": ["ahkab/transient.py:transient_analysis", "ahkab/options.py:transient_max_time_iter"]}
{"id": "C120", "title": "AC analysis solves the small-signal equations at every frequency of the sweep", "statement": "ac_analysis returns one line for each of the requested frequencies (equally spaced or with constant ratio, from start to stop), each holding the solution of (M + j*2*pi*f*AC + J + Gmin) x + Nac = 0 at that frequency, and returns None exactly if at some frequency the equations cannot be solved; the sweep type defaults to logarithmic as documented.", "quantifier": "For all circuits (matrices of any size, any linearization), start and stop frequencies, numbers of points and both sweep types.", "why_tests_cant": "Tests compare single circuits with references; which frequencies are covered, what happens at a singular frequency and with the default sweep type is a statement about all sweeps.", "anchors": ["ahkab/ac.py:ac_analysis", "ahkab/dc_analysis.py:dc_solve", "ahkab/utilities.py:lin_axis_iterator", "ahkab/utilities.py:log_axis_iterator"]}
{"id": "C126", "title": "Iterating a result set yields its variables and their values", "statement": "A for loop over any result set (file-backed, operating point, pole-zero, symbolic) sees every variable exactly once, in order, each paired with its own values, and ends, whatever was read from the object before.", "quantifier": "For all result sets of any size and all earlier uses of the same object.", "why_tests_cant": "Tests iterate over one result set and compare lengths; pairing and completeness for every set and after interrupted loops is a universal statement.", "anchors": ["ahkab/results.py:solution.__next__", "ahkab/results.py:op_solution.next", "ahkab/results.py:pz_solution.next", "ahkab/results.py:symbolic_solution.__next__"]}
{"id": "C127", "title": "Loops over the same result set do not disturb each other", "statement": "A loop over a result set nested in another loop over the same set sees all pairs and both loops end; an exhausted iterator stays exhausted.", "quantifier": "For all result sets and any nesting or sequence of loops.", "why_tests_cant": "No test nests loops over one object; the failure is a loop that never ends.", "anchors": ["ahkab/results.py:solution.__iter__", "ahkab/results.py:solution.__next__", "ahkab/results.py:pz_solution.next"]}
{"id": "C128", "title": "as_symbol finds the symbols of a symbolic result", "statement": "as_symbol(name) returns a symbol whose name equals the argument up to letter case and which is an unknown or occurs in an expression of the set, and raises ValueError exactly if there is none; as_symbols applies it to each word.", "quantifier": "For all symbolic result sets, also of transfer functions, and all names.", "why_tests_cant": "Tests look up a few symbols in solutions of single circuits, never in a set of transfer functions.", "anchors": ["ahkab/results.py:symbolic_solution.as_symbol", "ahkab/results.py:symbolic_solution.as_symbols", "ahkab/symbolic.py:calculate_gains"]}
{"id": "C129", "title": "values() of an operating point lists one value for each variable", "statement": "op_solution.values() is the list of the values of the variables, in the order of keys().", "quantifier": "For all circuits and operating points.", "why_tests_cant": "Circuits in tests have several unknowns.", "anchors": ["ahkab/results.py:op_solution.values"]}
{"id": "C130", "title": "Every analysis keeps its results in a file of its own", "statement": "When several analyses are executed in one run, the result set returned for each of them reads back what that analysis computed.", "quantifier": "for all sequences of analyses, types and output names", "why_tests_cant": "Tests execute one analysis per output name, the clash appears only with two of the same type.", "anchors": ["ahkab/ahkab.py:new_op", "ahkab/ahkab.py:new_tran", "ahkab/ahkab.py:main", "ahkab/results.py:solution._add_data"]}
{"id": "C131", "title": "The output of every post-processing directive is kept", "statement": "After a run, the table or plot of each post-processing directive of the netlist exists; none replaces another.", "quantifier": "for all lists of directives and output names", "why_tests_cant": "Tests use at most one directive of each kind.", "anchors": ["ahkab/ahkab.py:process_postproc", "ahkab/printing.py:print_spicefft"]}
{"id": "C132", "title": "Post-processing works with every output file", "statement": "If the analyses a directive refers to were executed, the directive is carried out, whether results go to files or to standard output.", "quantifier": "for all directive lists and result files", "why_tests_cant": "Tests pass an output file; standard output is the default of the command line.", "anchors": ["ahkab/ahkab.py:process_postproc", "ahkab/csvlib.py:load_csv", "ahkab/results.py:solution.__getitem__"]}
{"id": "C133", "title": "A variable that does not exist is left out of a plot", "statement": "plot_results warns about and skips the pairs with a variable that is not in the results, and draws the others.", "quantifier": "for all lists of label pairs and sets of variables", "why_tests_cant": "Tests plot existing variables only.", "anchors": ["ahkab/plotting.py:plot_results", "ahkab/results.py:solution.__getitem__"]}
{"id": "C134", "title": "Energy gap falls and carrier density rises with temperature", "statement": "constants.Vth is proportional to T; Material.Eg(T) strictly decreases from Eg_0; Material.ni(T) is positive, strictly increasing, and equals n_i_0 at the reference temperature.", "quantifier": "for all temperatures and all materials with positive parameters", "why_tests_cant": "Tests evaluate at one or two temperatures.", "anchors": ["ahkab/constants.py:Vth", "ahkab/constants.py:Material.Eg", "ahkab/constants.py:Material.ni"]}
{"id": "C135", "title": "Tunnel junction: the conductance is the derivative of the current", "statement": "Whenever TunnelJunctionModel.get_gm returns a value, that value is the derivative of the current returned by get_i at the same voltage; the current is an odd function of the voltage and zero without voltage.", "quantifier": "for all barriers, distances and voltages", "why_tests_cant": "No test constructs a tunnel junction; a finite difference checks single points.", "anchors": ["ahkab/components/TunnelJunction.py:TunnelJunctionModel.get_gm", "ahkab/components/TunnelJunction.py:TunnelJunctionModel._get_i"]}
{"id": "C136", "title": "Tunnel junction: Simmons' formula with the barrier PHI_B", "statement": "The current is that of Simmons' formula for a barrier of PHI_B electronvolt and distance d \u00e5ngstr\u00f6m, as documented.", "quantifier": "for all barriers, distances and voltages", "why_tests_cant": "No test constructs a tunnel junction; no reference data.", "anchors": ["ahkab/components/TunnelJunction.py:endiff", "ahkab/components/TunnelJunction.py:TunnelJunctionModel"]}
{"id": "C137", "title": "Tunnel junction: passive", "statement": "The current has the sign of the voltage and the conductance is not negative.", "quantifier": "for all barriers, distances and voltages", "why_tests_cant": "The sign changes in a narrow range near the barrier voltage that samples miss.", "anchors": ["ahkab/components/TunnelJunction.py:TunnelJunctionModel.get_gm", "ahkab/components/TunnelJunction.py:TunnelJunctionModel._get_i"]}
{"id": "C138", "title": "Tunnel junction: a current for every voltage", "statement": "get_i and get_gm return a value for every voltage the Newton iteration may try.", "quantifier": "for all barriers, distances and voltages", "why_tests_cant": "Depends on the iterates of the solver.", "anchors": ["ahkab/components/TunnelJunction.py:endiff", "ahkab/components/TunnelJunction.py:TunnelJunctionModel.get_gm"]}
{"id": "C139", "title": "Reciprocity", "statement": "In networks of resistors, capacitors, coupled inductors and independent sources, a source at one port causes the same response at a second port as the same source at the second port causes at the first, in operating points and in AC analysis.", "quantifier": "for all such circuits, ports, source values and frequencies", "why_tests_cant": "It relates the results of two different circuits for every topology; tests compare single circuits with stored numbers.", "anchors": ["ahkab/dc_analysis.py:generate_mna_and_N", "ahkab/transient.py:generate_D", "ahkab/ac.py:_generate_AC", "ahkab/ac.py:_generate_Nac", "ahkab/ac.py:ac_analysis"]}
{"id": "C140", "title": "Balance of power in AC analysis", "statement": "At every frequency reported by an AC analysis of resistors, capacitors, coupled inductors and independent sources, the active power delivered by the sources is the heat in the resistors (and in Gmin) and the reactive power is that of the capacitors less that of the inductors.", "quantifier": "for all such circuits, phasors, and frequencies", "why_tests_cant": "Holds for every topology and every frequency; no stored result shows it.", "anchors": ["ahkab/ac.py:ac_analysis", "ahkab/ac.py:_generate_AC", "ahkab/ac.py:_generate_Nac", "ahkab/dc_analysis.py:generate_mna_and_N"]}
{"id": "C141", "title": "Natural frequencies of passive circuits", "statement": "The equations assembled for resistors, capacitors, coupled inductors and independent sources have no natural frequency in the right half-plane; without inductors or without capacitors they are real, without resistors they are imaginary.", "quantifier": "for all such circuits and element values", "why_tests_cant": "A single wrong sign in a stamp makes some circuit unstable; tests look at a few circuits.", "anchors": ["ahkab/dc_analysis.py:generate_mna_and_N", "ahkab/transient.py:generate_D"]}
{"id": "C142", "title": "Poles reported for passive circuits are not unstable", "statement": "calculate_singularities reports no pole with a positive real part for a circuit of resistors, capacitors, coupled inductors and independent sources, whatever the shift.", "quantifier": "for all such circuits, element values and shifts", "why_tests_cant": "The pole of a passive circuit moves with the value of the shift only when couplings are present.", "anchors": ["ahkab/pz.py:calculate_singularities"]}
{"id": "C143", "title": "Node voltages of resistor circuits lie between those of the sources", "statement": "In a circuit of positive resistors, capacitors, inductors, mutual couplings and voltage sources between a node and ground, every node voltage of an operating point that op_analysis reports lies between the lowest and the highest of ground and the source voltages. If current sources push current from ground into nodes and voltage sources lift their nodes, no node voltage is negative.", "quantifier": "all circuits of these elements with any number of nodes, all source values, all starting points, whether the standard method or Gmin stepping found the point", "why_tests_cant": "a test compares a few circuits with known results; that no resistor network of any topology can produce a voltage outside the range of its sources is a statement about all of them", "anchors": ["ahkab/dc_analysis.py:606", "ahkab/dc_analysis.py:214", "ahkab/dc_analysis.py:948"]}
{"id": "C144", "title": "A circuit in its steady state stays there", "statement": "A transient analysis of a circuit with constant sources which starts from the point where the circuit is at rest reports this point at all times, with derivative zero, for every integration method and all choices of steps, and does not stop before its end.", "quantifier": "all linear and non-linear circuits, all methods, all sequences of accepted and rejected steps", "why_tests_cant": "a test runs a few circuits for a fixed time; the claim is about all step sequences and about every method, including its start-up and its predictor", "anchors": ["ahkab/transient.py:121", "ahkab/implicit_euler.py:125", "ahkab/trap.py:98", "ahkab/gear.py:122", "ahkab/dc_analysis.py:690"]}
{"id": "C145", "title": "Circuits with diodes have at most one operating point", "statement": "For a circuit of positive resistors, capacitors, inductors, independent sources and two-terminal devices whose current grows with their voltage (diodes with or without breakdown, high injection and series resistance), two vectors that satisfy the equations op_analysis solves are equal, with and without Gmin; for a device whose current falls somewhere a circuit with two operating points exists.", "quantifier": "All circuits of that kind, all device laws, all values, all pairs of solutions", "why_tests_cant": "Tests start from a few guesses and only ever see the point they converge to, they cannot exclude a second one", "anchors": ["ahkab/dc_analysis.py:690-860", "ahkab/diode.py:353-395"]}
{"id": "C146", "title": "Newton's method does not meet singular matrices in circuits with diodes", "statement": "For a circuit as in C145 whose devices have conductances that are not negative, and which is regular when resistors replace the devices, the matrix M + Gmin + J is regular at every vector, so mdn_solver never ends with a singular matrix in any system dc_solve tries, whatever the starting point.", "quantifier": "All circuits of that kind, all vectors and starting points, all homotopy systems", "why_tests_cant": "A singular matrix can appear at isolated vectors on the way that a test does not pass through", "anchors": ["ahkab/dc_analysis.py:258-319", "ahkab/dc_analysis.py:800-860", "ahkab/diode.py:397-410"]}
{"id": "C147", "title": "The element tables of an operating point", "statement": "The tables that an operating point result holds are built for every circuit with named elements and valued sources; under each letter stand, in the order of the circuit, the elements whose names begin with it, with the voltage, current, charge, flux, energy and power that belong to the solution; and the columns P [W] of all tables add up to zero, up to the power taken by Gmin.", "quantifier": "All circuits of resistors, capacitors, inductors, independent sources and diode-like devices, all solutions, all names", "why_tests_cant": "Tests compare one printed table; the balance ties the tables of all elements to the equations of every circuit", "anchors": ["ahkab/results.py:339-386", "ahkab/components/Resistor.py:71-92", "ahkab/components/Capacitor.py:64-85", "ahkab/components/Inductor.py:54-75", "ahkab/components/sources/VSource.py:126-149", "ahkab/components/sources/ISource.py:127-147", "ahkab/diode.py:207-230"]}
{"id": "C148", "title": "Elements are found and removed by name", "statement": "get_elem_by_name returns the first element whose part id equals the name in any letter case and raises ValueError exactly if there is none; remove_elem with a name takes out that element and no other; when names are unique in any case every element is found by its own name before and after the removal of others, and a removed name is free.", "quantifier": "All circuits, all names, any letter case", "why_tests_cant": "Tests look up a few names in small circuits; case folding and shadowing matter for all sequences of elements", "anchors": ["ahkab/circuit.py:388-409", "ahkab/circuit.py:1007-1076", "ahkab/circuit.py:370-382"]}
{"id": "C149", "title": "AC analysis linearises the operating points", "statement": "If the DC value of every source is changed by u times its AC value, and the operating point depends on u differentiably, the derivative satisfies the equations AC analysis solves at frequency zero with the conductances the devices report at the operating point. With falling frequency the response AC analysis reports tends to this derivative.", "quantifier": "all circuits of linear elements and two-terminal devices whose reported conductance is the derivative of their current, all source values, all capacitors and inductors", "why_tests_cant": "a test compares a few circuits at a few frequencies with a finite difference; the claim is about the limit for every circuit", "anchors": ["ahkab/ac.py:100", "ahkab/dc_analysis.py:600", "ahkab/dc_analysis.py:860"]}
{"id": "C150", "title": "Devices that take power cannot lift a voltage above those of the sources", "statement": "In a circuit of positive resistors, capacitors, inductors, couplings, sources and two-terminal devices whose current has the sign of their voltage, every node voltage of an operating point lies between the lowest and the highest of ground and the grounded voltage sources, when there are no current sources. When all sources are off all node voltages are zero. The sources together deliver power, at least as much as any single resistor takes.", "quantifier": "all circuits of these elements with any number of nodes, all device characteristics with this sign, with Gmin or without it", "why_tests_cant": "a test checks a few circuits with one device; the claim is about every topology and every characteristic", "anchors": ["ahkab/dc_analysis.py:600", "ahkab/diode.py:387"]}
{"id": "C151", "title": "Devices in parallel", "statement": "A transistor with the multiplier M=k*m, and a diode with k times the area, have k times the current and k times the conductances at the same voltages.", "quantifier": "all model parameters, voltages and factors, for the square-law and the EKV transistor and for the diode", "why_tests_cant": "a test compares one device with two at a few voltages; the claim is about every bias and factor", "anchors": ["ahkab/mosq.py:608", "ahkab/mosq.py:662", "ahkab/ekv.py:547", "ahkab/ekv.py:672", "ahkab/diode.py:387"]}
{"id": "C152", "title": "Transistors take power", "statement": "The current into the drain of a transistor has the sign of the voltage between drain and source, for n- and p-type devices and whichever of the two terminals is higher.", "quantifier": "all parameters in the range the constructors accept and all voltages", "why_tests_cant": "a test samples the plane of voltages; the sign near the region boundaries and after the exchange of drain and source is a claim about all of them", "anchors": ["ahkab/mosq.py:608", "ahkab/ekv.py:547", "ahkab/ekv.py:629"]}
{"id": "C153", "title": "Device models are kept under their labels", "statement": "After add_model(type, label, parameters) without exception the circuit's models dictionary leads from that label to a model object of that type, named like the label, built from exactly these parameters, and every other label leads where it did before; a call that raises leaves the dictionary unchanged; the parameter dictionary, which the call changes, can be reused for another model; remove_model removes this one label only. A .model line of a netlist (parentheses anywhere, comment at the end) has the same effect as add_model with the same type, label and upper-cased parameter names. After reading all lines the known labels are the third words of the lines. Diode and switch models cannot be made without a name; transistor models get one of their own.", "quantifier": "all constructors, all stores of models, all types, labels and parameter dictionaries; all netlist lines made of words label=value", "why_tests_cant": "Names, values and their number are arbitrary texts; a test fixes a few of them.", "anchors": ["ahkab/circuit.py:411-463", "ahkab/netlist_parser.py:330-366"]}
{"id": "C154", "title": "A printed diode model reads back as the same model", "statement": "The .model line printed by print_model of a diode model is read by parse_models as a diode model with the same name and the same value of every parameter; giving a parameter its default value is the same as leaving it out.", "quantifier": "all names that are words, all values of the parameters whose printed form reads back as the value (finite or infinite)", "why_tests_cant": "There are 27 real parameters; the temperature is wrong for every value and two parameters are never printed, which shows only when all parameters are compared.", "anchors": ["ahkab/diode.py:302-350", "ahkab/netlist_parser.py:330-366"]}
{"id": "C155", "title": "The region reported for a square-law transistor is the region of its current", "statement": "In the operating point information of a square-law MOS transistor, a device reported OFF carries the current of a device that is off, a device reported ON and SATURATION that of saturation, a device reported ON and LINEAR that of the ohmic region, for n- and p-type devices and both directions of current.", "quantifier": "all model and device parameters, all port voltages", "why_tests_cant": "The regions depend on three real voltages and the model parameters; the wrong reports appear in a strip of voltages, for p-type devices and for reversed drain and source.", "anchors": ["ahkab/mosq.py:245-337", "ahkab/mosq.py:596-659"]}
{"id": "C156", "title": "Operating point information belongs to the voltages asked for", "statement": "get_op_info of a square-law MOS transistor reports the values at the voltages it is given, whatever was evaluated or reported before.", "quantifier": "all sequences of evaluations (gstamp) and requests on a device, all port voltages", "why_tests_cant": "The answer depends on the history of calls; the stale case needs three equal voltages after another request with the same drain voltage.", "anchors": ["ahkab/mosq.py:245-272", "ahkab/mosq.py:382-386"]}
{"id": "C157", "title": "A DC sweep sweeps the named source over the requested axis", "statement": "dc_analysis sweeps the first element of the circuit that has the given name (in any case) and is a voltage or current source as the first letter of the name says, touches no other element, and computes nothing if there is none; sweep types are recognised by their first three letters in any case; a logarithmic sweep visits start*(stop/start)^(i/n); new_dc(start, stop, points) gives exactly that many points from start to stop; invalid arguments are answered with None as documented.", "quantifier": "all circuits, names, sweep types, start/stop/step values and outcomes of the individual points", "why_tests_cant": "Universal over names, arguments and axes; tests sweep a few circuits upwards.", "anchors": ["ahkab/dc_analysis.py:dc_analysis", "ahkab/utilities.py:log_axis_iterator", "ahkab/ahkab.py:new_dc"]}
{"id": "C158", "title": "A DC sweep of a linear circuit gives points on a straight line", "statement": "For a linear circuit with one solution, dc_analysis returns one point per sweep value, and every voltage and current is an affine function of the swept value; its slope is the operating point with that source at 1 and all other sources off.", "quantifier": "all linear circuits with a regular matrix, all sources, sweeps and starting points", "why_tests_cant": "Universal over circuits and sweep values; combines assembly, solver and sweep.", "anchors": ["ahkab/dc_analysis.py:dc_analysis", "ahkab/dc_analysis.py:op_analysis", "ahkab/dc_analysis.py:generate_mna_and_N"]}
{"id": "C159", "title": "Transients of linear circuits superpose", "statement": "If the sources (at all times) and the starting point of one transient analysis of a linear circuit are a combination of those of two others, and the three take the same steps, then each point of the first is the same combination of the points of the others, whatever the integration method; also where the matrix is singular and Gmin stepping is used.", "quantifier": "all linear circuits, sources, starting points, methods, sequences of steps", "why_tests_cant": "Universal over circuits, waveforms and step sequences.", "anchors": ["ahkab/transient.py:transient_analysis", "ahkab/dc_analysis.py:dc_solve", "ahkab/gear.py:get_df", "ahkab/trap.py:get_df", "ahkab/implicit_euler.py:get_df"]}
{"id": "C160", "title": "Transients do not depend on the origin of time", "statement": "A transient analysis that starts later by some time, with sources that are delayed by the same time, yields the same points later by that time, given the same steps; without time dependent sources only the times change.", "quantifier": "all circuits, linear or not, methods, delays and sequences of steps", "why_tests_cant": "Universal over circuits, waveforms, delays; tests start at zero.", "anchors": ["ahkab/transient.py:transient_analysis", "ahkab/gear.py:get_df", "ahkab/trap.py:get_df", "ahkab/implicit_euler.py:get_df"]}
{"id": "C161", "title": "AC analysis is linear in the AC sources", "statement": "If the AC sources of one analysis are a combination, with complex factors, of those of two others, then at each frequency its result is the same combination of their results, whatever the starting points of the solver; the three raise, or return None, together; without AC sources every result is zero.", "quantifier": "all circuits, sources, factors, sweeps, starting points", "why_tests_cant": "Universal over circuits, frequencies and complex factors.", "anchors": ["ahkab/ac.py:ac_analysis", "ahkab/dc_analysis.py:dc_solve"]}
{"id": "C162", "title": "Operating point information of an EKV transistor belongs to the voltages asked for", "statement": "get_op_info of an EKV MOS transistor reports the current, the conductances and the other values at the voltages it is given, whatever was evaluated or reported before, and does not fail.", "quantifier": "all model and device parameters, all sequences of calls of i, g and get_op_info on a device, all port voltages in lists or tuples", "why_tests_cant": "The answer depends on the history of calls and on the type of the sequence of voltages; zero conductances, that would be divided by, need special voltages.", "anchors": ["ahkab/ekv.py:198-347", "ahkab/ekv.py:547-627"]}
{"id": "C163", "title": "The region reported for an EKV transistor", "statement": "The region and inversion level reported for an EKV MOS transistor do not depend on which end of the channel is called drain, are the same for the mirrored p-type device, a device without drain-source voltage is not in saturation, one in saturation stays there when the drain voltage rises, the inversion level does not fall when the gate voltage rises, and in saturation, only, the current is the forward current up to less than one part in exp 4.", "quantifier": "all accepted model and device parameters, all voltages, all increasing relations of voltages to normalised currents", "why_tests_cant": "Monotonicity over the reals cannot be sampled.", "anchors": ["ahkab/ekv.py:481-670"]}
{"id": "C164", "title": "A printed analysis reads back as the analysis", "statement": "print_analysis prints an analysis in the netlist syntax: the line it prints, read as a netlist line, gives the description of the analysis (apart from output file and verbosity), for every analysis that a netlist can contain.", "quantifier": "all descriptions made by parse_single_analysis, all formats of numbers and texts that can be read back", "why_tests_cant": "All combinations of names, numbers and options would have to be printed and read; print_analysis runs only at verbosity 4 and above.", "anchors": ["ahkab/printing.py:133-165", "ahkab/netlist_parser.py:1470-1541"]}
{"id": "C165", "title": "EKV transconductances are the derivatives of the drain current", "statement": "get_gms, get_gmd and get_gmg return the partial derivatives of the current returned by get_ids with respect to the source, drain and gate voltage, as their documentation says.", "quantifier": "all bias points, all model and device parameters", "why_tests_cant": "A derivative identity over the reals; the numbers differ by a few per cent, which a plausibility test does not notice.", "anchors": ["ahkab/ekv.py:672", "ahkab/ekv.py:683", "ahkab/ekv.py:694", "ahkab/ekv.py:629"]}
{"id": "C166", "title": "Transistor constructors refuse parameters out of range", "statement": "The constructors of the transistors and of their models raise an exception that names the parameter unless type, reference temperature, body factor, surface potential, conductance factor, doping, mobility, length, width and numbers of devices are in range; what they accept is in range and is used as given.", "quantifier": "all combinations of present and absent arguments with real values, both kinds of transistors", "why_tests_cant": "The parameters interact (some are computed from others, and from the temperature); a test tries a few bad values.", "anchors": ["ahkab/mosq.py:432", "ahkab/mosq.py:805", "ahkab/mosq.py:822", "ahkab/ekv.py:369", "ahkab/ekv.py:796", "ahkab/ekv.py:809", "ahkab/ekv.py:504"]}
{"id": "C167", "title": "The printed text of a circuit reads back", "statement": "str(circ) gives a title line and one netlist line per element; reading this text as a netlist gives a circuit with the same title, the same elements in the same order, and printing that circuit gives the same text", "quantifier": "every title and every list of elements (any number, any names, values and node names)", "why_tests_cant": "tests print one or two circuits and never feed the text back; the composition of printer, line reader, line classification and element parsers over all circuits is out of reach of examples", "anchors": ["ahkab/circuit.py:160-164", "ahkab/netlist_parser.py:145-284", "ahkab/netlist_parser.py:356-428"]}
{"id": "C168", "title": "A slower circuit does the same, slower", "statement": "Multiplying all capacitances, inductances and mutual inductances by a factor (and slowing the sources down) gives the same transient waveforms stretched in time by the factor, the same phasors at frequencies divided by it, and leaves the operating point unchanged; the local errors used for step control do not depend on the unit of time", "quantifier": "every circuit (non-linear devices included), every factor, method, sequence of steps and frequency sweep", "why_tests_cant": "tests run single circuits in fixed units; a metamorphic relation between analyses of two circuits for all factors is not sampled, and the mistake in the Euler coefficient only shows when units change", "anchors": ["ahkab/transient.py:322-411", "ahkab/transient.py:472-561", "ahkab/ac.py:291-377", "ahkab/implicit_euler.py:180-205", "ahkab/trap.py:154-192", "ahkab/gear.py:122-208"]}
{"id": "C169", "title": "Raising all impedances leaves the voltages alone", "statement": "Multiplying all resistances, inductances, mutual inductances and transresistances by a factor, and dividing all capacitances, transconductances and source currents by it, leaves every voltage found by the operating point and AC analyses unchanged and divides every branch current by the factor", "quantifier": "every linear circuit, every factor other than 0, every sweep of frequencies, every starting value", "why_tests_cant": "tests run single circuits with fixed values; a relation between the analyses of two circuits for all factors is not sampled, and the influence of Gmin is within the tolerances of the reference data", "anchors": ["ahkab/dc_analysis.py:949-1069", "ahkab/dc_analysis.py:598-687", "ahkab/transient.py:472-647", "ahkab/ac.py:146-377", "ahkab/options.py:60-63"]}
{"id": "C170", "title": "What the analyses find does not depend on the order of the elements or the numbers of the nodes", "statement": "For a linear circuit built by the same add_* calls in another order, op_analysis reports the same voltage for every node name and the same current for every element name, and the solutions of the AC and dynamic equations are the same up to the renumbering of the unknowns, whenever both orders can be assembled.", "quantifier": "all circuits of linear elements, all orders of the add_* calls, all renumberings of the nodes that keep ground, all values", "why_tests_cant": "Tests build every circuit in one order; the order decides node numbers, branch numbers and all matrix positions, and there are factorially many.", "anchors": ["ahkab/circuit.py:add_resistor", "ahkab/circuit.py:add_node", "ahkab/dc_analysis.py:generate_mna_and_N", "ahkab/dc_analysis.py:op_analysis", "ahkab/transient.py:generate_D", "ahkab/ac.py:ac_analysis"]}
{"id": "C171", "title": "Circuits that are equivalent by the textbook have the same operating point", "statement": "op_analysis of a linear circuit reports the voltages and currents that obey Kirchhoff's laws and the element laws, and there are no others. Hence a Norton source may be replaced by its Thevenin equivalent, two resistors in series or in parallel by one, a triangle of resistors by a star, two voltage sources in series by one, a voltage source by a current source that carries its current, an inductor by a source of 0 V; a series source of 0 V reads the current of a resistor without disturbing it; capacitors, zero current sources and sources of zero gain change nothing. All other node voltages and currents stay the same.", "quantifier": "all circuits of linear elements around the replaced part, all values, all node positions, all names", "why_tests_cant": "Tests compare one circuit with one stored result; an equivalence relates two circuits and has to hold in every surrounding circuit.", "anchors": ["ahkab/dc_analysis.py:op_analysis", "ahkab/dc_analysis.py:generate_mna_and_N", "ahkab/circuit.py:find_vde_index"]}
{"id": "C172", "title": "The shooting method reports a periodic solution only after four small updates in a row", "statement": "shooting_analysis returns the points of the first round that ends four consecutive rounds whose undamped updates are all below the tolerances (the smaller relative tolerance times the largest magnitude of all unknowns at all points plus the smaller absolute tolerance), it gives up exactly if all allowed rounds were done without four such rounds in a row, small updates bound the residual of the discretised equations, and for a linear circuit with regular matrices it reports from every start within five rounds the only solution of the cyclic implicit Euler equations. The sources used at point k are those the transient analysis uses at the time k*step.", "quantifier": "all circuits (matrices, currents and conductances of the non-linear elements, sources), numbers of points, steps, tolerances, iteration limits and start points", "why_tests_cant": "tests run two small circuits and compare with a stored waveform; they do not show when the loop stops, nor that the result satisfies the equations", "anchors": ["ahkab/shooting.py:shooting_analysis", "ahkab/shooting.py:_build_Tass_static_vector", "ahkab/shooting.py:_vector_norm_wrapper"]}
{"id": "C173", "title": "The brute-force method reports a periodic solution of implicit Euler", "statement": "bfpss returns a vector only after an update whose voltages and currents are within their tolerances; the residual it solves for vanishes exactly if the last point equals the first and every other point follows from the one before by implicit Euler with the sources of its time, so repeating the points gives a solution at all times and a run of implicit Euler from the first point goes through the points for ever. For a linear circuit with a regular matrix it reports such a solution from every start after at most two rounds.", "quantifier": "all circuits, numbers of points from 2, steps, tolerances, iteration limits and start vectors (the matrix product of sparse matrices; C99 shows what happens to dense ones)", "why_tests_cant": "tests compare one waveform with a stored one", "anchors": ["ahkab/bfpss.py:bfpss", "ahkab/bfpss.py:_build_Tt", "ahkab/bfpss.py:_convergence_check", "ahkab/bfpss.py:_build_x"]}
{"id": "C174", "title": "AC analysis finds the phasors that obey Kirchhoff's laws with the impedances of the elements", "statement": "Every line reported by an AC analysis of a circuit of linear elements, however the sweep is spaced, holds node voltages and branch currents that satisfy at that frequency: the phasor currents leaving every node (v/R, jwC v, the source phasors, those of the controlled sources and of the branches), plus the current through Gmin and cmin to the reference, sum to zero; every voltage source has its phasor, every inductor has the voltage jw times its flux including that of the inductors coupled to it. No other phasors satisfy these laws. Capacitors and resistors in parallel can be merged without changing them, and a low-pass filter shows the transfer function 1/(1+sRC) when nothing else loads its nodes.", "quantifier": "all circuits of linear elements, all phasors of the sources, all sweeps and frequencies", "why_tests_cant": "Tests compare a few circuits at a few frequencies with stored references made by the same program; that the matrices assembled in several loops equal the laws for every circuit, coupling and frequency is a statement about all of them.", "anchors": ["ahkab/ac.py:ac_analysis", "ahkab/ac.py:_generate_AC", "ahkab/ac.py:_generate_Nac", "ahkab/dc_analysis.py:generate_mna_and_N"]}
{"id": "C175", "title": "A regression test passes only if the simulation agrees with its reference", "statement": "NetlistTest and APITest report success exactly when every analysis and every variable of the stored reference is found in the results and agrees with it within the given tolerances at all points: an analysis that fails, a variable that is missing, a simulation that stops early or poles that differ make the test fail, and results within the tolerances pass.", "quantifier": "all results, references, tolerances, interpolations and orders of poles", "why_tests_cant": "The test classes are what everything else is tested with; no test checks that they fail when they should, and the cases are unbounded.", "anchors": ["ahkab/testing.py:NetlistTest._check", "ahkab/testing.py:APITest._check", "ahkab/testing.py:NetlistTest.test", "ahkab/testing.py:ok", "ahkab/pz.py:_check_singularities"]}
{"id": "C176", "title": "Existing references of a regression test are never changed by running it", "statement": "Running a test whose references exist compares the results with them and leaves the reference files as they are; a missing reference is created from the results, the other references stay untouched, and the next run compares with the stored results and passes if nothing changed.", "quantifier": "all sets of analyses, file names, file contents and comparisons", "why_tests_cant": "Depends on which files exist when the test is run; the repository is always tested with all of them.", "anchors": ["ahkab/testing.py:NetlistTest.setUp", "ahkab/testing.py:NetlistTest.test", "ahkab/testing.py:APITest.setUp", "ahkab/testing.py:APITest.test"]}
{"id": "C177", "title": "A regression test leaves the session as it found it", "statement": "The simulation options given to a test are in force while its simulation runs and only then: afterwards all options have the values they had before, whatever happened. A test that is skipped is only skipped. Only files made by the test are removed, not those kept below /tmp/.", "quantifier": "all options, option values, numbers and orders of tests, files", "why_tests_cant": "Each test looks right on its own; what leaks depends on which tests were constructed, failed or were skipped before.", "anchors": ["ahkab/testing.py:NetlistTest._set_sim_opts", "ahkab/testing.py:NetlistTest._reset_sim_opts", "ahkab/testing.py:NetlistTest.tearDown", "ahkab/testing.py:APITest.__init__", "ahkab/testing.py:APITest.setUp", "ahkab/testing.py:APITest.tearDown"]}
{"id": "C178", "title": "Raising a resistance never lowers the resistance seen by a source", "statement": "For circuits of resistors, capacitors, inductors and sources the operating point has the least heat among all voltages that fit the sources (Dirichlet's principle). If resistances are raised, op_analysis reports at least as much power from current sources (with no voltage sources other than ammeters) and at most as much power from voltage sources (with no current sources); the resistance measured between two nodes with a current source does not fall.", "quantifier": "all circuits of R, C, L, V, I with positive resistances, all sets of raised resistances", "why_tests_cant": "A comparison of the results for two arbitrary circuits; tests look at fixed circuits one at a time.", "anchors": ["ahkab/dc_analysis.py:op_analysis", "ahkab/dc_analysis.py:generate_mna_and_N"]}
{"id": "C179", "title": "All ways of reading an AC result agree", "statement": "For the result of an AC analysis, the rows of asarray() are the frequencies followed by the phasors of every variable in the order of the variables; values() gives the rows of that array; and items() pairs every variable name with exactly the phasors that res[name] returns, i.e. those computed by the analysis.", "quantifier": "for all circuits whose names have no bars and no blanks and are distinct up to case, all lists of frequencies and solution vectors", "why_tests_cant": "The repository's tests read single variables by name or compare saved files; they do not compare the array, the items and the values by name for arbitrary circuits and names", "anchors": ["ahkab/results.py:ac_solution.asarray", "ahkab/results.py:ac_solution.values", "ahkab/results.py:ac_solution.items", "ahkab/results.py:ac_solution.__getitem__"]}
{"id": "C180", "title": "The normalised current of an EKV transistor solves the charge equation whatever was evaluated before", "statement": "get_ismall(v) returns the positive i with v = ln q + 2q, q = sqrt(0.25 + i) - 0.5, up to its tolerance (or 10*EPS if i is smaller), for every starting guess; so the current of a transistor at given voltages does not depend on the voltages it was evaluated at before.", "quantifier": "all normalised voltages, all starting guesses, all versions of scipy allowed by setup.py", "why_tests_cant": "The reference results of the repository were made with the same iteration; single values do not show that the result depends on the start", "anchors": ["ahkab/ekv.py:ekv_mos_model.get_ismall", "ahkab/ekv.py:ekv_mos_model.get_ids", "ahkab/ekv.py:ekv_mos_model._vsmall_obj"]}
{"id": "C181", "title": "A diode with series resistance has a current for every voltage", "statement": "get_i of a diode model with RS > 0 finds the voltage of the series resistance, the solution of x/RS = AREA*i(v - x), for every voltage v and whatever was evaluated before, within the tolerance options.vea; it never fails to converge.", "quantifier": "all parameters without breakdown and high injection, all voltages, all starting points, all versions of scipy", "why_tests_cant": "Tests evaluate diodes at moderate voltages with one set of parameters", "anchors": ["ahkab/diode.py:diode_model.get_i", "ahkab/diode.py:diode_model._obj_irs", "ahkab/diode.py:diode_model._obj_irs_prime"]}
{"id": "C182", "title": "Transient analysis keeps charges and fluxes that the circuit conserves", "statement": "A part of a linear circuit connected with the rest only by capacitors keeps its charge, and a closed loop of inductors keeps its flux: at every point of a transient analysis both have the value they had at the initial point, whatever the integration method, the sequence of steps, and the sources and loads in the rest of the circuit.", "quantifier": "for all linear circuits, all sets of nodes bounded by capacitors and all loops of inductors, all methods, all step sequences, all initial points", "why_tests_cant": "The conservation holds exactly for every circuit, method and history of accepted and rejected steps, a test compares a few points of one circuit within a tolerance and would not see a slow leak.", "anchors": ["ahkab/transient.py:transient_analysis", "ahkab/implicit_euler.py:get_df", "ahkab/trap.py:get_df", "ahkab/gear.py:get_df", "ahkab/transient.py:generate_D"]}
{"id": "C183", "title": "Transient analysis converges to the solution of the circuit's equations", "statement": "For circuits of resistors, capacitors, inductors and independent sources, started on the exact solution, the points computed by implicit Euler approach the solution of the circuit's differential equations linearly with the largest step, those of the trapezoidal rule quadratically, whatever the sequence of accepted and rejected steps: the error bound depends only on the derivatives of the solution, the largest step and the time passed, and does not grow with the number of steps.", "quantifier": "for all such circuits, all smooth solutions, all step sequences with steps of at most H, all times", "why_tests_cant": "A numeric comparison shows the error for some step sizes of one circuit; that the bound holds for all circuits, steps and times, and that errors of early steps are not amplified, needs a proof.", "anchors": ["ahkab/transient.py:transient_analysis", "ahkab/implicit_euler.py:get_df", "ahkab/trap.py:get_df", "ahkab/transient.py:generate_D", "ahkab/dc_analysis.py:dc_solve"]}
{"id": "C184", "title": "References read back from result files are the saved results", "statement": "The reference that a regression test reads from a saved file of results equals the results that were saved: every AC variable gets its complex values from the columns for magnitude and phase, every other variable its column, and the poles and zeros recovered from the columns Re(..) and Im(..) are the saved poles and zeros, however many there are and in whatever order the names are sorted. A run therefore passes against its own file.", "quantifier": "all results, numbers of poles and zeros, names, orders of the dictionary", "why_tests_cant": "Names of poles sort as p0, p1, p10, p2; the stored references have at most a few singularities, and all tests use phases in radians.", "anchors": ["ahkab/testing.py:NetlistTest._load_references", "ahkab/testing.py:NetlistTest._check", "ahkab/results.py:pz_solution.__init__", "ahkab/results.py:ac_solution.add_line"]}
{"id": "C185", "title": "Transient points of circuits with non-linear devices satisfy the equations up to the bend of the devices", "statement": "Every point recorded by a transient analysis (any method) of a circuit with non-linear two-terminal devices satisfies Kirchhoff's laws exactly if each device carries the current of the tangent to its law at a voltage that is within the convergence tolerance of the voltage found. With implicit Euler and devices whose current grows with the voltage, such as diodes, the distance (in the norm of the stored energy) between the recorded points and the solution of the circuit's differential equations is at most the initial one plus the time passed times a term proportional to the largest step and a term given by how far the laws of the devices bend within the tolerance.", "quantifier": "for all circuits of positive resistors, nonnegative capacitors, inductors (coupled or not, with nonnegative energy), independent sources and two-terminal devices with nondecreasing current, all tolerances with ver < 1, all sequences of steps and decisions of step control, all voltages within the bound V, passes solved by the standard method", "why_tests_cant": "Tests compare a few simulations with stored references; they cannot show that the error of the points goes to zero with step and tolerance for every circuit with diodes and every choice of steps.", "anchors": ["ahkab/transient.py:322-411", "ahkab/dc_analysis.py:690-840", "ahkab/dc_analysis.py:842-860", "ahkab/dc_analysis.py:884-946", "ahkab/implicit_euler.py:180-205"]}
{"id": "C186", "title": "Raising a source lowers no node voltage, and no node follows a source by more than it moves", "statement": "For every circuit of resistors, capacitors, inductors, independent sources and two-terminal devices whose current does not fall with the voltage (such as the coded diodes): if some sources between a node and ground are turned so that they push their node up, no node voltage of the operating point falls; if only voltage sources between a node and ground move, by between lo and hi (lo at most 0, hi at least 0), every node voltage moves by between lo and hi; and a DC sweep of such a voltage source in a circuit without devices returns node voltages that follow the source with a gain between 0 and 1.", "quantifier": "all such circuits, all pairs of source settings, all operating points, all sweep ranges, all numerical values", "why_tests_cant": "A test compares a few circuits at a few values; the claim is an inequality between all pairs of settings of circuits of any size with any devices whose currents grow.", "anchors": ["ahkab/dc_analysis.py:op_analysis", "ahkab/dc_analysis.py:dc_analysis", "ahkab/dc_analysis.py:generate_mna_and_N", "ahkab/dc_analysis.py:build_gmin_matrix"]}
{"id": "C187", "title": "Implicit Euler never overshoots in RC circuits", "statement": "For a circuit of resistors, capacitors with one terminal at ground and voltage sources with one terminal at ground, a transient analysis with implicit Euler records only node voltages that lie between the smallest and the largest of zero, the node voltages of the starting point and the values the sources take over time, whatever the steps.", "quantifier": "all such circuits (any topology, any number of nodes, time-dependent sources of any shape), positive cmin, nonnegative Gmin, all starting points, all sequences of positive steps", "why_tests_cant": "A test follows a few responses with the steps its tolerance happens to choose; it cannot exclude an overshoot for all circuits, all waveforms and all sequences of steps.", "anchors": ["ahkab/transient.py", "ahkab/implicit_euler.py", "ahkab/dc_analysis.py"]}
{"id": "C188", "title": "Thevenin's theorem", "statement": "Whatever is connected to two nodes of a linear circuit finds there a voltage source with an inner resistance: the voltage between the nodes reported by op_analysis is that of the open circuit less the inner resistance times the current drawn, where the inner resistance is the fall of voltage per ampere of a test current source. A resistor forms a divider with it and takes at most the power it takes when the two are equal; a voltage source draws the difference of the voltages over the inner resistance. All other voltages and currents of the circuit change in proportion to the current drawn.", "quantifier": "all circuits of linear elements (controlled sources included) with one operating point, all pairs of nodes, all test currents other than zero, all loads with nodes and elements of their own", "why_tests_cant": "A test measures the port of one circuit with a few loads; the theorem speaks of all circuits and all loads.", "anchors": ["ahkab/dc_analysis.py", "ahkab/circuit.py"]}
{"id": "C189", "title": "Transients of one circuit approach each other", "statement": "Two transient analyses of one linear circuit of resistors, capacitors, inductors (coupled or not) and independent sources with the same sources, steps and method (implicit Euler or trapezoidal rule) from different starting points record the same times, and the energy of the difference of their results never increases from one recorded point to a later one. Without inductors and with conductances at the nodes, implicit Euler makes the root of that energy fall at least like 1/(1 + t gmin/(cmin + 2 sum of C)), however long the steps are.", "quantifier": "All linear circuits, sources, step sequences, pairs of starting points", "why_tests_cant": "Relates pairs of runs for arbitrary circuits and step sequences; a test compares a few runs.", "anchors": ["ahkab/transient.py:transient_analysis", "ahkab/implicit_euler.py:get_df", "ahkab/trap.py:get_df"]}
{"id": "C190", "title": "Transient and AC analysis agree on sinusoids", "statement": "For a linear circuit whose sources are sinusoids of the frequency of a line of the AC results, with the phasors given to the AC analysis, the sinusoids with the computed phasors solve the equations of the transient analysis. The transient analysis with the trapezoidal rule stays as near to them as it starts, up to an error of second order in the largest step. With constant steps h it approaches without growing error the sinusoids with the phasors that AC analysis computes at the angular frequency 2/h tan(w h/2).", "quantifier": "All linear circuits of resistors, capacitors, inductors and independent sources, frequencies, step sequences, starting points", "why_tests_cant": "Compares two analyses on all circuits and frequencies; a test compares a few waveforms with loose tolerances.", "anchors": ["ahkab/transient.py:transient_analysis", "ahkab/trap.py:get_df", "ahkab/ac.py:ac_analysis", "ahkab/ac.py:_generate_AC"]}
{"id": "C191", "title": "A reported operating point is near the exact one", "statement": "In a circuit of positive resistors, capacitors, current sources, grounded voltage sources and inductors, and devices such as diodes whose current grows with the voltage: let c be a voltage that is at least the absolute voltage tolerance and that drives at least the absolute current tolerance through the conductance between each node (not held by a voltage source) and the ground. Then the node voltages of an operating point reported by the standard method are within 2 c of those of the exact operating point.", "quantifier": "all such circuits, all tolerances, all starting points, all options without Gmin and source stepping", "why_tests_cant": "tests compare a few circuits with reference values; they cannot bound the error for all circuits from the tolerances alone", "anchors": ["ahkab/dc_analysis.py", "ahkab/diode.py", "ahkab/utilities.py"]}
{"id": "C192", "title": "Circuits with devices whose currents grow continuously have an operating point", "statement": "A circuit of positive resistors, capacitors, inductors, independent sources and devices whose currents are continuous and do not fall when the voltage grows has exactly one operating point, if the circuit without its devices has one solution (with Gmin: if there are no loops of voltage sources and inductors). Diodes with series resistance are such devices; the operating point analysis with the plain Newton method succeeds from some start and reports a point near that one.", "quantifier": "All such circuits, all device laws, all values of Gmin", "why_tests_cant": "Existence of a solution cannot be observed by running a solver on examples: a failure may be due to the method or to the equations.", "anchors": ["ahkab/dc_analysis.py:op_analysis", "ahkab/dc_analysis.py:dc_solve", "ahkab/dc_analysis.py:generate_mna_and_N", "ahkab/diode.py:get_i"]}
{"id": "C193", "title": "The table printed for an operating point", "statement": "The table of an operating point has one line per unknown, in the order of the variables: the name, the unit (V for the nodes, A for the branches), the value, the error and the error in percent of the value. The error is an error of the value: it is zero for a value that is exact, and the percentage is the error divided by the value.", "quantifier": "all circuits, operating points and options", "why_tests_cant": "A test prints the table of one circuit and looks at the text; that the column called error is the residual of the equations before the last update, and what it is for linear circuits, is a statement about every run of the solver.", "anchors": ["ahkab/results.py:325", "ahkab/results.py:337", "ahkab/dc_analysis.py:248", "ahkab/dc_analysis.py:640"]}
{"id": "C194", "title": "The short print-out of an operating point shows every variable once", "statement": "The short print-out consists of the variables in their order, each exactly once with its value, five in a row and padded with blanks at the end of the last row.", "quantifier": "all lists of variables and values", "why_tests_cant": "The print-out depends on the number of variables modulo five; a test covers a few numbers only.", "anchors": ["ahkab/results.py:477"]}
{"id": "C195", "title": "The methods of the periodic steady state analysis agree", "statement": "For a circuit whose sources have the period asked for, the shooting method and the brute-force method report the same solution; for constant sources both report the operating point.", "quantifier": "all linear circuits, steps, numbers of points, starting points and tolerances", "why_tests_cant": "Two methods that agree on one circuit with one number of points may differ on others, and the difference of one point in the period is small for many points.", "anchors": ["ahkab/shooting.py:40", "ahkab/bfpss.py:43", "ahkab/utilities.py"]}
{"id": "C196", "title": "Periodic steady state analyses of passive circuits always succeed", "statement": "For circuits of resistors, capacitors, inductors and independent sources with positive values that have one operating point, both periodic steady state analyses report a solution of their equations, for every step, number of points, starting point and all waveforms of the sources.", "quantifier": "all passive circuits, waveforms, steps and numbers of points", "why_tests_cant": "The matrices of the methods are products and blocks whose size grows with the number of points; that none of them is singular for any step is out of reach of tests.", "anchors": ["ahkab/shooting.py:40", "ahkab/shooting.py:360", "ahkab/bfpss.py:43", "ahkab/bfpss.py:295"]}
{"id": "C197", "title": "Gear's formulas do not create energy", "statement": "In a transient analysis with one of Gear's formulas and equal steps, the energy stored in a passive circuit without sources stays bounded by a fixed multiple of the initial energy, however many points are computed.", "quantifier": "all passive linear circuits, all steps, initial states and numbers of points", "why_tests_cant": "Growth by a few percent per point is invisible in short runs, and the orders that are stable for the circuits of the tests are not for lossless ones.", "anchors": ["ahkab/gear.py:60", "ahkab/transient.py:322", "ahkab/transient.py:273"]}
{"id": "C198", "title": "Parameters of transistor models are derived from the data of the process", "statement": "A parameter of a transistor model that is not given is computed from the data of the process as physics has it: COX from TOX, GAMMA as sqrt(2 q eps NSUB) / COX, PHI from NSUB, VTO as VFB + PHI + GAMMA sqrt(PHI), KP from U0; what is given by nothing has its default.", "quantifier": "all combinations of given parameters and all values", "why_tests_cant": "The formulas for parameters that are usually given are never executed in tests with complete models.", "anchors": ["ahkab/mosq.py:452", "ahkab/ekv.py:385"]}
{"id": "C199", "title": "The formula of a transient analysis is the one asked for", "statement": "transient_analysis with a documented method name, in upper or lower case, integrates with that formula; without a name it uses options.default_tran_method; names of no formula stop the program with status 23 before anything is computed, and bad times or matrices raise ValueError or stop the program with an error status. The first step is never larger than tstep nor larger than a 9999th of the interval with step control.", "quantifier": "all circuits, method names, options, times and shapes of the matrices", "why_tests_cant": "Tests name one or two methods in the case the code expects, never change the options and never pass bad matrices.", "anchors": ["ahkab/transient.py:121", "ahkab/transient.py:207", "ahkab/transient.py:245", "ahkab/transient.py:650"]}
{"id": "C200", "title": "The frame of a plot shows all of its curves", "statement": "The label of the vertical axis of plot_results lists the unit of every curve exactly once, in order of appearance; every point drawn lies within the limits of the axes; magnitudes, angles and values are drawn as asked for, with their units; the horizontal axis is logarithmic for frequencies only.", "quantifier": "all results, all lists of variables and differences of variables", "why_tests_cant": "A plot is looked at, not tested; the limits and units have to be right for every set of results.", "anchors": ["ahkab/plotting.py:78", "ahkab/plotting.py:159", "ahkab/plotting.py:173", "ahkab/plotting.py:240"]}
{"id": "C201", "title": "The temperature of a simulation is the one of its devices", "statement": "After ahkab.set_temperature(T) all devices and models without a temperature of their own work at T (in Kelvin), and results note the temperature their devices work at; devices with their own temperature keep it.", "quantifier": "all histories of setting temperatures, making devices and models and running analyses", "why_tests_cant": "The global temperature is copied at construction; only histories that set it after construction show the difference.", "anchors": ["ahkab/ahkab.py:798", "ahkab/constants.py:32", "ahkab/diode.py:91", "ahkab/ekv.py:433", "ahkab/mosq.py:501", "ahkab/results.py:150"]}
{"id": "C202", "title": "The symbolic stamps of diodes and transistors are their small-signal stamps", "statement": "With the symbols gm, r0 and gd of a device replaced by its conductances at an operating point, the matrix of the symbolic analysis gets from the device what the matrix of the AC analysis gets from it, for every connection of its terminals; the symbols belong to that device only.", "quantifier": "all conductances, all connections of terminals including grounded and tied ones, all matrices before", "why_tests_cant": "Symbolic tests contain transistors with bulk at the source only, and compare printed expressions.", "anchors": ["ahkab/symbolic.py:429", "ahkab/symbolic.py:448", "ahkab/mosq.py:363", "ahkab/ekv.py:310", "ahkab/dc_analysis.py:842"]}
{"id": "C203", "title": "Lines of user-defined elements give what their class returns and import each module once", "statement": "A line `y<name> n1 n2 key=value ...` that is accepted yields the object returned by the class named by `type` in the module named by `module`, called with the two nodes of the circuit, all other parameters written before a comment (each name once, in their order) and the name of the element, provided the object passed its own check. Each module is imported at most once however many lines name it. A refused line leaves the circuit unchanged and reports an error about the netlist; the code leaves the nodes of elements that fail their check behind and raises TypeError for names that are numbers. The function add_user_defined of the API makes the same element from the same values; the code raises NameError always.", "quantifier": "all modules, classes, constructors and checks, all circuits, all lines and sequences of lines", "why_tests_cant": "Modules and classes are written by users; tests can load a few of them, not all classes and all orders of lines.", "anchors": ["ahkab/netlist_parser.py:1075", "ahkab/circuit.py:134", "ahkab/circuit.py:Circuit.add_user_defined"]}
{"id": "C204", "title": "The operating point table of a switch shows its state, and switches sharing a model do not disturb each other", "statement": "The table printed for a switch shows the voltages asked for, the resistance of the switch in its present state, that state and the current by Ohm's law. Currents, conductances, states and tables of one switch are the same whether or not other switches with the same model object are evaluated in between. The voltage guessed for the control port leaves the switch in the state given in the netlist. The code does not make the table again for the voltages of the last one although the state may have changed, and its guess is on the wrong side for negative thresholds.", "quantifier": "all models, all functions in place of tanh, all voltages, all numbers of switches and all sequences of evaluations", "why_tests_cant": "The state depends on the whole sequence of evaluations of all switches of a model; tests follow one sequence.", "anchors": ["ahkab/switch.py:182", "ahkab/switch.py:200", "ahkab/switch.py:342", "ahkab/switch.py:362", "ahkab/switch.py:378"]}
{"id": "C205", "title": "Impedances and admittances of passive circuits", "statement": "In an AC sweep of a circuit of positive resistors, capacitors and inductors (coupled or not) driven by one current source, the resistance seen by the source (real part of voltage over current) is nowhere negative; the reactance is 2 pi f times the magnetic minus the electric energy, over the squared current; so without inductors it is nowhere positive, without capacitors nowhere negative, with resistors alone zero, and without resistors the resistance is zero. The same holds for the admittance seen by a voltage source, with the signs turned round.", "quantifier": "all circuits of such elements, all source amplitudes and phases, all gmin and all sweeps over positive frequencies", "why_tests_cant": "A property of all circuits of a class and all frequencies; tests have single circuits with known responses.", "anchors": ["ahkab/ac.py:ac_analysis", "ahkab/ac.py:_generate_AC", "ahkab/dc_analysis.py:generate_mna_and_N"]}
{"id": "C206", "title": "Wrong element lines are reported as errors of the netlist", "statement": "A line of a netlist with too few words, with a letter that stands for no element, with a model that does not exist, a resistor without resistance, a source without value, a transistor without width or length, a coupling of inductors not read before (or of one inductor with itself) or of a factor with another name, and sources with unknown or missing parameters raise NetlistParseError. Time functions written with positional parameters take as many words as they have parameters. The code disagrees on values that are no numbers (ValueError) and on sffm (five words for six parameters).", "quantifier": "all lists of models, all elements read before, all names, nodes and further words", "why_tests_cant": "Tests have a handful of wrong lines; the claim is about all of them.", "anchors": ["ahkab/netlist_parser.py:280", "ahkab/netlist_parser.py:369", "ahkab/netlist_parser.py:565", "ahkab/netlist_parser.py:1075"]}
{"id": "C207", "title": "A netlist and calls of the API with the same values make the same circuit", "statement": "Reading lines of a netlist gives the circuit made by the add_* calls with the same names, nodes, values and models: the same numbers of nodes, elements in the same order and couplings; if one way fails, so does the other, at the same element. A circuit of elements without models printed and read back is the same circuit. The code disagrees for capacitors of zero farad (only netlists take them) and for switches with models of other devices (only the API takes them).", "quantifier": "all lists of elements of the thirteen kinds, all sets of models, all circuits that exist already", "why_tests_cant": "Tests compare one netlist with one script; the claim is about all circuits.", "anchors": ["ahkab/netlist_parser.py:main_netlist_parser", "ahkab/circuit.py:add_resistor", "ahkab/circuit.py:add_inductor_coupling", "ahkab/circuit.py:add_switch", "ahkab/components/sources/VSource.py:50"]}
{"id": "C208", "title": "Included files give what they give alone", "statement": "A netlist whose main file includes others, directly or through included files, gives the elements, directives, models, post-processing directives and subcircuits of the main file followed by those every included file gives when read alone, in the order in which the files were asked for. Every file asked for exists and closes the subcircuits it opens. Reading ends if no file includes itself directly or through others. Files are found under the name written, and errors quote the line of the file they are in.", "quantifier": "All sets of files, all main files and all depths of nesting", "why_tests_cant": "Tests read single files or one level of inclusion with short names; circles of files do not end at all and nesting has no bound", "anchors": ["ahkab/netlist_parser.py:183", "ahkab/netlist_parser.py:319", "ahkab/netlist_parser.py:1794", "ahkab/utilities.py:157"]}
{"id": "C209", "title": "Initial conditions in netlists reach the analyses that ask for them", "statement": "A directive .ic with a name and settings of node voltages and branch currents, in any order and with a comment at the end, makes available under its name the vector with these values and zeros elsewhere; the last directive with a name counts; an analysis with this label starts from that vector and no other; a directive without a name is refused, and every directive is read either as initial conditions or as an analysis. Names may be any words, values that are no numbers raise NetlistParseError, and a label this netlist does not define is refused. Of several values for one unknown in a directive the last counts, and unknown nodes or elements are refused.", "quantifier": "All circuits, all directives and all orders of their settings, all lists of analyses", "why_tests_cant": "Tests use no .ic directive at all; the dictionary of vectors is global and outlives the netlist that filled it", "anchors": ["ahkab/netlist_parser.py:1418", "ahkab/netlist_parser.py:1671", "ahkab/ahkab.py:962", "ahkab/dc_analysis.py:1072"]}
{"id": "C210", "title": "The layout of a netlist does not matter", "statement": "Two netlists with the same title whose lines hold the same words make the same circuit or raise the same error: letter case, the number of blanks, empty lines, comment lines and the breaking of a line into continuations change nothing.", "quantifier": "all netlists, all ways to lay them out", "why_tests_cant": "infinitely many layouts of one netlist; tests try a few files", "anchors": ["ahkab/netlist_parser.py:183", "ahkab/netlist_parser.py:1815"]}
{"id": "C211", "title": "Printed spectra show every component, scaled to the largest one", "statement": "The tables of .FOUR and .FFT have one row for each component after the first, in order, with its own frequency, magnitude and phase. The reference named above the table is a component that none exceeds: normalised magnitudes lie between 0 and 1, levels in dBc are not above 0, and the magnitude of every component can be computed back from its row and the reference. The window is printed with its documented name.", "quantifier": "all spectra, formats, windows and labels", "why_tests_cant": "any number of components with any complex values", "anchors": ["ahkab/printing.py:328", "ahkab/printing.py:380", "ahkab/options.py:198"]}
{"id": "C212", "title": "A symbolic analysis returns what sympy found, however it is started", "statement": "The result of a symbolic analysis has one expression for each variable solved for, the transfer functions asked for are returned and kept in a file of their own, a circuit without solution is reported by a warning, and the command line gives the same results as a call from Python.", "quantifier": "all solutions, sources, output files", "why_tests_cant": "depends on the interpreter and on the way the program is started", "anchors": ["ahkab/symbolic.py:179", "ahkab/printing.py:270", "ahkab/printing.py:287"]}
{"id": "C213", "title": "Reactances of lossless circuits increase with frequency", "statement": "For a circuit of capacitors, inductors, couplings and one independent source that carries an AC value (no resistors, Gmin zero, coupling factors of every inductor at most one in total), take two frequencies of the result of an AC analysis such that the circuit has no natural frequency between them. The imaginary part of the impedance computed from the result for a current source, and that of the admittance for a voltage source, is not smaller at the higher frequency. The same holds for that part divided by the frequency and for that part times the frequency (Foster's reactance theorem).", "quantifier": "all circuits of capacitors, inductors and couplings of any size, all linear sweeps and all pairs of frequencies of the sweep without a natural frequency between them", "why_tests_cant": "a test compares a finite number of circuits at a finite number of frequencies; a wrong sign of a stamp of a mutual inductance or of a dynamic entry shows as a falling reactance only for particular values", "anchors": ["ahkab/ac.py:ac_analysis", "ahkab/ac.py:_generate_AC", "ahkab/dc_analysis.py:generate_mna_and_N"]}
{"id": "C214", "title": "Results sent to the standard output", "statement": "Analyses write their results to the standard output if no file is named. The names `stdout` and `-` both stand for it: what is added to a set of results appears there as one line of names and one line for each sample, in order, however many pieces it comes in, exactly as it would in a file; writing to a file leaves the standard output and other files alone. The variables of the set can be read afterwards.", "quantifier": "all names of files, names of variables, numbers and sizes of pieces, values, and earlier contents of files and of the standard output", "why_tests_cant": "tests capture the output of one analysis; they do not add a second piece under the name `-`, print after it, or read a variable back from results that have no file", "anchors": ["ahkab/csvlib.py:_get_fp", "ahkab/csvlib.py:_close_fp", "ahkab/csvlib.py:write_csv", "ahkab/csvlib.py:load_csv", "ahkab/results.py:_mutable_data._add_data", "ahkab/results.py:solution.__getitem__"]}
{"id": "C215", "title": "A name is in a result set exactly if it can be looked up", "statement": "For the results of every analysis, `name in res` and `res.has_key(name)` are true exactly if `res[name]` gives a value (in any letter case); otherwise `res[name]` raises KeyError and `res.get(name, default)` gives the default. `res.items()` lists each of the `len(res)` variables once, with the value found under its name.", "quantifier": "all names, all result sets of transient, DC, periodic, AC, operating point and pole-zero analyses, all numbers of samples", "why_tests_cant": "tests look up names they know to be there; names that are almost the same, sets without zeros and the agreement of all ways of access for every name need a proof", "anchors": ["ahkab/results.py:solution.has_key", "ahkab/results.py:solution.__contains__", "ahkab/results.py:solution.get", "ahkab/results.py:solution.values", "ahkab/results.py:solution.items", "ahkab/results.py:op_solution.items", "ahkab/results.py:pz_solution.__contains__", "ahkab/results.py:pz_solution.keys"]}
{"id": "C216", "title": "Elements in parallel can be put together and elements can be turned round", "statement": "In a circuit without non-linear devices, two resistors, capacitors, current sources, or controlled current sources with the same control, that lie between the same two nodes anywhere in the netlist, give every analysis exactly the equations (matrix, constants, time-dependent sources, AC sources, dynamic matrix) and the variables of the one element with the sum of their conductances, capacitances, currents or gains; errors included. The same holds for a resistor or capacitor whose nodes are exchanged, for a current source or controlled current source whose nodes are exchanged with its value negated, and for a resistor written as a voltage-controlled current source. Part names do not matter.", "quantifier": "all circuits, positions in the netlist, nodes (ground and coinciding ones included), values, waveforms and part names", "why_tests_cant": "a test compares the results of a few circuits up to rounding; equality of the assembled equations for every surrounding netlist is beyond tests", "anchors": ["ahkab/dc_analysis.py:generate_mna_and_N", "ahkab/dc_analysis.py:dc_solve", "ahkab/ac.py:_generate_AC", "ahkab/ac.py:_generate_Nac", "ahkab/transient.py:generate_D", "ahkab/circuit.py:Circuit.find_vde_index"]}
{"id": "C217", "title": "Circuits that are equivalent by the textbook have the same AC response", "statement": "Replacing resistors, capacitors or uncoupled inductors in series by one element, uncoupled inductors in parallel by one, a triangle of resistors by a star, or a current source with a parallel resistor by a voltage source with a series resistor leaves the AC results of ac_analysis at all other nodes and elements unchanged, at every frequency", "quantifier": "for all circuits of linear elements around the replaced part, all nodes, values, phasors of sources and frequencies", "why_tests_cant": "a test compares a few circuits at a few frequencies; the claim is about every circuit around the replaced part", "anchors": ["ahkab/ac.py:ac_analysis", "ahkab/ac.py:_generate_AC", "ahkab/dc_analysis.py:generate_mna_and_N", "ahkab/options.py:cmin"]}
{"id": "C218", "title": "Transients of reciprocal circuits are reciprocal", "statement": "transient_analysis with implicit Euler and a fixed step, started without energy: for two circuits of resistors, capacitors, inductors, couplings and independent sources that differ in their sources only, the response of the first weighed with the sources of the second in reversed order of time is the response of the second weighed with the sources of the first. A current source at one port causes the same voltage at another port, at every point in time, as a source with the same wave form at the other port causes at the first; the same for voltage sources and currents. The last two claims hold for the trapezoidal rule and Gear's formulas as well, and for steps of any lengths, if both analyses take the same steps.", "quantifier": "all circuits of these elements, all values and wave forms, all step lengths for which the equations are regular, all numbers of points", "why_tests_cant": "A test sees one circuit and one wave form; the claim relates two runs on different circuits, at all points, and would be broken by any asymmetry in the assembled matrices or in the use of past points.", "anchors": ["ahkab/transient.py:transient_analysis", "ahkab/implicit_euler.py:get_df", "ahkab/transient.py:generate_D", "ahkab/dc_analysis.py:dc_solve", "ahkab/dc_analysis.py:generate_mna_and_N", "ahkab/trap.py:get_df", "ahkab/gear.py:get_df"]}
{"id": "C219", "title": "Messages depend on the verbosity in one way: unimportant ones are left out", "statement": "print_info_line shows a message exactly if its importance is at most the verbosity; a message not shown has no effect. For any sequence of messages what is printed with a lower verbosity is a subsequence of what is printed with a higher one; warnings and errors go to standard error unchanged whatever the verbosity. Parse errors are reported with message, line number and line, from which both can be read back, and raised again. The settings of numpy.set_printoptions are afterwards what they were before.", "quantifier": "all messages, importance levels, verbosities, sequences of messages and line numbers", "why_tests_cant": "Tests run with one verbosity and do not read the streams; settings of numpy changed behind the user are visible only in other code after an exception.", "anchors": ["ahkab/printing.py:print_info_line", "ahkab/printing.py:print_general_error", "ahkab/printing.py:print_warning", "ahkab/printing.py:print_parse_error", "ahkab/printing.py:print_symbolic_equations", "ahkab/printing.py:printoptions", "ahkab/netlist_parser.py:parse_circuit"]}
{"id": "C220", "title": "Start of the shooting method", "statement": "The transient analysis that shooting_analysis runs first takes exactly ten times as many fixed steps as there are points and ends; asked for the last N points with return_req_dict, transient_analysis returns the last N states (the initial one included) stacked in one column, oldest first; point i of the start of the iteration is the state found at (9N+i+1) steps, and it belongs to the phase of point i (the time i*step modulo the period).", "quantifier": "all circuits (linear or not), steps > 0, numbers of points > 0, all lengths and widths of buffers", "why_tests_cant": "Tests look at the converged waveforms of a few circuits, which do not depend on where a linear iteration starts; an off-by-one in the slicing or a start out of phase only slows or breaks convergence for some non-linear circuits.", "anchors": ["ahkab/shooting.py:145-163", "ahkab/transient.py:263-268", "ahkab/transient.py:392-393", "ahkab/transient.py:411-426", "ahkab/transient.py:641-652"]}
{"id": "C221", "title": "Thevenin's theorem for AC analyses", "statement": "Whatever is connected to two nodes of a circuit finds there, at each frequency, an AC voltage source with an inner impedance: the voltage across the load reported by ac_analysis is that of the open circuit less the inner impedance times the current drawn, where the inner impedance is the fall of voltage per ampere of an AC test current source. A resistor, capacitor or inductor forms a voltage divider with it; a voltage source carries the current that the difference of the voltages drives through it. No load takes more power than the square of the voltage of the open circuit over four times the inner resistance, and the load takes that much exactly when it is matched to the complex conjugate of the inner impedance. All other voltages and currents of the circuit change in proportion to the current drawn.", "quantifier": "all circuits of linear elements (coupled inductors and controlled sources included) with AC results, all pairs of nodes, test currents other than zero, frequencies and loads with nodes and elements of their own", "why_tests_cant": "a test measures the port of one circuit with a few loads at a few frequencies", "anchors": ["ahkab/ac.py:ac_analysis", "ahkab/ac.py:_generate_AC", "ahkab/dc_analysis.py:generate_mna_and_N", "ahkab/options.py:cmin"]}
{"id": "C222", "title": "Parts of a circuit may be replaced by sources of the same current or voltage", "statement": "If a part of a linear circuit that hangs at two nodes is replaced by a current source of the current that it draws, or by a voltage source of the voltage that it has, op_analysis reports the same voltages and currents for the rest, and so does ac_analysis at the frequency of the replacement (with options.gmin and options.cmin zero); a part that draws no current may be left out. If a resistance is changed, every reported voltage and current moves by what a test current across the resistor moves it, times the change of conductance times the voltage across the resistor over one plus the change of conductance times the resistance that the test current finds.", "quantifier": "all circuits of linear elements (controlled sources included) with one operating point, all pairs of nodes, all parts with nodes and elements of their own, all pairs of resistances", "why_tests_cant": "a test compares some circuits with some replacements", "anchors": ["ahkab/dc_analysis.py:op_analysis", "ahkab/dc_analysis.py:generate_mna_and_N", "ahkab/circuit.py", "ahkab/ac.py:ac_analysis"]}
{"id": "C223", "title": "Tellegen's theorem", "statement": "For two circuits with the same connections, whatever their elements are, the voltages reported by an analysis of the one times the currents of an analysis of the other, summed over all elements, give zero; for one circuit: the powers of all elements, sources included, add up to zero, in AC analyses active and reactive power alike.", "quantifier": "all pairs of circuits of linear elements with the same connections and reported results, all frequencies", "why_tests_cant": "a test adds up the powers of a few circuits", "anchors": ["ahkab/dc_analysis.py:op_analysis", "ahkab/dc_analysis.py:generate_mna_and_N", "ahkab/ac.py:ac_analysis", "ahkab/options.py:gmin", "ahkab/options.py:cmin"]}
{"id": "C224", "title": "Poles, zeros and DC gain of transfer functions of symbolic analyses", "statement": "For every transfer function that a symbolic analysis with an input source returns, the listed poles are exactly the complex frequencies at which the magnitude of the gain grows without bound, the listed zeros are exactly those at which it vanishes, gain0 is the gain at s = 0, the gain can be rebuilt from gain0, poles and zeros, and the printed results show all of them.", "quantifier": "every pair of polynomials num, den in s with complex coefficients (every gain with numeric values of the other symbols), every complex frequency, every set of transfer functions", "why_tests_cant": "A test looks at the poles of some circuits; that the list has all singularities of the gain and no others concerns all fractions of polynomials, including those with multiple roots and common factors.", "anchors": ["ahkab/symbolic.py:calculate_gains", "ahkab/symbolic.py:get_roots", "ahkab/results.py:symbolic_solution"]}
{"id": "C225", "title": "Header lines of result files", "statement": "csvlib.write_headers(filename, headers) writes one line with the names, the same that write_csv writes for them, so that get_headers gives them back; other files are left alone, and errors are raised for lists without a first name only.", "quantifier": "every file name (standard output included), every list of names, every content that files had before", "why_tests_cant": "The function is not used by the simulator and has no test; whether it ever succeeds concerns all files, names and former contents.", "anchors": ["ahkab/csvlib.py:write_headers", "ahkab/csvlib.py:_get_fp", "ahkab/csvlib.py:get_headers"]}
{"id": "C226", "title": "A directive and a call of the API with the same values start the same analysis", "statement": "Every analysis directive that the parser accepts can be run: the analysis function gets all arguments that it needs and none that it does not know. The description that new_op, new_dc, new_ac, new_tran, new_pss, new_pz or new_symbolic makes from the values of the directive calls the same function with the same values of all parameters, apart from the name of the results file and the verbosity. Values that neither gives are the same in both interfaces; in the code the defaults of tran, ac and pss differ.", "quantifier": "every list of tokens of an analysis directive, every file name and verbosity", "why_tests_cant": "A test runs some directives; that no accepted line leads to a TypeError, and that both interfaces agree, concerns all combinations of parameters and labels.", "anchors": ["ahkab/ahkab.py:new_op", "ahkab/ahkab.py:new_dc", "ahkab/ahkab.py:new_tran", "ahkab/ahkab.py:new_ac", "ahkab/ahkab.py:new_pss", "ahkab/ahkab.py:new_pz", "ahkab/ahkab.py:new_symbolic", "ahkab/ahkab.py:run", "ahkab/pss.py:pss_analysis"]}
{"id": "C227", "title": "What an operating point analysis prints and writes", "statement": "With a file name, op_analysis writes the report and the data of the solution that it returns to the two files of that name and nothing to other files; with outfile 'stdout' it prints the report of that solution once and nothing else; as a library (options.cli false) it prints nothing. A missing solution is reported with one line on the standard error. Temporary files are removed at the end of the session.", "quantifier": "every outcome of the two solutions with and without Gmin, every list of variables that differ between them, every outfile and verbosity", "why_tests_cant": "Tests do not look at the output, and circuits whose solution depends on Gmin are rare.", "anchors": ["ahkab/dc_analysis.py:op_analysis", "ahkab/printing.py:print_result_check", "ahkab/results.py:op_solution.write_to_file", "ahkab/ahkab.py:new_op", "ahkab/options.py:cli"]}
