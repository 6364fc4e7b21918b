{
 "claims": [
  {
   "property": "C01",
   "status": "proved",
   "theorems": [
    "Verif.Nodes.C01_lookups_inverse",
    "Verif.Nodes.C01_injective",
    "Verif.Nodes.C01_stable",
    "Verif.Nodes.C01_add_node",
    "Verif.Nodes.C01_create_node"
   ],
   "note": "All call histories on a fresh circuit. Names that are not text (TypeError) are excluded by typing. remove_elem is treated in C03."
  },
  {
   "property": "C02",
   "status": "proved",
   "theorems": [
    "Verif.Nodes.C02_contiguous",
    "Verif.Nodes.C02_reference_is_zero"
   ],
   "note": "All call histories on a fresh circuit without removals."
  },
  {
   "property": "C03",
   "status": "partial",
   "theorems": [
    "Verif.Build.C03_terminals_kept_partial",
    "Verif.Build.C03_two_terminal_partial",
    "Verif.Build.C03_next_number",
    "Verif.Build.C03_removal_refuted",
    "Verif.Build.C03_device_partial",
    "Verif.Build.C03_device_refuted"
   ],
   "note": "A history is needed to see it; what removal does is proved for circuits of two-terminal elements and for diodes and transistors; what goes wrong is proved with witnesses (sense nodes and gates forgotten, numbers given twice, orphan anodes kept, AttributeError half way)."
  },
  {
   "property": "C04",
   "status": "proved",
   "theorems": [
    "Verif.Nodes.C04_fresh",
    "Verif.Nodes.C04_distinct",
    "Verif.Nodes.C04_flagged_internal"
   ],
   "note": "All histories, including user nodes called INTk."
  },
  {
   "property": "C05",
   "status": "proved",
   "theorems": [
    "Verif.Circuit.C05_index_counts_preceding",
    "Verif.Circuit.C05_round_trip",
    "Verif.Circuit.C05_round_trip'",
    "Verif.Circuit.C05_index_error",
    "Verif.Circuit.C05_vde_error",
    "Verif.Circuit.C05_case_duplicates_refuted"
   ],
   "note": "Uniqueness of ids up to case is part of the statement; C05_case_duplicates_refuted shows that it is needed although the duplicate check of the simulator accepts such circuits."
  },
  {
   "property": "C06",
   "status": "partial",
   "theorems": [
    "Verif.Mna.C06_current_conserved",
    "Verif.Mna.C06_columns_sum_zero",
    "Verif.Mna.C06_shorted_source_refuted"
   ],
   "note": "Holds for every circuit in which no voltage-defined element has both terminals on one node; for such an element it is refuted."
  },
  {
   "property": "C07",
   "status": "partial",
   "theorems": [
    "Verif.Mna.C07_equations_are_circuit_laws_partial",
    "Verif.Mna.C07_node_rows",
    "Verif.Mna.C07_ccvs_row",
    "Verif.Mna.C07_ccvs_sign_refuted",
    "Verif.Mna.C07_vcvs_overlap_refuted",
    "Verif.Mna.C07_assembly_succeeds_iff"
   ],
   "note": "Node rows proved for all circuits. Branch rows proved except for current-controlled voltage sources (sign opposite to the documentation, refuted) and voltage-controlled voltage sources whose sense nodes coincide with output nodes (coefficients overwritten, refuted)."
  },
  {
   "property": "C08",
   "status": "proved",
   "theorems": [
    "Verif.Dyn.C08_node_rows",
    "Verif.Dyn.C08_branch_rows",
    "Verif.Dyn.C08_ac_same"
   ],
   "note": "All circuits; the derivative of the reference node is zero (the reference row/column carries cmin with the wrong sign but is removed). Success of the assembly is a hypothesis."
  },
  {
   "property": "C09",
   "status": "proved",
   "theorems": [
    "Verif.Dyn.C09_energy_nonneg",
    "Verif.Dyn.C09_overunity_negative",
    "Verif.Dyn.C09_self_coupling_rejected",
    "Verif.Dyn.C09_unknown_inductor_rejected",
    "Verif.Dyn.C09_mutual_value",
    "Verif.Dyn.C09_reciprocity",
    "Verif.Rlc.C09_magnetic_energy",
    "Verif.Rlc.C09_triple_negative"
   ],
   "note": "Energy inequality over any ordered field; reciprocity over all API build histories; sqrt abstract (M is k times whatever math.sqrt returned)."
  },
  {
   "property": "C10",
   "status": "proved",
   "theorems": [
    "Verif.Mna.C10_ac_excitation",
    "Verif.Mna.C10_only_ac_matters"
   ],
   "note": "All circuits."
  },
  {
   "property": "C11",
   "status": "proved",
   "theorems": [
    "Verif.Mna.C11_reduced_iff_full"
   ],
   "note": "Exact arithmetic; voltage-defined elements not shorted on themselves."
  },
  {
   "property": "C12",
   "status": "proved",
   "theorems": [
    "Verif.Mna.C12_gmin_matrix",
    "Verif.Mna.C12_gmin_current"
   ],
   "note": "All sizes and values."
  },
  {
   "property": "C13",
   "status": "partial",
   "theorems": [
    "Verif.Newton.C13_damping_partial",
    "Verif.Newton.C13_maximal_partial",
    "Verif.Newton.C13_first_iterations",
    "Verif.Newton.C13_grounded_port_refuted"
   ],
   "note": "Refuted for ports with both terminals on the reference (the last unknown is read instead); proved for all other port lists, including maximality."
  },
  {
   "property": "C14",
   "status": "proved",
   "theorems": [
    "Verif.Conv.C14_convergence_iff",
    "Verif.Conv.C14_single_offender",
    "Verif.Conv.C14_monotone",
    "Verif.Conv.C14_exact_passes"
   ],
   "note": "Exact arithmetic, no NaN or infinities."
  },
  {
   "property": "C15",
   "status": "proved",
   "theorems": [
    "Verif.Newton.C15_linear_exact",
    "Verif.Newton.C15_unique"
   ],
   "note": "Over exact arithmetic; dense and sparse solvers are both taken as exact solves."
  },
  {
   "property": "C16",
   "status": "partial",
   "theorems": [
    "Verif.Homotopy.C16_standard_only_partial",
    "Verif.Homotopy.C16_success_last_partial",
    "Verif.Homotopy.C16_partial_strength_refuted"
   ],
   "note": "Refuted: source stepping stops at 90 percent, and a failed homotopy step is solved once more and accepted if it then converges. Proved: standard method alone is honest; full characterisation of what a success can be."
  },
  {
   "property": "C17",
   "status": "partial",
   "theorems": [
    "Verif.Homotopy.C17_bounded_ordered_partial",
    "Verif.Homotopy.C17_failure_only_if_all_failed",
    "Verif.Homotopy.C17_bound_refuted",
    "Verif.Homotopy.C17_exceptions_refuted"
   ],
   "note": "Refuted in the bound (22 solves can happen) and when no method is enabled (raises). Proved: at most 22 solves, in the documented order, and failure only after every enabled method failed."
  },
  {
   "property": "C18",
   "status": "partial",
   "theorems": [
    "Verif.Sweep.C18_values_partial",
    "Verif.Sweep.C18_exact_multiple_partial",
    "Verif.Sweep.C18_within_partial",
    "Verif.Sweep.C18_restored_partial",
    "Verif.Sweep.C18_refuted"
   ],
   "note": "Linear sweeps over exact rationals with an arbitrary oracle for the operating point. Proved: the values tried are always start, start+step, ... in order and less than one step beyond stop; when step divides the range exactly start..stop is visited; source restored on every return and on argument errors. Refuted: overshoot otherwise, source not restored on an exception from the operating point or when all points are skipped."
  },
  {
   "property": "C19",
   "status": "proved",
   "theorems": [
    "Verif.Axes.C19_values",
    "Verif.Axes.C19_linear_axis",
    "Verif.Axes.C19_refused"
   ],
   "note": "Iterator state machine over any ordered field."
  },
  {
   "property": "C20",
   "status": "proved",
   "theorems": [
    "Verif.Axes.C20_log_axis"
   ],
   "note": "Iterator over the reals with Real.logb and rpow; float rounding not modelled."
  },
  {
   "property": "C21",
   "status": "proved",
   "theorems": [
    "Verif.Comb.C21_every_choice_once",
    "Verif.Comb.C21_refused",
    "Verif.Comb.C21_sublists"
   ],
   "note": "Iterator state machine indexed by the subset size; order of enumeration is by increasing positions."
  },
  {
   "property": "C22",
   "status": "partial",
   "theorems": [
    "Verif.StepPts.C22_consistent",
    "Verif.StepPts.C22_step_rounded",
    "Verif.StepPts.C22_points_kept",
    "Verif.StepPts.C22_success_iff",
    "Verif.StepPts.C22_degenerate_refuted"
   ],
   "note": "Exact arithmetic, positive period and step. Degenerate arguments raise ZeroDivisionError or TypeError, a negative period gives an inconsistent pair (C22_degenerate_refuted)."
  },
  {
   "property": "C23",
   "status": "proved",
   "theorems": [
    "Verif.Memo.C23_transparent",
    "Verif.Memo.C23_bounded",
    "Verif.Memo.C23_keys_nodup",
    "Verif.Memo.C23_kept"
   ],
   "note": "Also: the cache never exceeds its limit after a call and stores each key once."
  },
  {
   "property": "C24",
   "status": "partial",
   "theorems": [
    "Verif.Memo.C24_never_forgets",
    "Verif.Memo.C24_stale",
    "Verif.Memo.C24_unchanged_partial",
    "Verif.Memo.C24_refuted"
   ],
   "note": "Refuted: stored values are returned for ever, whatever changes in the device or model (C24_stale is universal). Correct while the function value at each key does not change."
  },
  {
   "property": "C25",
   "status": "proved",
   "theorems": [
    "Verif.DfBuffer.C25_contents",
    "Verif.DfBuffer.C25_ready_iff",
    "Verif.DfBuffer.C25_entry",
    "Verif.DfBuffer.C25_refused"
   ],
   "note": "Includes refused points; isready is true iff at least n points were accepted."
  },
  {
   "property": "C26",
   "status": "partial",
   "theorems": [
    "Verif.Transient.C26_times_partial",
    "Verif.Transient.C26_refuted"
   ],
   "note": "Outcomes of Newton and of the error estimator are adversarial. Proved: strictly increasing, after tstart, reaching tstop, overshoot less than HMAX. Refuted: tstart is not recorded, tstop can be passed with and without step control."
  },
  {
   "property": "C27",
   "status": "partial",
   "theorems": [
    "Verif.Transient.C27_steps_bounded",
    "Verif.Transient.C27_growth",
    "Verif.Transient.C27_finite_rejections",
    "Verif.Transient.C27_zero_step_refuted"
   ],
   "note": "Proved for positive HMAX and hmin and a threshold below one; a step of zero passes the argument check and then the loop never ends (C27_zero_step_refuted)."
  },
  {
   "property": "C28",
   "status": "proved",
   "theorems": [
    "Verif.DF.C28_affine_exact",
    "Verif.DF.C28_history_free"
   ],
   "note": "Exact arithmetic over any field, one vector component."
  },
  {
   "property": "C29",
   "status": "proved",
   "theorems": [
    "Verif.DF.C29_quadratic_derivative",
    "Verif.DF.C29_quadratic_predictor"
   ],
   "note": "Exact arithmetic over any field of characteristic 0; the 3x3 inverse of the predictor is Mathlib's matrix inverse."
  },
  {
   "property": "C30",
   "status": "proved",
   "theorems": [
    "Verif.DF.C30_polynomials_exact"
   ],
   "note": "Any order, any grid of distinct points, by Lagrange interpolation."
  },
  {
   "property": "C31",
   "status": "proved",
   "theorems": [
    "Verif.DF.C31_predictor_exact"
   ],
   "note": "Any order, any grid of distinct points."
  },
  {
   "property": "C32",
   "status": "partial",
   "theorems": [
    "Verif.TimeFun.C32_documented_partial",
    "Verif.TimeFun.C32_periodic",
    "Verif.TimeFun.C32_between",
    "Verif.TimeFun.C32_before_delay",
    "Verif.TimeFun.C32_late_refuted",
    "Verif.TimeFun.C32_never_refuted"
   ],
   "note": "Equality with the documented waveform proved when delay+rise+width+fall fit in one period; bounds, periodicity and value before the delay proved without that; refuted otherwise (delay is repeated in every period)."
  },
  {
   "property": "C33",
   "status": "partial",
   "theorems": [
    "Verif.TimeFun.C33_interpolates_partial",
    "Verif.TimeFun.C33_periodic",
    "Verif.TimeFun.C33_repeats_tail",
    "Verif.TimeFun.C33_repeats_whole",
    "Verif.TimeFun.C33_outside_refuted"
   ],
   "note": "Straight lines, point values and repetition proved; constancy outside the points refuted (the spline extrapolates). The scipy spline is modelled, not verified."
  },
  {
   "property": "C34",
   "status": "partial",
   "theorems": [
    "Verif.TimeFun.C34_initial",
    "Verif.TimeFun.C34_sin_continuous",
    "Verif.TimeFun.C34_exp_continuous",
    "Verif.TimeFun.C34_sffm_continuous",
    "Verif.TimeFun.C34_am_continuous",
    "Verif.TimeFun.C34_exp_between_partial",
    "Verif.TimeFun.C34_exp_between_refuted",
    "Verif.TimeFun.C34_documented",
    "Verif.TimeFun.C34_period_and_envelope"
   ],
   "note": "Initial values and continuity proved for all four; the range of exp is proved for tau1 <= tau2 and refuted otherwise."
  },
  {
   "property": "C35",
   "status": "proved",
   "theorems": [
    "Verif.Units.C35_value",
    "Verif.Units.C35_only_documented",
    "Verif.Units.C35_accepted",
    "Verif.Units.C35_unknown_suffix"
   ],
   "note": "Number and suffix for all numerals of the grammar, all letter cases; accepted strings are exactly number+documented suffix; unknown suffixes refused. float() is modelled in exact arithmetic."
  },
  {
   "property": "C36",
   "status": "proved",
   "theorems": [
    "Verif.Directive.C36_binds",
    "Verif.Directive.C36_accepts",
    "Verif.Directive.C36_unknown",
    "Verif.Directive.C36_duplicate",
    "Verif.Directive.C36_missing",
    "Verif.Directive.C36_order",
    "Verif.Directive.C36_comment",
    "Verif.Directive.C36_specs_good",
    "Verif.Directive.C36_analysis",
    "Verif.Directive.C36_tran",
    "Verif.Directive.C36_unknown_label",
    "Verif.Directive.C36_uic"
   ],
   "note": "C36_specs_good shows that the theorems apply to every analysis and time function. A value that is not a number is kept as text by convert (see C35), so it is not refused here; a text for `uic` raises ValueError."
  },
  {
   "property": "C37",
   "status": "partial",
   "theorems": [
    "Verif.Netlist.C37_join_partial",
    "Verif.Netlist.C37_blocks",
    "Verif.Netlist.C37_count_partial",
    "Verif.Netlist.C37_characters_partial",
    "Verif.Netlist.C37_orphan_refuted",
    "Verif.Netlist.C37_stdin_refuted",
    "Verif.Netlist.C37_stdin_partial"
   ],
   "note": "Missing: orphan continuation lines (first line after the title, or after a blank line) become lines of their own; C37_stdin_refuted: netlists read from standard input get an empty line after every line, so continuation lines are never joined."
  },
  {
   "property": "C38",
   "status": "partial",
   "theorems": [
    "Verif.Subckt.C38_instance",
    "Verif.Subckt.C38_nodes",
    "Verif.Subckt.C38_isolated_partial",
    "Verif.Subckt.C38_caller_partial",
    "Verif.Subckt.C38_local",
    "Verif.Subckt.C38_ids_partial",
    "Verif.Subckt.C38_declare",
    "Verif.Subckt.C38_declare_ground",
    "Verif.Subckt.C38_isolated_refuted",
    "Verif.Subckt.C38_no_value_refuted",
    "Verif.Subckt.C38_call_words",
    "Verif.Subckt.C38_no_ports"
   ],
   "note": "Complete description of what a call does (C38_instance); isolation between instances, from the caller and of ids for labels without dash and caller nodes that do not begin with label-dash. Refuted in general by names with dashes. Self-containing subcircuits: only terminating expansions are covered (fuel)."
  },
  {
   "property": "C39",
   "status": "partial",
   "theorems": [
    "Verif.Ic.C39_build_partial",
    "Verif.Ic.C39_build_refuted",
    "Verif.Ic.C39_modify_partial",
    "Verif.Ic.C39_ground_refuted",
    "Verif.Ic.C39_ground_first_refuted",
    "Verif.Ic.C39_zero_refuted",
    "Verif.Ic.C39_build_unknown"
   ],
   "note": "User vector: proved for names of letters and digits, any label list in the documented form without blanks (refuted for names with other characters). Element initial conditions: proved for capacitors and diodes off ground that do not interfere, and for all inductors; refuted for elements connected to ground and for initial conditions of zero."
  },
  {
   "property": "C40",
   "status": "proved",
   "theorems": [
    "Verif.Switch.C40_range",
    "Verif.Switch.C40_range_rounded",
    "Verif.Switch.C40_monotone",
    "Verif.Switch.C40_middle",
    "Verif.Switch.C40_flip",
    "Verif.Switch.C40_window",
    "Verif.Switch.C40_history"
   ],
   "note": "Real arithmetic; the window and history theorems hold for any tanh."
  },
  {
   "property": "C41",
   "status": "partial",
   "theorems": [
    "Verif.Switch.C41_go",
    "Verif.Switch.C41_gm_partial",
    "Verif.Switch.C41_gm_refuted"
   ],
   "note": "Output conductance proved. The transconductance lacks the factor vout (refuted at vout = 0; partial theorem states what it is)."
  },
  {
   "property": "C42",
   "status": "partial",
   "theorems": [
    "Verif.Diode.C42_increasing",
    "Verif.Diode.C42_zero_refuted",
    "Verif.Diode.C42_derivative_partial",
    "Verif.Diode.C42_breakdown_refuted",
    "Verif.Diode.C42_large_refuted",
    "Verif.Diode.C42_jump_refuted",
    "Verif.Diode.C42_injection_refuted",
    "Verif.Diode.C42_area_refuted",
    "Verif.Diode.C42_root_unique"
   ],
   "note": "Strictly increasing for all parameters; conductance is the derivative without breakdown, high injection, series resistance and below 70 thermal voltages. Refuted otherwise: current at 0 V is +IS, breakdown sign, no knee term, wrong slope above 70 VT with a jump, area dropped with RS."
  },
  {
   "property": "C43",
   "status": "partial",
   "theorems": [
    "Verif.Mosq.C43_continuous",
    "Verif.Mosq.C43_gmd_continuous",
    "Verif.Mosq.C43_threshold_refuted",
    "Verif.Mosq.C43_symmetric_partial",
    "Verif.Mosq.C43_zero_partial",
    "Verif.Mosq.C43_symmetric_refuted",
    "Verif.Mosq.C43_lambda_refuted",
    "Verif.Mosq.C43_mirror"
   ],
   "note": "Continuity of current and gmd across ohmic/saturation for every LAMBDA (all conducting points), exact symmetry for different drain and source voltages, mirror theorem. Refuted: jump at threshold, current at zero vds when off or for LAMBDA times overdrive above 2."
  },
  {
   "property": "C44",
   "status": "partial",
   "theorems": [
    "Verif.Mosq.C44_gmd",
    "Verif.Mosq.C44_gmd_off",
    "Verif.Mosq.C44_gm_partial",
    "Verif.Mosq.C44_gm_refuted",
    "Verif.Mosq.C44_gmb_partial",
    "Verif.Mosq.C44_gmb_p_refuted",
    "Verif.Mosq.C44_gmb_sat_refuted",
    "Verif.Mosq.C44_gmb_off_refuted"
   ],
   "note": "gmd is the derivative everywhere on (and off without Monte Carlo); gm in the ohmic region and for LAMBDA 0; gmb in the ohmic n-type region. Refuted: gm and gmb in saturation, gmb for p-type and off."
  },
  {
   "property": "C45",
   "status": "partial",
   "theorems": [
    "Verif.Mosq.C45_mosq_sums_partial",
    "Verif.Mosq.C45_mosq_swap_refuted",
    "Verif.Mosq.C45_mosq_swap_derivative_refuted",
    "Verif.Stamp.C45_folded",
    "Verif.Stamp.C45_grounded_refuted",
    "Verif.Stamp.C45_diode_sums",
    "Verif.Stamp.C45_diode_tied",
    "Verif.Stamp.C45_current_partial",
    "Verif.Stamp.C45_current_refuted",
    "Verif.Stamp.C45_ports"
   ],
   "note": "Folded addition proved for all devices and connections not wholly grounded; diode and forward MOS sums; port branch. Refuted: exchanged MOS stamp (elementwise product), all terminals grounded, current stamp with tied terminals."
  },
  {
   "property": "C46",
   "status": "partial",
   "theorems": [
    "Verif.Ekv.C46_inverse_current",
    "Verif.Ekv.C46_inverse_charge",
    "Verif.Ekv.C46_charge_increasing",
    "Verif.Ekv.C46_voltage_increasing",
    "Verif.Ekv.C46_unique_positive",
    "Verif.Ekv.C46_unique_refuted",
    "Verif.Ekv.C46_derivative_partial",
    "Verif.Ekv.C46_derivative_refuted",
    "Verif.Ekv.C46_dvdi",
    "Verif.Ekv.C46_second_derivative",
    "Verif.Ekv.C46_swap"
   ],
   "note": "Inverse functions, monotonicity, unique positive solution, first and second derivative, exchange of drain and source. Refuted: a second zero for non-positive voltages and the slope given for currents below EPS."
  },
  {
   "property": "C47",
   "status": "partial",
   "theorems": [
    "Verif.Mosq.C47_history_refuted",
    "Verif.Mosq.C47_again_refuted",
    "Verif.Mosq.C47_nominal_partial"
   ],
   "note": "Refuted: parameters are updated cumulatively; the nominal temperature is neutral, so the first setting is right."
  },
  {
   "property": "C48",
   "status": "partial",
   "theorems": [
    "Verif.Csv.C48_roundtrip",
    "Verif.Csv.C48_select",
    "Verif.Csv.C48_missing",
    "Verif.Csv.C48_append",
    "Verif.Csv.C48_chunk_partial",
    "Verif.Csv.C48_eof_sound",
    "Verif.Csv.C48_chunks_refuted",
    "Verif.Csv.C48_eof_refuted",
    "Verif.Csv.C48_blank_refuted"
   ],
   "note": "Round trip, selection in any order and letter case, missing names, appending. Refuted: chunked reading (skip counts the header line), end-of-file flag when more samples are asked for than left, blank first line."
  },
  {
   "property": "C49",
   "status": "proved",
   "theorems": [
    "Verif.Results.C49_last",
    "Verif.Results.C49_membership",
    "Verif.Results.C49_case",
    "Verif.Results.C49_spelling_refuted"
   ],
   "note": "Under the stated condition (each key spelt in one way). Without it a second spelling is stored beside the first (C49_spelling_refuted)."
  },
  {
   "property": "C50",
   "status": "partial",
   "theorems": [
    "Verif.Results.C50_count",
    "Verif.Results.C50_distinct",
    "Verif.Results.C50_op_node",
    "Verif.Results.C50_op_current",
    "Verif.Results.C50_op_unknown",
    "Verif.Results.C50_tran",
    "Verif.Results.C50_pss",
    "Verif.Results.C50_dc_partial",
    "Verif.Results.C50_dc_refuted"
   ],
   "note": "op, tran and pss for all circuits with names distinct up to case; dc unless the swept source has the name of a node voltage (refuted otherwise, e.g. V1 and node 1); ac see C93."
  },
  {
   "property": "C51",
   "status": "partial",
   "theorems": [
    "Verif.Results.C51_sources_partial",
    "Verif.Results.C51_dissipated_partial",
    "Verif.Results.C51_vccs_refuted",
    "Verif.Results.C51_ccvs_refuted",
    "Verif.Results.C51_index_refuted",
    "Verif.Results.C51_inductor_refuted"
   ],
   "note": "Both statements for circuits without G and H sources. Refuted for G (controlling voltage read at the output nodes), H (sign), sources after an H source (index), F controlled by an inductor (exception)."
  },
  {
   "property": "C52",
   "status": "proved",
   "theorems": [
    "Verif.Results.C52_lists",
    "Verif.Results.C52_symmetric",
    "Verif.Results.C52_equal"
   ],
   "note": "Exact list, symmetry, empty for equal solutions."
  },
  {
   "property": "C53",
   "status": "partial",
   "theorems": [
    "Verif.Run.C53_order",
    "Verif.Run.C53_order_queue",
    "Verif.Run.C53_results",
    "Verif.Run.C53_queue",
    "Verif.Run.C53_queue_untouched",
    "Verif.Run.C53_enqueue",
    "Verif.Run.C53_x0",
    "Verif.Run.C53_most_recent_partial",
    "Verif.Run.C53_failed",
    "Verif.Run.C53_unavailable",
    "Verif.Run.C53_most_recent_refuted",
    "Verif.Run.C53_empty_list_refuted"
   ],
   "note": "Order, single execution, results, queue and the rule for x0 proved for any behaviour of the analyses. Refuted: with two operating points before it an analysis gets the first, not the most recent; an empty list runs the queue. An analysis of the queue that raises has been taken from it (C53_failed); a label that nothing provides is refused after any number of operating points (C53_unavailable)."
  },
  {
   "property": "C54",
   "status": "proved",
   "theorems": [
    "Verif.Pss.C54_update",
    "Verif.Pss.C54_unique",
    "Verif.Pss.C54_linear_step"
   ],
   "note": "C54_update: every update satisfies its equation; C54_unique: it is the only solution; C54_linear_step: for linear circuits one undamped step solves the discretised periodic equations"
  },
  {
   "property": "C55",
   "status": "proved",
   "theorems": [
    "Verif.Pss.C55_entries",
    "Verif.Pss.C55_periodicity",
    "Verif.Pss.C55_implicit_euler"
   ],
   "note": "C55_entries gives all entries, C55_periodicity block 0, C55_implicit_euler the other blocks"
  },
  {
   "property": "C56",
   "status": "partial",
   "theorems": [
    "Verif.Fourier.C56_power",
    "Verif.Fourier.C56_small",
    "Verif.Fourier.C56_exact",
    "Verif.Fourier.C56_fraction_refuted"
   ],
   "note": "proved for all integers; refuted for non-integers, which NP= accepts (C56_fraction_refuted)"
  },
  {
   "property": "C57",
   "status": "partial",
   "theorems": [
    "Verif.Fourier.C57_parameters_partial",
    "Verif.Fourier.C57_variable",
    "Verif.Fourier.C57_swapped_refuted",
    "Verif.Fourier.C57_interval_refuted",
    "Verif.Fourier.C57_from_to",
    "Verif.Fourier.C57_synonyms",
    "Verif.Fourier.C57_alfa_refuted"
   ],
   "note": "every parameter but start and stop reaches the parameter it names; start and stop are exchanged in every accepted line (C57_swapped_refuted); alfa= of the manual is refused with KeyError"
  },
  {
   "property": "C58",
   "status": "partial",
   "theorems": [
    "Verif.Check.C58_touched_partial",
    "Verif.Check.C58_path_accepted_partial",
    "Verif.Check.C58_warned_partial",
    "Verif.Check.C58_reduced",
    "Verif.Check.C58_floating_refuted",
    "Verif.Check.C58_cancel_refuted"
   ],
   "note": "the check looks at each node separately: proved that the node rows of a circuit whose check passes all have a DC element, that paths to ground imply acceptance under no cancellation, and refuted in both directions (floating island accepted, cancelling conductances warned about); the outcome is a warning only"
  },
  {
   "property": "C59",
   "status": "partial",
   "theorems": [
    "Verif.Check.C59_accepts_iff_partial",
    "Verif.Check.C59_reason",
    "Verif.Check.C59_floating_refuted"
   ],
   "note": "exact acceptance condition proved; it does not contain paths to ground (C59_floating_refuted)"
  },
  {
   "property": "C60",
   "status": "partial",
   "theorems": [
    "Verif.Parse.C60_words",
    "Verif.Parse.C60_roundtrip_partial",
    "Verif.Parse.C60_roundtrip_refuted"
   ],
   "note": "Proved for R, C/L without initial condition, K, E, G, F, H and D (not off), for any number format that reads back exactly. Refuted for V and I with a DC value (value= is refused), S (surplus word), M (type= refused), C/L with initial condition (lost), D off. Rounding of %g is outside the model."
  },
  {
   "property": "C61",
   "status": "partial",
   "theorems": [
    "Verif.Symbolic.C61_symbolic_is_numeric_partial",
    "Verif.Symbolic.C61_dc",
    "Verif.Symbolic.C61_numeric_coupling_refuted",
    "Verif.Symbolic.C61_numeric_vccs_refuted",
    "Verif.Symbolic.C61_numeric_inductor_refuted"
   ],
   "note": "Proved for linear circuits with symbolic elements; refuted for non-symbolic couplings, VCCSs and inductors."
  },
  {
   "property": "C62",
   "status": "partial",
   "theorems": [
    "Verif.Pz.C62_det",
    "Verif.Pz.C62_poles_partial",
    "Verif.Pz.C62_mutual_inductance_refuted"
   ],
   "note": "Proved for circuits without mutual inductances (any shift, exact arithmetic, cmin = 0); refuted with mutual inductances, which the time-constant matrix ignores."
  },
  {
   "property": "C63",
   "status": "partial",
   "theorems": [
    "Verif.Arr.C63_expand",
    "Verif.Arr.C63_set",
    "Verif.Arr.C63_set_outside",
    "Verif.Arr.C63_remove_row_and_col",
    "Verif.Arr.C63_remove_one",
    "Verif.Arr.C63_remove_row",
    "Verif.Arr.C63_roundtrip",
    "Verif.Arr.C63_remove_row_none_refuted",
    "Verif.Arr.C63_remove_none_refuted",
    "Verif.Arr.C63_negative_refuted"
   ],
   "note": "expand/set/remove proved; refuted for the documented None arguments and for negative indices"
  },
  {
   "property": "C64",
   "status": "partial",
   "theorems": [
    "Verif.Build.C64_failed_add_partial",
    "Verif.Build.C64_capacitor",
    "Verif.Build.C64_failure_iff",
    "Verif.Build.C64_failed_add_refuted"
   ],
   "note": "Refuted for zero resistors and unknown models (new nodes stay behind). Proved: which calls fail, that elements, models and old node numbers survive, and that nothing changes if the nodes were known; capacitors are fully atomic."
  },
  {
   "property": "C65",
   "status": "proved",
   "theorems": [
    "Verif.Mna.C65_positive_definite",
    "Verif.Mna.C65_unique_operating_point"
   ],
   "note": "Resistors and current sources; any ordered field; any non-negative Gmin."
  },
  {
   "property": "C66",
   "status": "proved",
   "theorems": [
    "Verif.Mna.C66_quadratic_form",
    "Verif.Mna.C66_symmetric",
    "Verif.Mna.C66_passive"
   ],
   "note": "Resistors and current sources; any ordered field."
  },
  {
   "property": "C67",
   "status": "partial",
   "theorems": [
    "Verif.Mna.C67_order_renumbers_branches",
    "Verif.Mna.C67_same_system",
    "Verif.Mna.C67_ccvs_order_refuted"
   ],
   "note": "Equations invariant under permutations whenever both orders assemble; refuted: a CCVS before its controlling branch raises IndexError."
  },
  {
   "property": "C68",
   "status": "proved",
   "theorems": [
    "Verif.Mna.C68_superposition",
    "Verif.Mna.C68_operating_point"
   ],
   "note": "All circuits the assembly accepts; operating point under the hypothesis that it is unique."
  },
  {
   "property": "C69",
   "status": "proved",
   "theorems": [
    "Verif.Small.C69_dc_only",
    "Verif.Small.C69_no_time",
    "Verif.Small.C69_waveform",
    "Verif.Small.C69_rest"
   ],
   "note": "Full case distinction of V(t)/I(t)."
  },
  {
   "property": "C70",
   "status": "proved",
   "theorems": [
    "Verif.Mna.C70_node_equations",
    "Verif.Mna.C70_branch_equations"
   ],
   "note": "Node rows for all circuits; branch rows without CCVS/overlapping VCVS (see C07)."
  },
  {
   "property": "C71",
   "status": "partial",
   "theorems": [
    "Verif.Small.C71_spellings_partial",
    "Verif.Small.C71_case_refuted"
   ],
   "note": "Exact spellings proved for lower case; case-insensitivity refuted for direct calls (the parser lower-cases its lines first)."
  },
  {
   "property": "C72",
   "status": "proved",
   "theorems": [
    "Verif.Small.C72_rejoin",
    "Verif.Small.C72_split",
    "Verif.Small.C72_other",
    "Verif.Small.C72_number"
   ],
   "note": "Exactly one '=': split and rejoin; otherwise the whole string is returned with an empty value."
  },
  {
   "property": "C73",
   "status": "proved",
   "theorems": [
    "Verif.Small.C73_inverse",
    "Verif.Small.C73_scale"
   ],
   "note": "Proved in exact arithmetic."
  },
  {
   "property": "C74",
   "status": "proved",
   "theorems": [
    "Verif.Small.C74_in_range",
    "Verif.Small.C74_hidden",
    "Verif.Small.C74_displayed",
    "Verif.Small.C74_cycles"
   ],
   "note": "All histories of step/hide/display/reset; cyclic advance after every increments_for_step steps."
  },
  {
   "property": "C75",
   "status": "partial",
   "theorems": [
    "Verif.Small.C75_reciprocal_partial",
    "Verif.Small.C75_read_back",
    "Verif.Small.C75_zero_raises",
    "Verif.Small.C75_after_zero_refuted"
   ],
   "note": "Invariant proved for histories without zero; zero raises, but is stored first, which breaks the invariant (refuted)."
  },
  {
   "property": "C76",
   "status": "proved",
   "theorems": [
    "Verif.Build.C76_nodes_known",
    "Verif.Build.C76_element_connected",
    "Verif.Build.C76_polarity",
    "Verif.Build.C76_rows_valid",
    "Verif.Build.C76_needs_reference"
   ],
   "note": "Invariant over arbitrary histories of add_* calls; feeds the row-validity hypothesis of the assembly theorems."
  },
  {
   "property": "C77",
   "status": "partial",
   "theorems": [
    "Verif.Conv.C77_by_node_empty_partial",
    "Verif.Conv.C77_debug_stricter_partial",
    "Verif.Conv.C77_by_node_refuted"
   ],
   "note": "Refuted: debug is not handed on, the list is always empty. Partial: relation of the two tests."
  },
  {
   "property": "C78",
   "status": "proved",
   "theorems": [
    "Verif.Newton.C78_report_exact",
    "Verif.Newton.C78_converged_within_tolerance",
    "Verif.Newton.C78_stays_at_solution",
    "Verif.Newton.C78_affine",
    "Verif.Newton.C78_no_iterations"
   ],
   "note": "J and T(x) are arbitrary functions of the iterate."
  },
  {
   "property": "C79",
   "status": "partial",
   "theorems": [
    "Verif.Newton.C79_damped_linear_refuted"
   ],
   "note": "Refuted: linear circuits are declared converged after a damped first step."
  },
  {
   "property": "C80",
   "status": "partial",
   "theorems": [
    "Verif.Sweep.C80_points_genuine",
    "Verif.Sweep.C80_skip_partial",
    "Verif.Sweep.C80_refuted"
   ],
   "note": "Refuted without skipping (a late failure returns None) and when all points are skipped (UnboundLocalError); the converse parts are proved."
  },
  {
   "property": "C81",
   "status": "partial",
   "theorems": [
    "Verif.DF.C81_trap_estimate",
    "Verif.DF.C81_gear_estimate",
    "Verif.DF.C81_euler_refuted"
   ],
   "note": "Proved for the trapezoidal rule and for Gear of every order; refuted for implicit Euler, whose coefficient is 0.5*h instead of 0.5*h^2."
  },
  {
   "property": "C82",
   "status": "proved",
   "theorems": [
    "Verif.Small.C82_duplicates"
   ],
   "note": "Equivalence for all element lists."
  },
  {
   "property": "C83",
   "status": "partial",
   "theorems": [
    "Verif.Directive.C83_documented_partial",
    "Verif.Directive.C83_refused_refuted",
    "Verif.Directive.C83_defaults_refuted",
    "Verif.Directive.C83_defaults_partial",
    "Verif.Directive.C83_order_partial",
    "Verif.Directive.C83_more_defaults_partial",
    "Verif.Directive.C83_pz_order_refuted",
    "Verif.Directive.C83_required_partial"
   ],
   "note": "Refuted for dc src=, ac sweep_type=, pz source=/zeros=, sin phase=, pss points (mandatory), sffm fc (optional, then None), am td (no default), the ac sweep type, symbolic ac defaults and the documented order of the pz parameters; order and defaults of the other documented parameters proved."
  },
  {
   "property": "C84",
   "status": "proved",
   "theorems": [
    "Verif.Netlist.C84_groups",
    "Verif.Netlist.C84_refused"
   ],
   "note": "Single file; the chain of included files is not modelled (their lines go through the same loop). Existence of included files is assumed."
  },
  {
   "property": "C85",
   "status": "partial",
   "theorems": [
    "Verif.Netlist.C85_numbers_partial",
    "Verif.Netlist.C85_numbers_refuted"
   ],
   "note": "True only without blank and continuation lines; join_lines does not count the lines it consumes."
  },
  {
   "property": "C86",
   "status": "partial",
   "theorems": [
    "Verif.Parse.C86_comment_partial",
    "Verif.Parse.C86_comment_refuted"
   ],
   "note": "Proved for R, E, G, F, H, S, D, M, C without ic, V and I without time function. Refuted for the others by concrete lines."
  },
  {
   "property": "C87",
   "status": "partial",
   "theorems": [
    "Verif.Parse.C87_accepted_partial",
    "Verif.Parse.C87_parameters_partial",
    "Verif.Parse.C87_accepted_refuted",
    "Verif.Parse.C87_off_refuted"
   ],
   "note": "Proved for the listed forms with arbitrary names and values. Refuted for OFF, io/ia/i1..., positional td of sffm and short time functions of current sources. Not covered: general statement for all time functions (binding of their parameters is C36/C83)."
  },
  {
   "property": "C88",
   "status": "partial",
   "theorems": [
    "Verif.Subckt.C88_references_partial",
    "Verif.Subckt.C88_references_refuted",
    "Verif.Subckt.C88_caller_refuted"
   ],
   "note": "Refuted: references are copied unchanged while ids are renamed. The partial theorem states what the code does."
  },
  {
   "property": "C89",
   "status": "partial",
   "theorems": [
    "Verif.Switch.C89_no_hysteresis",
    "Verif.Switch.C89_saturated_partial",
    "Verif.Switch.C89_exact_refuted",
    "Verif.Switch.C89_von_voff",
    "Verif.Switch.C89_defaults",
    "Verif.Switch.C89_negative_refuted"
   ],
   "note": "Proved without hysteresis and, for saturating tanh, outside a margin around the thresholds; refuted for exact arithmetic (no switching at all) and for VON/VOFF of negative sum."
  },
  {
   "property": "C90",
   "status": "partial",
   "theorems": [
    "Verif.Diode.C90_history_partial",
    "Verif.Diode.C90_same",
    "Verif.Diode.C90_rs_refuted",
    "Verif.Diode.C90_vt_refuted"
   ],
   "note": "Saturation current and breakdown voltage depend only on the last temperature; the series resistance accumulates and VT is never updated (refuted)."
  },
  {
   "property": "C91",
   "status": "partial",
   "theorems": [
    "Verif.Ekv.C91_mosq_type",
    "Verif.Ekv.C91_ekv_type_refuted",
    "Verif.Ekv.C91_mirror_partial",
    "Verif.Ekv.C91_mirror_refuted"
   ],
   "note": "Type check of mosq and explicit mirrored parameters; refuted for defaults, VFB, and EKV type letters."
  },
  {
   "property": "C92",
   "status": "partial",
   "theorems": [
    "Verif.Ekv.C92_mirror_partial",
    "Verif.Ekv.C92_gmg_refuted"
   ],
   "note": "Current, gmd, gms are mirrored; gmg uses the slope factor of the gate voltage with the wrong sign (refuted)."
  },
  {
   "property": "C93",
   "status": "proved",
   "theorems": [
    "Verif.Results.C93_ac"
   ],
   "note": "Proved for phases in radians (the default); refuted for degrees."
  },
  {
   "property": "C94",
   "status": "partial",
   "theorems": [
    "Verif.Results.C94_found_partial",
    "Verif.Results.C94_no_zeros_refuted",
    "Verif.Results.C94_missing"
   ],
   "note": "Proved when there is at least one zero; refuted otherwise."
  },
  {
   "property": "C95",
   "status": "partial",
   "theorems": [
    "Verif.Run.C95_netlist",
    "Verif.Run.C95_refused_partial",
    "Verif.Run.C95_other_circuit_refuted"
   ],
   "note": "Order and the rule for x0 proved. Refuted: a netlist without .op that asks for one gets that of the netlist simulated before in the session."
  },
  {
   "property": "C96",
   "status": "partial",
   "theorems": [
    "Verif.Run.C96_get_op_x0_partial",
    "Verif.Run.C96_documented_refuted"
   ],
   "note": "The solution is the only entry of the dictionary returned; the documented value is never returned."
  },
  {
   "property": "C97",
   "status": "partial",
   "theorems": [
    "Verif.Call.C97_directives",
    "Verif.Call.C97_new",
    "Verif.Call.C97_temp_refuted",
    "Verif.Call.C97_temp_line_refuted"
   ],
   "note": "Proved for all accepted directives and all constructors. Refuted: the description made by parse_temp_directive is never accepted, and .temp lines are refused by the parser."
  },
  {
   "property": "C98",
   "status": "partial",
   "theorems": [
    "Verif.Pss.C98_repeats_partial",
    "Verif.Pss.C98_period_refuted"
   ],
   "note": "fixed points repeat after `points` steps, which is period + step; C98_period_refuted gives a circuit whose converged solution differs at t = 0 and t = period"
  },
  {
   "property": "C99",
   "status": "partial",
   "theorems": [
    "Verif.Pss.C99_constants",
    "Verif.Pss.C99_residual_partial",
    "Verif.Pss.C99_dense_refuted",
    "Verif.Pss.C99_dense_entries_refuted",
    "Verif.Pss.C99_dense_value_refuted"
   ],
   "note": "correct for more than 400 unknowns; for up to 400 the product is the elementwise one and the residual is a square array (C99_dense_refuted)"
  },
  {
   "property": "C100",
   "status": "partial",
   "theorems": [
    "Verif.Fourier.C100_default_refuted",
    "Verif.Fourier.C100_given_partial"
   ],
   "note": "every accepted line without np= gives 2 points (C100_default_refuted)"
  },
  {
   "property": "C101",
   "status": "partial",
   "theorems": [
    "Verif.Fourier.C101_frequencies_partial",
    "Verif.Fourier.C101_harmonics_refuted",
    "Verif.Fourier.C101_number_refuted",
    "Verif.Fourier.C101_periods"
   ],
   "note": "exact frequencies proved; none except DC is a harmonic, and their number is the number of periods"
  },
  {
   "property": "C102",
   "status": "partial",
   "theorems": [
    "Verif.Fourier.C102_fits_partial",
    "Verif.Fourier.C102_error",
    "Verif.Fourier.C102_half_partial",
    "Verif.Fourier.C102_half_refuted",
    "Verif.Fourier.C102_most_refuted"
   ],
   "note": "whole number of periods, at least one, not longer than the simulation, at most half when three periods are available; refuted for two periods (all used) and for maximality"
  },
  {
   "property": "C103",
   "status": "proved",
   "theorems": [
    "Verif.Fourier.C103_frequencies",
    "Verif.Fourier.C103_values"
   ],
   "note": "frequencies and bins for any number of periods"
  },
  {
   "property": "C104",
   "status": "proved",
   "theorems": [
    "Verif.Fourier.C104_kept",
    "Verif.Fourier.C104_error"
   ],
   "note": "exact characterisation of what is kept and of the error"
  },
  {
   "property": "C105",
   "status": "partial",
   "theorems": [
    "Verif.Fourier.C105_fourier",
    "Verif.Fourier.C105_spicefft",
    "Verif.Fourier.C105_one_period_refuted"
   ],
   "note": "proved for both functions; with a single period spicefft has no fundamental and raises IndexError (C105_one_period_refuted)"
  },
  {
   "property": "C106",
   "status": "partial",
   "theorems": [
    "Verif.Fourier.C106_printed_partial",
    "Verif.Fourier.C106_dc_refuted"
   ],
   "note": "printed value is the DC value times the number of samples"
  },
  {
   "property": "C107",
   "status": "proved",
   "theorems": [
    "Verif.Fourier.C107_frequencies",
    "Verif.Fourier.C107_values"
   ],
   "note": "closed form of the axis and of the values"
  },
  {
   "property": "C108",
   "status": "partial",
   "theorems": [
    "Verif.Plot.C108_pair",
    "Verif.Plot.C108_single",
    "Verif.Plot.C108_ground_refuted",
    "Verif.Plot.C108_order_refuted"
   ],
   "note": "proved for all names except the reference node as second node (C108_ground_refuted); the order of the labels is not kept (C108_order_refuted)"
  },
  {
   "property": "C109",
   "status": "partial",
   "theorems": [
    "Verif.Plot.C109_curve_partial",
    "Verif.Plot.C109_ac_refuted"
   ],
   "note": "correct except for AC differences, where the difference of magnitudes is drawn (C109_ac_refuted)"
  },
  {
   "property": "C110",
   "status": "partial",
   "theorems": [
    "Verif.Symbolic.C110_unknowns_are_free_partial",
    "Verif.Symbolic.C110_shared_symbol_refuted"
   ],
   "note": "Refuted: node 1 and source V1 share a symbol. Proved when no node name makes such a collision."
  },
  {
   "property": "C111",
   "status": "partial",
   "theorems": [
    "Verif.Symbolic.C111_sources_refuted",
    "Verif.Symbolic.C111_vccs_refuted",
    "Verif.Symbolic.C111_coupling_refuted",
    "Verif.Symbolic.C111_resistor_gs_refuted",
    "Verif.Symbolic.C111_substitution_applies_partial"
   ],
   "note": "Refuted for sources, VCCSs, couplings and conductance symbols; proved for the remaining elements."
  },
  {
   "property": "C112",
   "status": "proved",
   "theorems": [
    "Verif.Symbolic.C112_gain_is_ac_response"
   ],
   "note": "Derivative of the solution with respect to the source symbol equals the AC unit response."
  },
  {
   "property": "C113",
   "status": "partial",
   "theorems": [
    "Verif.Pz.C113_output",
    "Verif.Pz.C113_zeros_partial",
    "Verif.Pz.C113_mutual_refuted"
   ],
   "note": "Output times det(1 - sigma TCM) equals ROUTIN det(1 - sigma ZTCM); zeros iff eigenvalues of ZTCM, without mutual inductances and with ROUTIN non-zero. With mutual inductances the claim is false: a circuit with two coupled inductors reports a zero where the output does not vanish and misses one where it does."
  },
  {
   "property": "C114",
   "status": "partial",
   "theorems": [
    "Verif.Pz.C114_no_poles_refuted",
    "Verif.Pz.C114_error_refuted"
   ],
   "note": "Refuted: always AttributeError."
  },
  {
   "property": "C115",
   "status": "partial",
   "theorems": [
    "Verif.Pz.C115_poles_partial",
    "Verif.Pz.C115_done",
    "Verif.Pz.C115_shifts",
    "Verif.Pz.C115_degenerate_refuted",
    "Verif.Pz.C115_zero_shift",
    "Verif.Pz.C115_capacitor_refuted",
    "Verif.Pz.C115_output_refuted",
    "Verif.Pz.C115_lowpass_refuted"
   ],
   "note": "A poles-only run reports iff deg det(M + sD) is the number of reactive elements, independently of the shift; refuted for degenerate circuits, for outputs without reactive influence at shift 0 and, in exact arithmetic, for a low-pass filter."
  },
  {
   "property": "C116",
   "status": "partial",
   "theorems": [
    "Verif.Guess.C116_equations_kept",
    "Verif.Guess.C116_shape",
    "Verif.Guess.C116_placement_partial",
    "Verif.Guess.C116_all_used",
    "Verif.Guess.C116_satisfied",
    "Verif.Guess.C116_guess_partial",
    "Verif.Guess.C116_placement_refuted"
   ],
   "note": "proved: shape, rows kept (none equal or opposite to another kept one, each suggested one represented), placement when all columns are used or the used ones are 0..m without one, that a placed guess satisfies the equations and gives every suggested pair its voltage. Refuted in general: zeros are re-inserted in descending order of the columns, so with two gaps values move to other nodes."
  },
  {
   "property": "C117",
   "status": "partial",
   "theorems": [
    "Verif.Guess.C117_ports_partial",
    "Verif.Guess.C117_count",
    "Verif.Guess.C117_shorted_refuted",
    "Verif.Guess.C117_diode_ic_refuted",
    "Verif.Guess.C117_none"
   ],
   "note": "proved when no port of the element is shorted, and which ports give equations. Refuted: the index of the guess is not advanced for a shorted port (MOS with drain tied to source); a diode with an initial condition has a plain number as dc_guess and get_dc_guess raises TypeError."
  },
  {
   "property": "C118",
   "status": "partial",
   "theorems": [
    "Verif.Cli.C118_numbers",
    "Verif.Cli.C118_accepted",
    "Verif.Cli.C118_defaults",
    "Verif.Cli.C118_dc_guess_refuted",
    "Verif.Cli.C118_toInt",
    "Verif.Cli.C118_toInt_cut",
    "Verif.Op.C118_start"
   ],
   "note": "numeric options, method and step control proved for all inputs. Refuted for --dc-guess: the string is stored and only its truth value is used, so none means guess."
  },
  {
   "property": "C119",
   "status": "partial",
   "theorems": [
    "Verif.Op.C119_reported_partial",
    "Verif.Op.C119_tolerance_partial",
    "Verif.Op.C119_systems",
    "Verif.Op.C119_linear",
    "Verif.Op.C119_linear_start",
    "Verif.Op.C119_none_iff",
    "Verif.Op.C119_singular",
    "Verif.Op.C119_gmin_refuted"
   ],
   "note": "proved: linear circuits with a regular matrix, exact condition for None, any circuit with the homotopies switched off, for any circuit that every system tried is the circuit with one of the listed Gmin values and source factors. Refuted with the default options: for a circuit that is singular without Gmin the point reported with gmin = 0 is the solution with 1e-10 S at every node, also when no solution exists."
  },
  {
   "property": "C121",
   "status": "partial",
   "theorems": [
    "Verif.Tran.C121_step",
    "Verif.Tran.C121_points_partial",
    "Verif.Tran.C121_regular_step",
    "Verif.Tran.C121_default_refuted"
   ],
   "note": "Proved for every point with Gmin and source stepping disabled, and with default options for every regular step; refuted with default options: a singular step is solved by Gmin stepping (1e-10 S) and recorded."
  },
  {
   "property": "C122",
   "status": "partial",
   "theorems": [
    "Verif.Tran.C122_contents",
    "Verif.Tran.C122_formula_available",
    "Verif.Tran.C122_length",
    "Verif.Tran.C122_needed",
    "Verif.Tran.C122_fixed_step_refuted"
   ],
   "note": "Buffer contents, number of points needed and availability of formula and prediction proved with step control for all methods; without step control implicit Euler and Gear stop with a TypeError (refuted)."
  },
  {
   "property": "C123",
   "status": "partial",
   "theorems": [
    "Verif.Tran.C123_kept_partial",
    "Verif.Tran.C123_currents_refuted",
    "Verif.Tran.C123_order"
   ],
   "note": "Exact condition proved; equals the claim for node voltages, refuted for currents (vea instead of iea). The order used for the step is the one for which the formula of the method is exact."
  },
  {
   "property": "C124",
   "status": "proved",
   "theorems": [
    "Verif.Rlc.C124_rlc",
    "Verif.Rlc.C124_circuit",
    "Verif.Rlc.C124_coupled",
    "Verif.Tran.C124_energy"
   ],
   "note": "C124_energy: all passive linear systems, implicit Euler and trapezoidal rule, any enabled methods of dc_solve (all points of one analysis turn out to have the same conductance at every node). C124_circuit derives passivity from the assembly for every circuit of resistors, capacitors and inductors, coupled or not, whose magnetic energy is never negative; C124_rlc and C124_coupled are the cases without couplings and with couplings adding up to at most one per inductor."
  },
  {
   "property": "C125",
   "status": "partial",
   "theorems": [
    "Verif.Transient.C125_limit_partial",
    "Verif.Transient.C125_last_point_refuted"
   ],
   "note": "Number of points bounded by the limit, halting only at the limit; refuted for an analysis that needs exactly as many points as the limit."
  },
  {
   "property": "C120",
   "status": "partial",
   "theorems": [
    "Verif.Ac.C120_linear",
    "Verif.Ac.C120_log",
    "Verif.Ac.C120_default_refuted",
    "Verif.Ac.C120_points"
   ],
   "note": "Spec matrix stated in the properties file; sweeps with fewer than two points and single frequencies included."
  },
  {
   "property": "C126",
   "status": "proved",
   "theorems": [
    "Verif.Iter.C126_base",
    "Verif.Iter.C126_prefix",
    "Verif.Iter.C126_pz",
    "Verif.Iter.C126_symbolic"
   ],
   "note": "For symbolic sets the keys must differ in more than letter case (the names made by symbolic.py are upper case). Pole-zero sets without zeros have no data at all (C94)."
  },
  {
   "property": "C127",
   "status": "partial",
   "theorems": [
    "Verif.Iter.C127_exhausted_refuted",
    "Verif.Iter.C127_nested_refuted",
    "Verif.Iter.C127_nested_pz_refuted",
    "Verif.Iter.C127_nested_empty",
    "Verif.Iter.C127_restart_partial"
   ],
   "note": "Refuted for nested loops over every non-empty set (for pole-zero and symbolic sets: two or more items) and for the exhausted iterator; consecutive loops, also after an interrupted one, are proved."
  },
  {
   "property": "C128",
   "status": "partial",
   "theorems": [
    "Verif.Iter.C128_found_partial",
    "Verif.Iter.C128_transfer_functions_refuted",
    "Verif.Iter.C128_list"
   ],
   "note": "Proved for the solution of a circuit; refuted for sets of transfer functions, whose keys are strings."
  },
  {
   "property": "C129",
   "status": "partial",
   "theorems": [
    "Verif.Iter.C129_values_partial",
    "Verif.Iter.C129_single_refuted"
   ],
   "note": "Refuted for circuits with one unknown, where a number is returned; proved for all others."
  },
  {
   "property": "C130",
   "status": "partial",
   "theorems": [
    "Verif.Files.C130_own_file_partial",
    "Verif.Files.C130_same_type_refuted",
    "Verif.Files.C130_default_name"
   ],
   "note": "Contents are abstract; temporary names are taken to be new. Refuted for two analyses of the same type with the same base name."
  },
  {
   "property": "C131",
   "status": "partial",
   "theorems": [
    "Verif.Files.C131_plots",
    "Verif.Files.C131_fft_partial",
    "Verif.Files.C131_overwritten_refuted"
   ],
   "note": "Plots always get different names. `.FFT` tables written to a file replace each other."
  },
  {
   "property": "C132",
   "status": "partial",
   "theorems": [
    "Verif.Files.C132_stdout_refuted",
    "Verif.Files.C132_files_partial",
    "Verif.Files.C132_missing_refuted",
    "Verif.Files.C132_plots_partial"
   ],
   "note": "Refuted for standard output, proved for files."
  },
  {
   "property": "C133",
   "status": "partial",
   "theorems": [
    "Verif.Files.C133_missing_refuted",
    "Verif.Files.C133_known_partial"
   ],
   "note": "Refuted when a variable is missing, proved when all exist."
  },
  {
   "property": "C134",
   "status": "proved",
   "theorems": [
    "Verif.Consts.C134_thermal",
    "Verif.Consts.C134_gap",
    "Verif.Consts.C134_density",
    "Verif.Consts.C134_silicon"
   ],
   "note": "Real arithmetic; floats not modelled."
  },
  {
   "property": "C135",
   "status": "proved",
   "theorems": [
    "Verif.Tunnel.C135_conductance",
    "Verif.Tunnel.C135_odd"
   ],
   "note": "Over the reals, constants positive; memoize is C23."
  },
  {
   "property": "C136",
   "status": "partial",
   "theorems": [
    "Verif.Tunnel.C136_half_partial",
    "Verif.Tunnel.C136_barrier_refuted"
   ],
   "note": "Refuted: endiff halves the barrier, so the current is Simmons' for PHI_B/2; at V = PHI_B it has the wrong sign."
  },
  {
   "property": "C137",
   "status": "partial",
   "theorems": [
    "Verif.Tunnel.C137_passive_partial",
    "Verif.Tunnel.C137_negative_refuted"
   ],
   "note": "Refuted: every junction has a negative conductance at some voltage below the barrier. Partial: current has the sign of the voltage while a*sqrt((PHI_B-V)q/2) is at least 2."
  },
  {
   "property": "C138",
   "status": "partial",
   "theorems": [
    "Verif.Tunnel.C138_range_partial",
    "Verif.Tunnel.C138_beyond_refuted"
   ],
   "note": "Refuted beyond PHI_B (ValueError) and at PHI_B (ZeroDivisionError); proved within."
  },
  {
   "property": "C139",
   "status": "proved",
   "theorems": [
    "Verif.Recip.C139_ac",
    "Verif.Recip.C139_dc",
    "Verif.Recip.C139_transfer_impedance",
    "Verif.Recip.C139_transfer_admittance",
    "Verif.Recip.C139_ac_results"
   ],
   "note": "Operating points and AC analysis of reciprocal two-poles, with couplings and Gmin."
  },
  {
   "property": "C140",
   "status": "proved",
   "theorems": [
    "Verif.Stable.C140_power",
    "Verif.Stable.C140_ac_results"
   ],
   "note": "Complex power balance from the assembled AC system for any solution."
  },
  {
   "property": "C141",
   "status": "proved",
   "theorems": [
    "Verif.Stable.C141_left_half_plane",
    "Verif.Stable.C141_rc_real",
    "Verif.Stable.C141_rl_real",
    "Verif.Stable.C141_lc_imaginary"
   ],
   "note": "Natural frequencies as solutions of (M + sD) x = 0 over the complex numbers, with couplings below unity."
  },
  {
   "property": "C142",
   "status": "partial",
   "theorems": [
    "Verif.Stable.C142_poles_partial",
    "Verif.Stable.C142_mutual_inductance_refuted"
   ],
   "note": "Proved for circuits without mutual inductances. Refuted with them: the time-constant matrix leaves them out, and with a shift a pole of a passive circuit is reported in the right half-plane."
  },
  {
   "property": "C143",
   "status": "proved",
   "theorems": [
    "Verif.Bound.C143_between",
    "Verif.Bound.C143_nonneg"
   ],
   "note": "Circuits whose matrix stays singular even with Gmin report no point."
  },
  {
   "property": "C144",
   "status": "partial",
   "theorems": [
    "Verif.Steady.C144_stays_partial",
    "Verif.Steady.C144_goes_on_partial",
    "Verif.Steady.C144_operating_point_refuted"
   ],
   "note": "Proved for the rest point of the circuit loaded with Gmin and regular step matrices; the reported operating point (without Gmin) is not kept, shown by a witness."
  },
  {
   "property": "C145",
   "status": "proved",
   "theorems": [
    "Verif.Devices.C145_nodes",
    "Verif.Devices.C145_gmin",
    "Verif.Devices.C145_strict",
    "Verif.Devices.C145_diodes",
    "Verif.Devices.C145_falling"
   ],
   "note": "C145_falling shows that the growth of the currents is needed. A solution has to satisfy the equations exactly; existence is not claimed."
  },
  {
   "property": "C146",
   "status": "partial",
   "theorems": [
    "Verif.Devices.C146_regular",
    "Verif.Devices.C146_gmin",
    "Verif.Devices.C146_newton",
    "Verif.Devices.C146_diodes_partial",
    "Verif.Devices.C146_breakdown_refuted"
   ],
   "note": "Proved for all devices with conductances that are not negative, so for diodes without breakdown (series resistance allowed); refuted for diodes with a breakdown voltage (C146_breakdown_refuted)."
  },
  {
   "property": "C147",
   "status": "partial",
   "theorems": [
    "Verif.OpInfo.C147_rows",
    "Verif.OpInfo.C147_values",
    "Verif.OpInfo.C147_balance",
    "Verif.OpInfo.C147_controlled_refuted",
    "Verif.OpInfo.C147_letter_refuted"
   ],
   "note": "Rows, values and balance proved for circuits without controlled sources whose names have the letter of their kind; refuted otherwise. MOS transistors and switches not modelled here."
  },
  {
   "property": "C148",
   "status": "partial",
   "theorems": [
    "Verif.Build.C148_found",
    "Verif.Build.C148_missing",
    "Verif.Build.C148_added",
    "Verif.Build.C148_unique",
    "Verif.Build.C148_removed",
    "Verif.Build.C148_not_removed",
    "Verif.Build.C148_after",
    "Verif.Build.C148_case_refuted"
   ],
   "note": "Look-up and removal fully characterised. Refuted: has_duplicate_elem distinguishes letter case, the look-up does not."
  },
  {
   "property": "C149",
   "status": "partial",
   "theorems": [
    "Verif.Signal.C149_derivative",
    "Verif.Signal.C149_limit",
    "Verif.Signal.C149_gmin_refuted"
   ],
   "note": "The derivative of the operating point with respect to the source amplitude solves the AC equations at frequency zero, and the AC response tends to it (C149_derivative, C149_limit, with the same Gmin in both analyses). C149_gmin_refuted: op_analysis reports the point without Gmin while ac_analysis keeps it in its matrix."
  },
  {
   "property": "C150",
   "status": "partial",
   "theorems": [
    "Verif.Rest.C150_between",
    "Verif.Rest.C150_rest",
    "Verif.Rest.C150_sources",
    "Verif.Rest.C150_diode_refuted"
   ],
   "note": "C150_between, C150_rest and C150_sources hold for every device whose current has the sign of its voltage. C150_diode_refuted: the coded diode is not such a device, its current at 0 V is IS; a diode and a resistor without a source have an operating point at which the resistor takes power."
  },
  {
   "property": "C151",
   "status": "partial",
   "theorems": [
    "Verif.Mosq.C151_mosq_parallel",
    "Verif.Ekv.C151_ekv_current_partial",
    "Verif.Ekv.C151_ekv_conductance_refuted",
    "Verif.Ekv.C151_ekv_derivative_refuted",
    "Verif.Diode.C151_diode"
   ],
   "note": "Holds for the square-law transistor and for the diode without series resistance, and for the EKV current (C151_mosq_parallel, C151_diode, C151_ekv_current_partial). C151_ekv_conductance_refuted: the EKV conductances do not contain M, so they are the derivatives of the current for one value of M at most (C151_ekv_derivative_refuted). With series resistance see C42_area_refuted."
  },
  {
   "property": "C152",
   "status": "partial",
   "theorems": [
    "Verif.Mosq.C152_mosq_partial",
    "Verif.Mosq.C152_mosq_off_refuted",
    "Verif.Ekv.C152_ekv"
   ],
   "note": "Holds for the EKV transistor at all voltages (C152_ekv, for every non-decreasing result of get_ismall, Exact.monotone gives it for the exact one) and for the conducting square-law transistor (C152_mosq_partial). C152_mosq_off_refuted: below threshold the square-law current follows vgs+vds and delivers power for negative gate voltages."
  },
  {
   "property": "C153",
   "status": "proved",
   "theorems": [
    "Verif.Models.C153_add",
    "Verif.Models.C153_unnamed",
    "Verif.Models.C153_failed",
    "Verif.Models.C153_reuse",
    "Verif.Models.C153_remove",
    "Verif.Models.C153_netlist",
    "Verif.Models.C153_labels",
    "Verif.Models.C153_short",
    "Verif.Models.C153_misspelled_refuted",
    "Verif.Models.C153_glued"
   ],
   "note": "Proved for all constructors; C153_glued records that parentheses are deleted, not separators: `dm(is=1)` declares `dmis=1`. C153_misspelled_refuted refutes a stronger reading, that a faulty line is reported as NetlistParseError: a misspelled parameter is a TypeError. Diode and switch models need a name, transistor models have one by default (C153_unnamed)."
  },
  {
   "property": "C154",
   "status": "partial",
   "theorems": [
    "Verif.Models.C154_read_back_partial",
    "Verif.Models.C154_temperature_refuted",
    "Verif.Models.C154_hidden_refuted",
    "Verif.Models.C154_default_refuted",
    "Verif.Models.C154_defaults",
    "Verif.Models.C154_given",
    "Verif.Models.C154_default"
   ],
   "note": "Refuted for TEMP (printed in Kelvin, read in Celsius; default not converted), NBV and IKF (not printed). All other parameters are proved to read back."
  },
  {
   "property": "C155",
   "status": "partial",
   "theorems": [
    "Verif.Mosq.C155_region_partial",
    "Verif.Mosq.C155_linear_refuted",
    "Verif.Mosq.C155_p_refuted",
    "Verif.Mosq.C155_swapped_refuted"
   ],
   "note": "Proved for n-type devices with drain not below source (LINEAR: below the limit corrected for LAMBDA); refuted in the strip between the limits, for p-type devices (a conducting one is reported OFF) and for devices that conduct from source to drain."
  },
  {
   "property": "C156",
   "status": "partial",
   "theorems": [
    "Verif.Mosq.C156_fresh_partial",
    "Verif.Mosq.C156_first",
    "Verif.Mosq.C156_stale_refuted"
   ],
   "note": "Proved for all histories when the three voltages are not all equal, and for new devices; refuted for equal voltages because gstamp remembers only the first voltage."
  },
  {
   "property": "C157",
   "status": "partial",
   "theorems": [
    "Verif.DcFront.C157_source",
    "Verif.DcFront.C157_missing",
    "Verif.DcFront.C157_linear",
    "Verif.DcFront.C157_log",
    "Verif.DcFront.C157_wanted_ends",
    "Verif.DcFront.C157_points",
    "Verif.DcFront.C157_accepted",
    "Verif.DcFront.C157_refuted"
   ],
   "note": "Proved but for the refuted parts (C157_refuted): spelling of LOG, one point, equal end points; logarithmic axes with positive end points."
  },
  {
   "property": "C158",
   "status": "proved",
   "theorems": [
    "Verif.DcLinear.C158_affine",
    "Verif.DcLinear.C158_gain",
    "Verif.DcLinear.C158_sweep"
   ],
   "note": "Sources without time functions; the matrix must be regular with and without Gmin."
  },
  {
   "property": "C159",
   "status": "proved",
   "theorems": [
    "Verif.Super.C159_transient"
   ],
   "note": "Steps are given: step control depends on the local error and is not linear."
  },
  {
   "property": "C160",
   "status": "proved",
   "theorems": [
    "Verif.Super.C160_later",
    "Verif.Super.C160_autonomous"
   ],
   "note": "Exact arithmetic; steps are given."
  },
  {
   "property": "C161",
   "status": "proved",
   "theorems": [
    "Verif.Ac.C161_superposition",
    "Verif.Ac.C161_quiet"
   ],
   "note": "Default options (all methods on, no damping of the first iterations); exact complex arithmetic."
  },
  {
   "property": "C162",
   "status": "partial",
   "theorems": [
    "Verif.Ekv.C162_conductances",
    "Verif.Ekv.C162_entries",
    "Verif.Ekv.C162_calls_refuted",
    "Verif.Ekv.C162_incomplete",
    "Verif.Ekv.C162_info",
    "Verif.Ekv.C162_history",
    "Verif.Ekv.C162_tuple_refuted",
    "Verif.Ekv.C162_tuple_differs"
   ],
   "note": "Proved for voltages in a list, which is what the operating point tables pass. Refuted for tuples: the stored state is scaled and is compared with unscaled voltages. Newton's method inside get_ismall is a parameter."
  },
  {
   "property": "C163",
   "status": "proved",
   "theorems": [
    "Verif.Ekv.C163_swap",
    "Verif.Ekv.C163_mirror",
    "Verif.Ekv.C163_zero",
    "Verif.Ekv.C163_drain",
    "Verif.Ekv.C163_inversion",
    "Verif.Ekv.C163_current"
   ],
   "note": "Newton's method inside get_ismall is a parameter, assumed to be an increasing function; monotonicity is stated for n-type devices, the mirror theorem carries it over to p-type ones."
  },
  {
   "property": "C164",
   "status": "partial",
   "theorems": [
    "Verif.PrintAn.C164_dc_partial",
    "Verif.PrintAn.C164_tran_partial",
    "Verif.PrintAn.C164_tran_refuted",
    "Verif.PrintAn.C164_op_refuted",
    "Verif.PrintAn.C164_silent_refuted",
    "Verif.PrintAn.C164_shooting"
   ],
   "note": "Proved for dc (sweep type up to letter case) and for the times and method of tran. Refuted: the initial state of tran is lost, op prints x0= which is refused, ac, pss, pz and symbolic print nothing, shooting is not a directive. Rounding of the number formats is outside the model."
  },
  {
   "property": "C165",
   "status": "partial",
   "theorems": [
    "Verif.Ekv.C165_charge",
    "Verif.Ekv.C165_limit_refuted",
    "Verif.Ekv.C165_pinch_off",
    "Verif.Ekv.C165_slope",
    "Verif.Ekv.C165_slope_exists",
    "Verif.Ekv.C165_source_partial",
    "Verif.Ekv.C165_drain_partial",
    "Verif.Ekv.C165_gate_partial",
    "Verif.Ekv.C165_sum",
    "Verif.Ekv.C165_zero_bias",
    "Verif.Ekv.C165_drain_refuted",
    "Verif.Ekv.C165_parallel_refuted"
   ],
   "note": "The normalised charge is the derivative of the normalised current; gms, gmd and gmg are the derivatives of the forward current. The claim is false for the whole current: at equal drain and source voltages the derivative is strictly smaller than gmd for every transistor with M = N, and gms does not know the number of devices."
  },
  {
   "property": "C166",
   "status": "partial",
   "theorems": [
    "Verif.MosCtor.C166_model",
    "Verif.MosCtor.C166_explicit",
    "Verif.MosCtor.C166_conductance_refuted",
    "Verif.MosCtor.C166_power_refuted",
    "Verif.MosCtor.C166_temperature_refuted",
    "Verif.MosCtor.C166_device",
    "Verif.MosCtor.C166_tolerance",
    "Verif.MosCtor.C166_message_refuted",
    "Verif.MosCtor.C166_fraction_refuted"
   ],
   "note": "What is accepted is in range for the checked parameters, exactly the models in range are accepted when the main parameters are given, devices are accepted iff L, W > 0 and M, N >= 1. False: KP is not checked (a negative one gives a transistor that delivers power), the surface potential is not checked after set_device_temperature, the EKV device divides by zero before its check, fractions of M and N are dropped. The error of normalized currents stands for the tolerance iea (C166_tolerance)."
  },
  {
   "property": "C167",
   "status": "partial",
   "theorems": [
    "Verif.CircStr.C167_elements_partial",
    "Verif.CircStr.C167_again_partial",
    "Verif.CircStr.C167_title_refuted",
    "Verif.CircStr.C167_models_refuted",
    "Verif.CircStr.C167_open",
    "Verif.CircStr.C167_case_refuted"
   ],
   "note": "Elements: proved for circuits of R, C and L without initial conditions, K after its inductors, E, G, F, H with lower-case names and numbers that read back. Title: false for every title (read title has the prefix `* ` and is in lower case). Circuits with models and names with capital letters: false (witnesses)."
  },
  {
   "property": "C168",
   "status": "partial",
   "theorems": [
    "Verif.Scale.C168_static",
    "Verif.Scale.C168_transient_matrix_partial",
    "Verif.Scale.C168_transient_partial",
    "Verif.Scale.C168_points_partial",
    "Verif.Scale.C168_error_trap",
    "Verif.Scale.C168_error_gear",
    "Verif.Scale.C168_error_euler_refuted",
    "Verif.Scale.C168_ac_linear",
    "Verif.Scale.C168_ac_log",
    "Verif.Scale.C168_ac_matrix_partial",
    "Verif.Scale.C168_cmin_refuted"
   ],
   "note": "Static equations, AC sweeps, local errors of trap and gear: proved. Transient: proved for given lists of step decisions and without added capacitance. Refuted: `options.cmin` is not scaled with the circuit; the local error coefficient of implicit Euler lacks a factor of the step (implicit_euler.py:188), so step control with Euler depends on the unit of time."
  },
  {
   "property": "C169",
   "status": "partial",
   "theorems": [
    "Verif.Imp.C169_static",
    "Verif.Imp.C169_dynamic_partial",
    "Verif.Imp.C169_op_partial",
    "Verif.Imp.C169_ac_partial",
    "Verif.Imp.C169_gmin_refuted"
   ],
   "note": "missing: cmin (a capacitance that is not an element of the circuit) is taken to be 0 in the dynamic matrix, and Gmin has to be divided too in AC analysis; with a fixed Gmin the statement is false (C169_gmin_refuted). For the operating point any Gmin is allowed, because the last system is solved without it."
  },
  {
   "property": "C170",
   "status": "proved",
   "theorems": [
    "Verif.Rename.C170_static",
    "Verif.Rename.C170_dynamic",
    "Verif.Rename.C170_op",
    "Verif.Rename.C170_build",
    "Verif.Rename.C170_names",
    "Verif.Rename.C170_ac"
   ],
   "note": "Proved from the add_* calls to the reported operating point (C170_build, C170_names), for static and dynamic assembly (C170_static, C170_dynamic), for op_analysis (C170_op) and for the AC sweep (C170_ac). Assumes that both orders can be assembled."
  },
  {
   "property": "C171",
   "status": "proved",
   "theorems": [
    "Verif.Laws.C171_regular",
    "Verif.Laws.C171_op",
    "Verif.Laws.C171_reports",
    "Verif.Laws.C171_thevenin",
    "Verif.Laws.C171_series",
    "Verif.Laws.C171_parallel",
    "Verif.Laws.C171_ammeter",
    "Verif.Laws.C171_substitution",
    "Verif.Laws.C171_inductor",
    "Verif.Laws.C171_idle",
    "Verif.Laws.C171_star",
    "Verif.Laws.C171_stacked"
   ],
   "note": "Proved for op_analysis on linear circuits that assemble and are regular with and without gmin: characterisation by laws (C171_op, C171_reports, C171_regular) and the replacements (C171_thevenin, C171_series, C171_parallel, C171_ammeter, C171_substitution, C171_inductor, C171_idle). The law of a VCVS is taken as coded (see C07 for nodes shared by output and control)."
  },
  {
   "property": "C172",
   "status": "proved",
   "theorems": [
    "Verif.PssRun.C172_reported",
    "Verif.PssRun.C172_failed",
    "Verif.PssRun.C172_small",
    "Verif.PssRun.C172_residual",
    "Verif.PssRun.C172_linear",
    "Verif.PssRun.C172_unique",
    "Verif.PssRun.C172_newton",
    "Verif.PssRun.C172_sources"
   ],
   "note": "Exact arithmetic; a singular matrix is an exception; the limit 0 (no limit) is not modelled; the initial transient is the start vector."
  },
  {
   "property": "C173",
   "status": "proved",
   "theorems": [
    "Verif.PssRun.C173_equations",
    "Verif.PssRun.C173_repeats",
    "Verif.PssRun.C173_run",
    "Verif.PssRun.C173_small",
    "Verif.PssRun.C173_reported",
    "Verif.PssRun.C173_linear",
    "Verif.PssRun.C173_jacobian",
    "Verif.PssRun.C173_newton",
    "Verif.PssRun.C173_start",
    "Verif.PssRun.C173_damping",
    "Verif.PssRun.C173_sources"
   ],
   "note": "Exact arithmetic; sparse matrix product (the dense product is C99); the float index lists of lines 155-159 are taken as integers (numpy from 1.12 on raises IndexError for them)."
  },
  {
   "property": "C174",
   "status": "proved",
   "theorems": [
    "Verif.AcLaws.C174_phasors",
    "Verif.AcLaws.C174_results",
    "Verif.AcLaws.C174_capacitors",
    "Verif.AcLaws.C174_resistors",
    "Verif.AcLaws.C174_lowpass"
   ],
   "note": "Controlled sources obey the equations the code writes (see C07); nonlinear elements are left to C120."
  },
  {
   "property": "C175",
   "status": "partial",
   "theorems": [
    "Verif.Testing.C175_column_partial",
    "Verif.Testing.C175_accepted",
    "Verif.Testing.C175_op",
    "Verif.Testing.C175_test",
    "Verif.Testing.C175_singularities",
    "Verif.Testing.C175_singularities_partial",
    "Verif.Testing.C175_singularities_refuted",
    "Verif.Testing.C175_leftover",
    "Verif.Testing.C175_pz",
    "Verif.Testing.C175_symbolic",
    "Verif.Testing.C175_kinds",
    "Verif.Testing.C175_missing",
    "Verif.Testing.C175_failed_refuted",
    "Verif.Testing.C175_missing_refuted",
    "Verif.Testing.C175_abscissa_refuted",
    "Verif.Testing.C175_early_refuted",
    "Verif.Testing.C175_tuple_refuted"
   ],
   "note": "Comparison of columns, operating points, lists of analyses and poles characterised exactly. Refuted: failed (None), missing and early ending results pass, as does a variable equal to the abscissa."
  },
  {
   "property": "C176",
   "status": "partial",
   "theorems": [
    "Verif.Testing.C176_kept",
    "Verif.Testing.C176_stored",
    "Verif.Testing.C176_overwritten_refuted",
    "Verif.Testing.C176_itself"
   ],
   "note": "Proved with all references present and for reference runs; refuted with some references missing: the others are replaced."
  },
  {
   "property": "C177",
   "status": "partial",
   "theorems": [
    "Verif.Testing.C177_netlist_partial",
    "Verif.Testing.C177_file_refuted",
    "Verif.Testing.C177_api_partial",
    "Verif.Testing.C177_api_refuted",
    "Verif.Testing.C177_unknown_refuted",
    "Verif.Testing.C177_skip_refuted",
    "Verif.Testing.C177_tmp_refuted"
   ],
   "note": "Proved for netlist tests whose files exist in the end and for single API tests; refuted otherwise."
  },
  {
   "property": "C178",
   "status": "proved",
   "theorems": [
    "Verif.Rayleigh.C178_balance",
    "Verif.Rayleigh.C178_dirichlet",
    "Verif.Rayleigh.C178_raised",
    "Verif.Rayleigh.C178_current",
    "Verif.Rayleigh.C178_voltage",
    "Verif.Rayleigh.C178_resistance"
   ],
   "note": "For all circuits that op_analysis can solve in exact arithmetic (regular matrices with and without Gmin)."
  },
  {
   "property": "C179",
   "status": "partial",
   "theorems": [
    "Verif.AcRead.C179_array_partial",
    "Verif.AcRead.C179_items_partial",
    "Verif.AcRead.C179_bar_refuted"
   ],
   "note": "proved for names without a bar; refuted with bars: the array combines modulus and phase of different nodes"
  },
  {
   "property": "C180",
   "status": "partial",
   "theorems": [
    "Verif.Ekv.C180_high_guess_refuted",
    "Verif.Ekv.C180_new_device_refuted",
    "Verif.Ekv.C180_low_guess_refuted",
    "Verif.Ekv.C180_twice_refuted",
    "Verif.Ekv.C180_fixed_partial",
    "Verif.Ekv.C180_close_partial",
    "Verif.Ekv.C180_no_current_refuted"
   ],
   "note": "Bound on the error of what is returned (with the last iterate) and exactness from the solution proved; refuted for the start values used: new devices (1) and devices that were off (1e-10), for all voltages in wide ranges and both forms of the scipy loop."
  },
  {
   "property": "C181",
   "status": "partial",
   "theorems": [
    "Verif.Diode.C181_close_partial",
    "Verif.Diode.C181_current",
    "Verif.Diode.C181_terminates_partial",
    "Verif.Diode.C181_high_voltage_refuted",
    "Verif.Diode.C181_example_refuted"
   ],
   "note": "Error bound and termination proved where the exponentials are not cut off; refuted for voltages more than 570 N*VT above the start value, where newton raises RuntimeError after 500 iterations."
  },
  {
   "property": "C182",
   "status": "partial",
   "theorems": [
    "Verif.Conserve.C182_law_plain",
    "Verif.Conserve.C182_law_regular",
    "Verif.Conserve.C182_charge_partial",
    "Verif.Conserve.C182_flux_plain",
    "Verif.Conserve.C182_flux_regular",
    "Verif.Conserve.C182_gmin_refuted"
   ],
   "note": "Linear circuits. Fluxes: proved, with any Gmin. Charges: proved without Gmin; refuted with Gmin (default options): a floating capacitor discharges through it. Each for options without homotopies, or with the default options and regular step matrices (general law and fluxes)."
  },
  {
   "property": "C183",
   "status": "proved",
   "theorems": [
    "Verif.Converge.C183_euler",
    "Verif.Converge.C183_trap",
    "Verif.Converge.C183_circuit_euler",
    "Verif.Converge.C183_circuit_trap"
   ],
   "note": "The error is measured in the energy norm (root of twice the energy stored by the difference in capacitors, inductors and cmin). The exact solution is that of the equations with Gmin and cmin, as assembled; it is assumed to exist and to be three times differentiable. Gmin and source stepping off, or default options with regular step matrices. Gear is not covered (variable steps need not be stable)."
  },
  {
   "property": "C184",
   "status": "partial",
   "theorems": [
    "Verif.Refs.C184_pz",
    "Verif.Refs.C184_pz_itself",
    "Verif.Refs.C184_ac",
    "Verif.Refs.C184_ac_lookup",
    "Verif.Refs.C184_ac_complex",
    "Verif.Refs.C184_deg_refuted",
    "Verif.Refs.C184_other"
   ],
   "note": "Proved for phases in radians and all numbers of poles and zeros. Refuted for the option ac_phase_in_deg: phases are written in degrees and read as radians."
  },
  {
   "property": "C185",
   "status": "proved",
   "theorems": [
    "Verif.Nonlin.C185_points",
    "Verif.Nonlin.C185_euler",
    "Verif.Nonlin.C185_rest",
    "Verif.Nonlin.C185_smooth",
    "Verif.Nonlin.C185_diodes"
   ],
   "note": "Implicit Euler with devices whose currents grow; residuals of Newton included. The trapezoidal rule is not contractive for non-linear circuits and is not covered."
  },
  {
   "property": "C186",
   "status": "proved",
   "theorems": [
    "Verif.Raise.C186_raise",
    "Verif.Raise.C186_gain",
    "Verif.Raise.C186_sweep",
    "Verif.Raise.C186_diodes"
   ],
   "note": "Operating points are solutions of the assembled equations (for circuits with devices Newton reports them within its tolerances, see C78); sweeps are those that the model of dc_analysis returns."
  },
  {
   "property": "C187",
   "status": "proved",
   "theorems": [
    "Verif.Overshoot.C187_euler"
   ],
   "note": "direct solution of each pass (Gmin and source stepping off or not needed) as in C183; capacitors between two nodes and inductors are excluded since they do lift voltages above the sources"
  },
  {
   "property": "C188",
   "status": "proved",
   "theorems": [
    "Verif.Thevenin.C188_port",
    "Verif.Thevenin.C188_load",
    "Verif.Thevenin.C188_short"
   ],
   "note": "DC operating points of circuits with invertible matrix; the load need not be one port of linear resistors, it may have any elements of the linear model"
  },
  {
   "property": "C189",
   "status": "proved",
   "theorems": [
    "Verif.Settle.C189_net",
    "Verif.Settle.C189_fade",
    "Verif.Settle.C189_energy_of_the_difference",
    "Verif.Settle.C189_difference_fades"
   ],
   "note": "Implicit Euler and trapezoidal rule, all steps; the fading needs a positive lower bound of the losses."
  },
  {
   "property": "C190",
   "status": "proved",
   "theorems": [
    "Verif.Phasor.C190_phasors_solve",
    "Verif.Phasor.C190_trap",
    "Verif.Phasor.C190_trap_constant_step",
    "Verif.Phasor.C190_transient_follows_ac",
    "Verif.Phasor.C190_constant_steps"
   ],
   "note": "Linear circuits with sinusoidal sources; the AC solution is the steady part of the continuous equations."
  },
  {
   "property": "C191",
   "status": "proved",
   "theorems": [
    "Verif.Accuracy.C191_newton",
    "Verif.Accuracy.C191_reported",
    "Verif.Accuracy.C191_diodes"
   ],
   "note": "Bounds for circuits whose equations have a positive lower bound of the slope (monotone devices)."
  },
  {
   "property": "C192",
   "status": "partial",
   "theorems": [
    "Verif.Exist.C192_exists",
    "Verif.Exist.C192_gmin",
    "Verif.Exist.C192_diodes_partial",
    "Verif.Exist.C192_reported_partial",
    "Verif.Exist.C192_found_partial",
    "Verif.Exist.C192_jump",
    "Verif.Exist.C192_diode_refuted"
   ],
   "note": "existence and uniqueness proved for all continuous growing devices, among them diodes with series resistance; refuted for the default diode (jump of _safe_exp)"
  },
  {
   "property": "C193",
   "status": "partial",
   "theorems": [
    "Verif.OpTable.C193_iterations",
    "Verif.OpTable.C193_tolerance_partial",
    "Verif.OpTable.C193_linear",
    "Verif.OpTable.C193_values_refuted",
    "Verif.OpTable.C193_percent",
    "Verif.OpTable.C193_lines",
    "Verif.OpTable.C193_zero_refuted"
   ],
   "note": "The lines, units and percentages are proved; that the error column is an error of the value is refuted, for linear circuits it is the term of Gmin."
  },
  {
   "property": "C194",
   "status": "proved",
   "theorems": [
    "Verif.OpTable.C194_short"
   ],
   "note": "All numbers of variables."
  },
  {
   "property": "C195",
   "status": "partial",
   "theorems": [
    "Verif.PssRun.C195_methods_agree",
    "Verif.PssRun.C195_operating_point",
    "Verif.PssRun.C195_start",
    "Verif.PssRun.C195_same_points_refuted"
   ],
   "note": "Agreement holds for N points (shooting) and N + 1 points (brute force); for equal numbers of points it is refuted. Non-linear circuits: constant sources, started at the operating point."
  },
  {
   "property": "C196",
   "status": "proved",
   "theorems": [
    "Verif.PssRun.C196_net",
    "Verif.PssRun.C196_passive"
   ],
   "note": "Circuits with one operating point without Gmin, as the periodic analyses use no Gmin."
  },
  {
   "property": "C197",
   "status": "partial",
   "theorems": [
    "Verif.Tran.C197_gear2",
    "Verif.Tran.C197_gear6_refuted"
   ],
   "note": "proved for order 2 with equal steps (C197_gear2); order 6 multiplies the energy of an LC circuit by more than 100 within 40 points (C197_gear6_refuted)"
  },
  {
   "property": "C198",
   "status": "partial",
   "theorems": [
    "Verif.MosCtor.C198_derived_partial",
    "Verif.MosCtor.C198_default",
    "Verif.MosCtor.C198_body",
    "Verif.MosCtor.C198_body_refuted",
    "Verif.MosCtor.C198_threshold",
    "Verif.MosCtor.C198_threshold_refuted",
    "Verif.MosCtor.C198_flatband_refuted",
    "Verif.MosCtor.C198_doping",
    "Verif.MosCtor.C198_type"
   ],
   "note": "COX, PHI, KP and defaults proved; GAMMA has COX inside of the root, VTO has PHI in place of its root, and VFB with NSUB raises TypeError (refuted theorems)"
  },
  {
   "property": "C199",
   "status": "partial",
   "theorems": [
    "Verif.TranFront.C199_named",
    "Verif.TranFront.C199_default_partial",
    "Verif.TranFront.C199_default_refuted",
    "Verif.TranFront.C199_unknown",
    "Verif.TranFront.C199_custom_refuted",
    "Verif.TranFront.C199_fixed_refuted",
    "Verif.TranFront.C199_times",
    "Verif.TranFront.C199_status_refuted",
    "Verif.TranFront.C199_step"
   ],
   "note": "Named methods, unknown names and the first step are right (`C199_named`, `C199_unknown`, `C199_step`, `C199_times`). Refuted: a lower case default method stops the program (`C199_default_refuted`), custom formulas can never be loaded (`C199_custom_refuted`), fixed steps raise TypeError for Euler and Gear (`C199_fixed_refuted`), bad matrices end the program with status 0 (`C199_status_refuted`)."
  },
  {
   "property": "C200",
   "status": "partial",
   "theorems": [
    "Verif.PlotFrame.C200_units_partial",
    "Verif.PlotFrame.C200_label",
    "Verif.PlotFrame.C200_inside",
    "Verif.PlotFrame.C200_none_refuted",
    "Verif.PlotFrame.C200_axis",
    "Verif.PlotFrame.C200_data",
    "Verif.PlotFrame.C200_angle_refuted",
    "Verif.PlotFrame.C200_missing",
    "Verif.PlotFrame.C200_empty"
   ],
   "note": "Label (`C200_units_partial`, `C200_label`), limits (`C200_inside`, `C200_axis`) and data (`C200_data`). Refuted: angles get the unit of the variable (`C200_angle_refuted`); a plot without curves raises TypeError (`C200_none_refuted`). Names that are missing raise KeyError, see C133."
  },
  {
   "property": "C201",
   "status": "partial",
   "theorems": [
    "Verif.Temp.C201_simulation",
    "Verif.Temp.C201_noted",
    "Verif.Temp.C201_own",
    "Verif.Temp.C201_made_partial",
    "Verif.Temp.C201_agree",
    "Verif.Temp.C201_follow_refuted",
    "Verif.Temp.C201_noted_refuted"
   ],
   "note": "Devices made after setting the temperature work at it (`C201_made_partial`, `C201_agree`), own temperatures are kept (`C201_own`), results note the temperature set last (`C201_simulation`, `C201_noted`). Refuted: devices that exist never follow (`C201_follow_refuted`), so that results note a temperature no device works at (`C201_noted_refuted`). That analyses of type temp and `.temp` lines fail is part of C97."
  },
  {
   "property": "C202",
   "status": "partial",
   "theorems": [
    "Verif.SymDev.C202_diode",
    "Verif.SymDev.C202_mosq_partial",
    "Verif.SymDev.C202_mosq_tied",
    "Verif.SymDev.C202_ekv_partial",
    "Verif.SymDev.C202_ekv_tied",
    "Verif.SymDev.C202_bulk_refuted",
    "Verif.SymDev.C202_r0_refuted",
    "Verif.SymDev.C202_shared_refuted",
    "Verif.SymDev.C202_substitution",
    "Verif.SymDev.C202_substitution_refuted"
   ],
   "note": "Diodes agree (`C202_diode`); transistors agree with bulk and source tied and with `r0s` (`C202_mosq_tied`, `C202_ekv_tied`), and differ by the transconductance of the bulk otherwise (`C202_mosq_partial`, `C202_ekv_partial`). Refuted: four-terminal transistors (`C202_bulk_refuted`), without `r0s` (`C202_r0_refuted`), and symbols shared with resistors called R0_<transistor> (`C202_shared_refuted`). Square-law transistors that are turned round are left out."
  },
  {
   "property": "C203",
   "status": "partial",
   "theorems": [
    "Verif.UserElem.C203_parameters",
    "Verif.UserElem.C203_element",
    "Verif.UserElem.C203_import_once",
    "Verif.UserElem.C203_refused_partial",
    "Verif.UserElem.C203_refused_refuted",
    "Verif.UserElem.C203_number_refuted",
    "Verif.UserElem.C203_api_refuted"
   ],
   "note": "Element, parameters and single import proved for all environments. Lines refused before nodes are made leave the circuit unchanged; elements that fail their check leave their nodes in the circuit, and numbers as names raise TypeError. add_user_defined is refuted: it raises NameError for all arguments."
  },
  {
   "property": "C204",
   "status": "partial",
   "theorems": [
    "Verif.SwitchInfo.C204_shared",
    "Verif.SwitchInfo.C204_answers",
    "Verif.SwitchInfo.C204_fresh",
    "Verif.SwitchInfo.C204_ohm",
    "Verif.SwitchInfo.C204_status_partial",
    "Verif.SwitchInfo.C204_status_refuted",
    "Verif.SwitchInfo.C204_guess_partial",
    "Verif.SwitchInfo.C204_guess_refuted"
   ],
   "note": "Independence of switches, Ohm's law in every table and correctness of tables for new voltages proved. The table is stale after the switch changed its state and came back to the same voltages; the guess is right for positive thresholds only."
  },
  {
   "property": "C205",
   "status": "proved",
   "theorems": [
    "Verif.Immittance.C205_energy",
    "Verif.Immittance.C205_resistance",
    "Verif.Immittance.C205_capacitive",
    "Verif.Immittance.C205_inductive",
    "Verif.Immittance.C205_lossless",
    "Verif.Immittance.C205_resistive",
    "Verif.Immittance.C205_admittance"
   ],
   "note": "Proved for all points of a linear sweep that succeeds, with gmin and cmin: cmin counts as capacitance to ground, gmin as conductance to ground. Negative elements and controlled sources are excluded, as the claim is false for them."
  },
  {
   "property": "C206",
   "status": "partial",
   "theorems": [
    "Verif.Parse.C206_short",
    "Verif.Parse.C206_letter",
    "Verif.Parse.C206_missing",
    "Verif.Parse.C206_mos_model",
    "Verif.Parse.C206_coupling",
    "Verif.Parse.C206_factor",
    "Verif.Parse.C206_words_partial",
    "Verif.Parse.C206_words_refuted",
    "Verif.Parse.C206_sources",
    "Verif.Parse.C206_value_refuted",
    "Verif.Parse.C206_functions"
   ],
   "note": "All kinds of lines named in the statement are covered for all names and nodes; wrong parameters of sources are checked on listed lines, for all models and elements. Values that are no numbers raise ValueError and sffm takes one word too few."
  },
  {
   "property": "C207",
   "status": "partial",
   "theorems": [
    "Verif.NetApi.C207_same_partial",
    "Verif.NetApi.C207_errors_partial",
    "Verif.NetApi.C207_capacitor_refuted",
    "Verif.NetApi.C207_switch_refuted",
    "Verif.NetApi.C207_round_trip_partial",
    "Verif.NetApi.C207_sources"
   ],
   "note": "Proved for all elements but capacitors of zero farad and switches with models of other devices, for which the code disagrees. Areas and dimensions of devices are not part of the model of the circuit. Subcircuits and user-defined elements are left to C38 and C203."
  },
  {
   "property": "C208",
   "status": "partial",
   "theorems": [
    "Verif.Include.C208_groups",
    "Verif.Include.C208_whole",
    "Verif.Include.C208_circle_refuted",
    "Verif.Include.C208_self_refuted",
    "Verif.Include.C208_ends",
    "Verif.Include.C208_capitals_refuted",
    "Verif.Include.C208_numbers_refuted"
   ],
   "note": "Proved: the groups of lines are those of the files read alone, in the order of the requests (C208_groups); every file exists and is whole (C208_whole); an end if there is no circle (C208_ends). The code disagrees with the rest: files in a circle are read for ever (C208_circle_refuted, C208_self_refuted), names are lower-cased (C208_capitals_refuted), line numbers go on across files (C208_numbers_refuted)."
  },
  {
   "property": "C209",
   "status": "partial",
   "theorems": [
    "Verif.IcDir.C209_vector_partial",
    "Verif.IcDir.C209_name",
    "Verif.IcDir.C209_last",
    "Verif.IcDir.C209_start",
    "Verif.IcDir.C209_once",
    "Verif.IcDir.C209_lines",
    "Verif.IcDir.C209_repeat",
    "Verif.IcDir.C209_unknown",
    "Verif.IcDir.C209_number_refuted",
    "Verif.IcDir.C209_stale_refuted",
    "Verif.IcDir.C209_value_refuted",
    "Verif.IcDir.C209_underscore_refuted"
   ],
   "note": "Proved: the vector of a directive (C209_vector_partial: names of nodes and elements of letters and digits, each unknown set once, name not a number), last directive counts (C209_last), analyses with the label run with the vector (C209_start), nameless directives refused (C209_name), directives read once (C209_once). Refuted: numeric names (C209_number_refuted), stale labels (C209_stale_refuted), ValueError for bad values (C209_value_refuted), underscores (C209_underscore_refuted). Of repeated settings the last counts (C209_repeat), unknown nodes and elements are refused (C209_unknown)."
  },
  {
   "property": "C210",
   "status": "partial",
   "theorems": [
    "Verif.Layout.C210_content",
    "Verif.Layout.C210_blanks",
    "Verif.Layout.C210_capitals",
    "Verif.Layout.C210_comments_partial",
    "Verif.Layout.C210_broken",
    "Verif.Layout.C210_comments_refuted",
    "Verif.Layout.C210_models"
   ],
   "note": "elements and models of one file; a comment or empty line must not stand in front of a continuation, C210_comments_refuted gives the reason (the continuation joins the comment). Files are read whole by the model, included files are covered by C208."
  },
  {
   "property": "C211",
   "status": "partial",
   "theorems": [
    "Verif.Spectrum.C211_fourier",
    "Verif.Spectrum.C211_component",
    "Verif.Spectrum.C211_levels",
    "Verif.Spectrum.C211_normalised",
    "Verif.Spectrum.C211_refused",
    "Verif.Spectrum.C211_window_partial",
    "Verif.Spectrum.C211_window_refuted",
    "Verif.Spectrum.C211_carrier_refuted",
    "Verif.Spectrum.C211_silent_refuted"
   ],
   "note": "numbers are modelled as reals and complex numbers, with nan and minus infinity where numpy gives them; the formatting of numbers (%g, tabulate) is not modelled"
  },
  {
   "property": "C212",
   "status": "partial",
   "theorems": [
    "Verif.SymFront.C212_library_partial",
    "Verif.SymFront.C212_same_partial",
    "Verif.SymFront.C212_files",
    "Verif.SymFront.C212_no_file",
    "Verif.SymFront.C212_cli_refuted",
    "Verif.SymFront.C212_unsolved_refuted",
    "Verif.SymFront.C212_warning"
   ],
   "note": "sympy.solve is an input of the model: a dictionary or a list; partial since the command line fails in Python 3 and unsolvable equations raise (C212_cli_refuted, C212_unsolved_refuted)"
  },
  {
   "property": "C213",
   "status": "proved",
   "theorems": [
    "Verif.Foster.C213_reactance",
    "Verif.Foster.C213_susceptance"
   ],
   "note": "Foster: C213_reactance for the impedance seen by a current source, C213_susceptance for the admittance seen by a voltage source; needs that no natural frequency lies between the two frequencies (Regular), as the reactance jumps there"
  },
  {
   "property": "C214",
   "status": "partial",
   "theorems": [
    "Verif.Streams.C214_stdout",
    "Verif.Streams.C214_file",
    "Verif.Streams.C214_dash_partial",
    "Verif.Streams.C214_dash_refuted",
    "Verif.Streams.C214_read",
    "Verif.Streams.C214_read_refuted",
    "Verif.Streams.C214_closed_refuted"
   ],
   "note": "C214_stdout and C214_file: pieces give one table, on the standard output or in a file, and nothing else changes; C214_read: variables of files are read back. C214_dash_refuted: under the name `-` the standard output is closed after the first piece, the next one and any print raise ValueError; C214_read_refuted: no variable can be read from results on the standard output, although it is the default."
  },
  {
   "property": "C215",
   "status": "partial",
   "theorems": [
    "Verif.Member.C215_file",
    "Verif.Member.C215_items",
    "Verif.Member.C215_op",
    "Verif.Member.C215_op_items_partial",
    "Verif.Member.C215_spelling_refuted",
    "Verif.Member.C215_ac",
    "Verif.Member.C215_pz_partial",
    "Verif.Member.C215_pz_keys_partial",
    "Verif.Member.C215_pz_refuted"
   ],
   "note": "C215_file, C215_ac, C215_op: membership and lookup agree for every name, `get` falls back to the default; C215_items: items pair each variable with what is found under its name. C215_pz_refuted: without zeros `in`, `keys` and lookup raise AttributeError while `len` counts the poles; C215_spelling_refuted: nodes `a` and `A` are listed with two voltages but looked up as one. The names in a set of poles and zeros are its keys if there are zeros (C215_pz_keys_partial)."
  },
  {
   "property": "C216",
   "status": "proved",
   "theorems": [
    "Verif.Parallel.C216_resistors",
    "Verif.Parallel.C216_capacitors",
    "Verif.Parallel.C216_transconductors",
    "Verif.Parallel.C216_mirrors",
    "Verif.Parallel.C216_currents",
    "Verif.Parallel.C216_turn_passive",
    "Verif.Parallel.C216_turn_current",
    "Verif.Parallel.C216_conductance",
    "Verif.Parallel.C216_turn_controlled"
   ],
   "note": "C216_resistors, C216_capacitors, C216_currents, C216_transconductors, C216_mirrors (parallel), C216_turn_passive, C216_turn_current, C216_turn_controlled (exchange of nodes), C216_conductance: equality of all assembled matrices and vectors and of the names of the variables, wherever the elements are in the netlist. Over a field, i.e. without rounding."
  },
  {
   "property": "C217",
   "status": "partial",
   "theorems": [
    "Verif.AcEquiv.C217_resistors",
    "Verif.AcEquiv.C217_capacitors",
    "Verif.AcEquiv.C217_inductors",
    "Verif.AcEquiv.C217_inductors_parallel",
    "Verif.AcEquiv.C217_star",
    "Verif.AcEquiv.C217_sources",
    "Verif.AcEquiv.C217_results",
    "Verif.AcEquiv.C217_cmin_refuted"
   ],
   "note": "proved for options.gmin = options.cmin = 0 (equivalences that add a node) and for all values (inductors in parallel); refuted for other values of cmin (`C217_cmin_refuted`): the minimal capacitance loads the node that is added, so the results differ slightly with default options"
  },
  {
   "property": "C218",
   "status": "proved",
   "theorems": [
    "Verif.TranRecip.C218_any_impedance",
    "Verif.TranRecip.C218_any_admittance",
    "Verif.TranRecip.C218_convolution",
    "Verif.TranRecip.C218_transfer_impedance",
    "Verif.TranRecip.C218_transfer_admittance",
    "Verif.TranRecip.C218_trap_impedance",
    "Verif.TranRecip.C218_trap_admittance"
   ],
   "note": "Implicit Euler and the trapezoidal rule with fixed steps (points exist); all methods for runs that take the same steps, with regular matrices (dc_solve then solves each pass directly). Exact arithmetic. That step control chooses the same steps for both circuits is not claimed."
  },
  {
   "property": "C219",
   "status": "partial",
   "theorems": [
    "Verif.Messages.C219_session",
    "Verif.Messages.C219_verbosity",
    "Verif.Messages.C219_silent",
    "Verif.Messages.C219_always",
    "Verif.Messages.C219_suppressed",
    "Verif.Messages.C219_settings_partial",
    "Verif.Messages.C219_settings_refuted",
    "Verif.Messages.C219_handler",
    "Verif.Messages.C219_report",
    "Verif.Messages.C219_to_output",
    "Verif.Messages.C219_equations"
   ],
   "note": "Everything holds as long as print works. If print raises (closed or unencodable standard output) the settings of numpy are not restored, as printoptions has no finally: refuted. Standard error is assumed to work."
  },
  {
   "property": "C220",
   "status": "partial",
   "theorems": [
    "Verif.ShootInit.C220_matrix",
    "Verif.ShootInit.C220_matrix_empty",
    "Verif.ShootInit.C220_transient",
    "Verif.ShootInit.C220_initial",
    "Verif.ShootInit.C220_ends",
    "Verif.ShootInit.C220_regular",
    "Verif.ShootInit.C220_phase_partial",
    "Verif.ShootInit.C220_phase_refuted",
    "Verif.ShootInit.C220_none",
    "Verif.ShootInit.C220_no_time"
   ],
   "note": "Order and times of the start points and the end of the loop are proved. In phase only if (points-1) divides 10; with the default 100 points the start is ten steps late (C220_phase_refuted)."
  },
  {
   "property": "C221",
   "status": "partial",
   "theorems": [
    "Verif.AcThevenin.C221_port",
    "Verif.AcThevenin.C221_available",
    "Verif.AcThevenin.C221_divider",
    "Verif.AcThevenin.C221_norton"
   ],
   "note": "C221_port, C221_available, C221_divider, C221_norton. options.gmin and options.cmin are taken to be zero (with them every node of the load loses current to the reference, see C217_cmin_refuted); linear circuits only; exact arithmetic."
  },
  {
   "property": "C222",
   "status": "proved",
   "theorems": [
    "Verif.AcSubst.C222_ac_current",
    "Verif.AcSubst.C222_ac_voltage",
    "Verif.Subst.C222_current",
    "Verif.Subst.C222_voltage",
    "Verif.Subst.C222_idle",
    "Verif.Subst.C222_change"
   ],
   "note": "C222_current, C222_voltage, C222_idle, C222_change for operating points of linear circuits in exact arithmetic with a regular matrix (also with gmin), C222_ac_current and C222_ac_voltage for AC analyses: the class of circuits that the statement names"
  },
  {
   "property": "C223",
   "status": "partial",
   "theorems": [
    "Verif.Tellegen.C223_op",
    "Verif.Tellegen.C223_ac",
    "Verif.Tellegen.C223_balance"
   ],
   "note": "C223_op and C223_ac for two circuits, C223_balance for one. In AC analyses the admittances of options.gmin and options.cmin at the nodes take part in the balance: C223_ac has their term, C223_balance needs both to be zero. Operating points and AC only, linear circuits, exact arithmetic."
  },
  {
   "property": "C224",
   "status": "partial",
   "theorems": [
    "Verif.SymTf.C224_poles",
    "Verif.SymTf.C224_zeros",
    "Verif.SymTf.C224_gain0",
    "Verif.SymTf.C224_factored_partial",
    "Verif.SymTf.C224_factored_refuted",
    "Verif.SymTf.C224_common_refuted",
    "Verif.SymTf.C224_printed"
   ],
   "note": "sympy.solve is a parameter required to return every root of a non-zero polynomial once. Poles and zeros are those of the gain if the fraction is reduced; the gain is rebuilt from gain0, poles and zeros if roots are simple and not zero. Both fail otherwise: multiplicities are lost, and common factors left by sympy.together are listed as poles and zeros."
  },
  {
   "property": "C225",
   "status": "partial",
   "theorems": [
    "Verif.Headers.C225_stdout_partial",
    "Verif.Headers.C225_file_refuted",
    "Verif.Headers.C225_buffer_refuted",
    "Verif.Headers.C225_empty"
   ],
   "note": "Holds for a standard output that takes text. Files are opened in binary mode and text is written: TypeError for every list of names, after the file was emptied."
  },
  {
   "property": "C226",
   "status": "partial",
   "theorems": [
    "Verif.NewAn.C226_op",
    "Verif.NewAn.C226_ac",
    "Verif.NewAn.C226_symbolic",
    "Verif.NewAn.C226_pz",
    "Verif.NewAn.C226_tran",
    "Verif.NewAn.C226_dc_partial",
    "Verif.NewAn.C226_dc_refuted",
    "Verif.NewAn.C226_pss_partial",
    "Verif.NewAn.C226_step_refuted",
    "Verif.NewAn.C226_defaults_refuted"
   ],
   "note": "Proved for op, ac, tran, pz and symbolic without restriction, for dc if the range is not empty, for pss if no step is given. Refuted for the rest: new_dc cannot ask for a single point and new_pss has no parameter for the step. The default values of the interfaces differ for tran, ac and pss (C226_defaults_refuted)."
  },
  {
   "property": "C227",
   "status": "partial",
   "theorems": [
    "Verif.OpReport.C227_result",
    "Verif.OpReport.C227_files",
    "Verif.OpReport.C227_stdout_partial",
    "Verif.OpReport.C227_stdout_refuted",
    "Verif.OpReport.C227_silent_partial",
    "Verif.OpReport.C227_library_refuted",
    "Verif.OpReport.C227_lost_refuted",
    "Verif.OpReport.C227_once_partial",
    "Verif.OpReport.C227_twice_refuted",
    "Verif.OpReport.C227_errors",
    "Verif.OpReport.C227_named",
    "Verif.OpReport.C227_unnamed",
    "Verif.OpReport.C227_left_refuted"
   ],
   "note": "Proved: files, errors, result. Printing: proved if the solutions with and without Gmin agree; refuted otherwise (warning in the results, report printed twice), and refuted for library sessions (lines are printed, the report asked for is not) and for the temporary report file, which is left behind."
  }
 ]
}