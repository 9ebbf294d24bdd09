c("C01", "proved", [M+"solve_correct", M+"solve_exact", M+"fbsub3_ground"],
  "every size, profile, loaded matrix and history; exact field arithmetic. solve_exact assumes the leading minors are non-zero (no pivot replaced); solve_correct covers replaced pivots")
c("C02", "proved", [M+"partial_eq_full", M+"run_eqAt"],
  "any history of loads, clears and decompositions in which a partial one is asked for only after a decomposition since the last clear")
c("C03", "partial", [M+"fbsubt_correct", M+"fbsubt_size0"],
  "proved for every size >= 1; for size 0 the code writes v[1], outside the vector (fbsubt_size0)")
c("C04", "proved", [M+"inplace_eq_copy", M+"inplace_solve"], "in every stored position")
c("C05", "proved", [M+"cellIndex_in_bounds", M+"cellIndex_injective", M+"nzcount_eq", M+"sget_spec"], "")
c("C06", "proved", [M+"iwantAll_spec", M+"iwantAll_covers", M+"iwantAll_order_independent", M+"iwantAll_wf"], "")
c("C07", "proved", [M+"loadSymmetric_stamp", M+"loadAsymmetric_stamp", M+"loadCouple_stamp", M+"loadPoint_stamp", M+"loadDiagonalPoint_stamp"], "against an incidence specification")
c("C08", "partial", [L+"iteration_solves_circuit", L+"iteration_solves_circuit_exact_partial", L+"lost_bound", L+"recorded_values", L+"loading_drifts"],
  "false as stated: changes below roundofftol in the first iteration of a step are recorded but never loaded (loading_drifts). Proved: exact identity with the dropped amount, its bound, and the exact statement with de-noising off")
c("C09", "proved", [L+"clear_load_factor_agree", L+"iteration_solves_circuit"], "any legal history of analyses, options and marks")
c("C10", "proved", ["Gnucap.Solve.solve_success_confirmed", "Gnucap.Solve.solve_bounded", "Gnucap.Solve.negative_itermin_accepts_limiting"],
  "for itermin >= 0 and every sequence of evaluation outcomes; negative itermin accepts a limited iteration (witness)")
c("C11", "partial", ["Gnucap.Solve.homotopy_restores_partial", "Gnucap.Solve.homotopy_bounded", "Gnucap.Solve.homotopy_throw_leaves_options", L+"final_solve_keeps_homotopy_gmin"],
  "false as stated in two ways (witnesses): an exception leaves the options changed, and the last solve still has the stepping gmin in the matrix. Proved: every normal return restores both options, first and last solve are made under them")
S = "Gnucap.Sim."
c("C12", "proved", [S+"nodemap_dense", S+"nodemap_stable", S+"nodemap_same_iff", S+"nodemap_lookup"],
  "any sequence of calls, the case option free to change between calls (names compared after folding)")
c("C13", "proved", [S+"mapNodes_spec", S+"mapNodes_bijective", S+"user_number_inverse"], "every order option and node count")
c("C14", "proved", [S+"setLimit_spec", S+"setLimit_idempotent", S+"limits_grow"], "exact arithmetic")
c("C15", "proved", [S+"restore_last_kept"], "any history between")
I = "Gnucap.Integ."
c("C21", "proved", [I+"review_is_min", I+"review_order_independent"], "any nesting of card lists")
c("C22", "proved", [I+"hist_run", I+"hist_decreasing"], "refinement to a list of accepted times, through SIM::advance_time")
c("C23", "partial", [I+"differentiate_linear", I+"differentiate_trap_quadratic", I+"differentiate_gear_quadratic_partial", I+"differentiate_gear_error", I+"differentiate_gear_wrong", I+"differentiate_other"],
  "linear: all methods; trapezoid on quadratics proved; the gear formula is exact on quadratics only for equal steps (exact error formula and witness for unequal steps)")
c("C24", "proved", [I+"companion_is_derivative", I+"capacitor_companion"], "exact arithmetic")
c("C25", "proved", [I+"method_select_spec", I+"first_step_euler"], "whole table")
c("C26", "proved", [I+"derivatives_interpolant", I+"derivatives_polynomial"], "any number of points, any distinct times; later degenerate times do not matter")
c("C27", "proved", [I+"truncError_pos", I+"checkAndConvert_future", I+"checkAndConvert_never", I+"truncError_polynomial", I+"truncError_meets_tolerance"], "real arithmetic; trreject <= 1")
c("C34", "partial", [I+"poly_roundtrip", I+"poly_ops", I+"poly_mul_slope", I+"poly_mul_wrong", I+"poly_mul_partial"],
  "everything except the product of two FPOLY1, whose slope is wrong (exact characterisation)")
T = "Gnucap.Trans."
c("C16", "proved", [T+"accepted_times_increase"], "any schedule of failures, reviews and events; only dtmin > 0 assumed")
c("C17", "partial", [T+"next_never_late_partial", T+"events_not_stepped_over_partial", T+"strobe_lost", T+"event_lost", T+"strobe_lost_shrink"],
  "false when a one tick step does not converge (or trstepshrink > 4): witnesses. Proved for every other schedule, per step and over whole runs")
c("C18", "partial", [T+"sweep_terminates_partial", T+"step_at_least_dtmin", T+"step_control_spins", T+"small_dtmax_crashes"],
  "false: with steps that do not converge the control alternates between two steps for ever (proved for every run length). Proved: minimum step always, explicit bound on the number of steps without one tick failures")
c("C19", "partial", [T+"strobes_exact_partial", T+"strobe_lost"], "as C17; exact list of output times, complete at the end of the sweep")
c("C20", "proved", [T+"eventTime_spec", T+"queue_run", T+"pop_earliest"], "any history of requests and pops")
P = "Gnucap.Interp."
c("C30", "proved", [P+"interpolate_between", P+"interpolate_above", P+"interpolate_below", P+"interpolate_last", P+"interpolate_at_point", P+"interpolate_polyline", P+"interpolate_continuous"],
  "any length; line theorems also with equal keys elsewhere in the table; closed form and continuity for distinct keys")
c("C32", "partial", [P+"delay_line_partial", P+"reflection", P+"line_begins_with_zero", P+"empty_wave_throws", P+"repeated_push_throws"],
  "false for an empty WAVE (throws); reflection up to the round-off tolerance; the transmission line's own initialisation gives 0")
c("C29", "partial", [P+"pwl_table_check", P+"pwl_source_value_partial", P+"pwl_device_value_partial", P+"pwl_review_next_corner_partial", P+"pwl_linear_until_event_partial", P+"pwl_review_before_first", P+"pwl_second_analysis_doubles", P+"pwl_second_analysis_ub", P+"pwl_one_point_second_analysis_throws", P+"pwl_final_step_throws", P+"pwl_near_corner_missed"],
  "false in several ways (witnesses): from the second analysis on the table is doubled, review before the first point leaves the array, a step at the end throws, a corner within 2*dtmin is not announced. Proved for the first analysis otherwise")
G = "Gnucap.Logic."
c("C50", "partial", [G+"gate_settles", G+"gate_order", G+"gate_still", G+"gate_accept_future", G+"gate_present_partial", G+"gate_present_wrong", G+"and_gate_spurious_event"],
  "settled values proved for any number and order of inputs. Not true for the value before the change (witness), so an AND gate with one input rising and one falling schedules an event to 1 although the output stays 0 (witness)")
c("C51", "partial", [G+"event_on_time_partial", G+"rejected_restores_partial", G+"step_accepted", G+"overshoot_delays_event", G+"analog_roundtrip_partial", G+"analog_roundtrip_default", G+"analog_roundtrip_wrong", G+"analog_within", G+"analog_edge"],
  "false when a rejected step went past the event time (the event is delayed to the rejected time) and for families with vmin != 0 (to_logic does not subtract it): witnesses")
K = "Gnucap.Limit."
c("C52", "partial", [K+"vgs_between", K+"vgs_fixed", K+"vgs_no_false_stop", K+"vgs_move_bounded", K+"vgs_transparent", K+"vds_between_partial", K+"vds_fixed_partial", K+"vds_no_false_stop_partial", K+"vds_moves_converged", K+"vds_stuck", K+"pnj_fixed", K+"pnj_transparent", K+"pnj_up", K+"pnj_down", K+"pnj_overshoots", K+"pnj_no_false_stop"],
  "vgs: everything. vds: false below -0.5 V (a converged voltage is moved; stuck at -0.5 V). pnj: downward moves can go past the asked voltage to vcrit")
W = "Gnucap.Wmatch."
c("C44", "partial", [W+"wmatch_sound", W+"wmatch_complete_partial", W+"wmatch_trailing_star", W+"trailing_star_wrong", W+"star_in_subject_wrong"],
  "every accepted string is an instance. The converse holds for subjects without stars except that a trailing star does not match the empty string (exact characterisation, witnesses)")
N = "Gnucap.Scan."
c("C43", "partial", [N+"keyword_accepts", N+"umatch_single", N+"umatch_first_partial", N+"umatch_blank_alternative_wrong", N+"umatch_unclosed_ub"],
  "one alternative: exact. Several: first match, only without leading blanks (with leading blanks every later alternative fails, witness). Patterns with a closed optional part and without escapes")
LN = "Gnucap.Lines."
c("C47", "partial", [LN+"getlines_logical_partial", LN+"getlines_end", LN+"logical_rest", LN+"readAll_logicals_partial", LN+"long_line_split"],
  "false for physical lines longer than the buffer (witness). Proved for every file whose lines fit; a last line that is a lone + without newline is excluded; comments are not treated by getlines")
D = "Gnucap.Dispatch."
c("C48", "partial", [D+"keys_spec", D+"install_finds", D+"install_keeps", D+"install_reachable_partial", D+"empty_name_wrong", D+"lookup_neutral", D+"lookup_answer", D+"uninstall_exact", D+"history_found", D+"history_reachable_partial", D+"history_only"],
  "any history of installs and uninstalls. The empty name is not ignored as the comment says: the plugin under it is lost (witness)")
X = "Gnucap.Sweep."
c("C35", "partial", [X+"dc_linear", X+"dc_linear_exact", X+"dc_loop", X+"dc_loop_exact", X+"dc_reverse_partial", X+"dc_reverse_misses_stop", X+"dc_reverse_loop_one_point", X+"dc_wrong_direction", X+"dc_no_step", X+"dc_log", X+"dc_log_from_zero_endless", X+"dc_log_to_zero_endless", X+"dc_lin_points_wrong", X+"dc_nested", X+"mem_cross", X+"length_cross", X+"dc_restores_partial", X+"dc_same_element_twice_wrong", X+"dc_stale_parameter"],
  "forward, loop, nesting: proved for every start, stop, step. False: reverse leaves out the stop point, reverse with loop visits one point, a multiplying sweep from 0 or to 0 never ends, `lin n` uses n as the step, an element swept on two levels is not restored, a stale parameter is swept instead of the generator. Real arithmetic")
c("C36", "partial", [X+"ac_linear", X+"acLast_grid", X+"ac_points_partial", X+"ac_single", X+"ac_points_one_wrong", X+"ac_overshoots", X+"ac_log_partial", X+"ac_decade", X+"ac_log_to_zero_endless", X+"ac_log_degenerate"],
  "exact list of frequencies. False: when stop is not on the grid one more point beyond stop is visited; `lin 1` gives two points; a shrinking sweep to 0 never ends. Real arithmetic")
O = "Gnucap.Source."
c("C28", "partial", [O+"pulse_bounds", O+"pulse_periodic", O+"pulse_shape", O+"pulse_shape_square", O+"precalc_pos", O+"pulse_event_future", O+"pulse_straight_partial", O+"pulse_near_corner_missed", O+"pulse_wrap_missed"],
  "bounds, shape, periodicity for every time. Announced corners: false for a corner within 2*dtmin and for a pulse longer than its period (witnesses), proved otherwise. Exact arithmetic; shape for both ramps positive or both 0")
c("C33", "partial", [O+"sin_bounds", O+"sin_extreme", O+"sin_peak_partial", O+"sin_zero_partial", O+"sin_both_partial", O+"sin_peak_wrong"],
  "the delay is not subtracted: proved for delays of whole half (quarter) periods, false for others (for every time, witness 1/8 period). Undamped, real arithmetic")
Y = "Gnucap.TranSet."
c("C55", "partial", [Y+"setup_times", Y+"setup_steps_partial", Y+"three_spice", Y+"three_logical", Y+"two_spice", Y+"two_logical", Y+"one_stop", Y+"again_continues", Y+"three_ambiguous", Y+"strobe_longer_than_run", Y+"dtmin_above_dtmax", Y+"again_forever"],
  "times proved for all arguments and states. False: the strobe period (and dtmax) may be longer than the run, dtmin may exceed dtmax, `tran` after `tran step stop` runs forever (witnesses)")
Q = "Gnucap.Spline."
c("C31", "partial", [Q+"at_knot", Q+"order1", Q+"order1_ends", Q+"order2", Q+"order2_ends", Q+"order3_partial", Q+"joins1", Q+"joins2", Q+"joins3", Q+"djoins2", Q+"djoins3", Q+"ddjoins3", Q+"ddends3", Q+"glue", Q+"glue_cont", Q+"two_points_wrong", Q+"one_point_ub", Q+"construct_accepts"],
  "every strictly increasing table of at least three points (order 3) with natural or given end slopes; a cubic of two points has slope 0 below the table, one point reads out of range (witnesses). Exact arithmetic")
U = "Gnucap.Measure."
c("C37", "partial", [U+"mem_window", U+"max_correct", U+"min_correct", U+"cross_correct", U+"cross_on_line", U+"integral_correct", U+"average_correct", U+"slew_correct", U+"average_small_window", U+"rms_excess", U+"rms_wrong", U+"slew_flat_top_missed", U+"slew_last_wrong"],
  "max, min, cross, integral, average proved for every waveform recorded in order of time; false for integral and average of windows holding no point or one; rms is not the rms of the piecewise linear waveform (exact excess); slewrate misses a stop value that is only reached. Exact arithmetic")
R = "Gnucap.Num."
c("C45", "partial", [R+"ctof_numeral", R+"ctof_not_number", R+"ctoi_numeral", R+"ctof_sign_wrong", R+"ctof_comma_wrong", R+"ctof_exponent_ub", R+"ctof_meter_wrong", R+"ctoi_sign_wrong"],
  "every well formed numeral, both systems of units, any text around it. False: a lone sign or point passes for 0 and eats the word after it, a comma is eaten where there is no number, an exponent beyond int overflows. Exact arithmetic")
c("C46", "partial", [R+"ftos_roundtrip_partial", R+"ftos_zero", R+"ftos_unterminated", R+"ftos_overrun", R+"ftos_one_digit_less"],
  "every number from 1e-99 to BIGBIG, every width and format, up to 33 digits, both systems of units. False for 34 digits (no room for the NUL, or beyond the buffer) and by one digit for numbers printed with a two digit exponent. Exact arithmetic")
V = "Gnucap.Base."
c("C41", "partial", [V+"binop_arith_partial", V+"binop_div_vint", V+"unop_arith", V+"mod_int_real_wrong", V+"mod_zero_ub", V+"add_overflow_ub", V+"vint_sign_wrong", V+"vint_sum_order_wrong", V+"log_base_wrong", V+"binop_not_vreal"],
  "all pairs of the four numeric classes, all operators, exact arithmetic on double. False: integer % real has its operands swapped, integer remainder by 0 and int32 overflow are undefined, in Verilog mode signs and sums change the class so that a division is or is not cut and log changes its base")
E1 = "Gnucap.Expr."
c("C38", "partial", [E1+"parse_text", E1+"parse_all", E1+"parse_three", E1+"parse_shape", E1+"text_unique", E1+"rpn_injective", E1+"blank_sign_wrong", E1+"backslash_operator_wrong", E1+"operator_eats_comma", E1+"angle_eats_comma"],
  "every text of the grammar (names, numbers, strings, calls, arrays, signs, all binary operators, conditionals, blanks between tokens), every text after it that does not go on; whatever is accepted is the postfix form of one tree. Not covered: <angle> symbols, names with [index]. False: a blank before + or !, a backslash is an operator, commas are eaten after operators and after <a>")
c("C39", "partial", [E1+"dump_disp", E1+"dump_parse_partial", E1+"dump_tern_wrong"],
  "every tree of the grammar without a conditional as operand: the dump is read back as the same tokens. False otherwise: (x?1:2)+3 is printed as a text that means x?1:(2+3)")
c("C40", "partial", [E1+"reduce_value", E1+"reduce_complete", E1+"reduce_completion_partial", E1+"reduce_twice_partial", E1+"reduce_rpn", E1+"den_fun", E1+"redN_succ", E1+"unary_residual", E1+"self_reference", E1+"unary_copy_wrong", E1+"regroup_overflow_wrong", E1+"swap_class_wrong", E1+"typed_partial_wrong", E1+"string_parameter_wrong", E1+"unknown_operator_wrong", E1+"abs_string_wrong"],
  "fully known: for every expression and scope (no parameter of type string) a constant comes out exactly if the expression has that value. Partly known: the result has the value of the text in every completion, provided no sign is left in it, not in Verilog mode, and parameters with a type are known. False without these: -x loses its sign, 7/(2+x) changes from 7/3 to 2, an Integer parameter becomes its unconverted text; regrouping can overflow. Exact arithmetic")
c("C56", "proved", [E1+"parse_total", E1+"parse_fuel", E1+"parse_progress"],
  "every text, both modes; memory and the depth of the C++ stack are not modelled")
A1 = "Gnucap.Param."
c("C42", "partial", [A1+"deepLookup_spec", A1+"deepLookup_none", A1+"setParam_lookup", A1+"setText_plain", A1+"eVal_text", A1+"eVal_fixed", A1+"eVal_default", A1+"eVal_unknown", A1+"eVal_counter", A1+"eVal_more", A1+"after_good_partial", A1+"failures_break_next", A1+"circle_no_result", A1+"circle_no_value", A1+"evalCopy_find", A1+"evalCopy_arg", A1+"evalCopy_den", A1+"evalCopy_not_given", A1+"recursion_leak_wrong", A1+"nested_default_wrong", A1+"outer_text_sees_inner", A1+"string_argument_lost", A1+"argument_class_lost", A1+"case_switch_wrong"],
  "lookup, setting, evaluating, copying: every chain of lists, every text, every history of evaluations that do not throw; circles never get a value. False: 20 failed evaluations make the next one fail, whatever it is; a text that names a parameter without value gives NA instead of the default; a string argument without a type is dropped. Printing a fixed value as text is a parameter of the model")
F = "Gnucap.Fft."
c("C53", "proved", [F+"fft_correct", F+"fft_there_and_back", F+"fft_returns_iff", F+"fft_three_hangs"],
  "every power of two and every input, against the defining sum; nothing behind the array is written; for every other length the call hangs (the only caller rounds up to a power of two, points_spec). Exact complex arithmetic")
SW = "Gnucap.Switch."
c("C54", "proved", [SW+"transient_state", SW+"transient_state_vt_vh", SW+"thresholds_given", SW+"dc_state", SW+"static_converged", SW+"conductance_matches", SW+"change_is_loaded", SW+"decided_run", SW+"crossing_announced", SW+"no_crossing_future", SW+"accepted_crossing", SW+"rejected_refines", SW+"threshold_differs", SW+"negative_hysteresis_wrong"],
  "The state is decided by the newest input, among those at the end of each finished step, outside the band, for every sequence of calls, thrown away steps included; the conductance is always the one of the state and a change reaches the load queue; a step that crosses a threshold announces the crossing of the straight line, and with the step control it is accepted only if the crossing is at most four minimum steps before its end. The thresholds themselves decide in transient analysis but not in DC, and a negative hysteresis makes the steps collapse (both proved).")
c("C57", "proved", [F+"fourier_correct", F+"relative_correct", F+"points_spec", F+"stepnum_nearest", F+"half_sampling_wrong"],
  "every fstep > 0, fstart, fstop >= 0 and every wave whose harmonics do not exceed fstop, given exact samples at the strobe times; when fstop is not a multiple of fstep a line above fstop can be printed, at half the sampling frequency with twice its amplitude (half_sampling_wrong). Exact arithmetic")
RF = "Gnucap.Ref."
PB = "Gnucap.Probe."
c("C49", "partial", [PB+"step_ok", PB+"run_ok", PB+"gone_no_probe", PB+"assign_self_wrong", RF+"step_ok", RF+"run_ok", RF+"no_leak", RF+"sweep_roundtrip", RF+"sweepSteps_id", RF+"addTo_ok", RF+"assignAttr_partial", RF+"assign_shared_wrong", RF+"assign_self_wrong", RF+"sweep_twice_wrong", RF+"expand_leaks", RF+"own_part_undefined"],
  "Probes: every sequence of adding, removing, clearing, destroying and making objects keeps the counts exact, and no destroyed object is touched. Shared data: every sequence of the counting operations used as intended. False as a whole, each with a witness: a probe or an attribute list assigned to itself, an attribute list assigned over one that is shared (the assertion fails), an element swept twice in a nested DC sweep, and the clone that COMPONENT::expand leaks")
EL = "Gnucap.Elem."
c("C58", "proved", [EL+"dev_tr", EL+"dev_ac", EL+"card_tr", EL+"card_ac", EL+"tr_writes_inside", EL+"ac_writes_inside", EL+"stamp_elsewhere", EL+"circuit_iteration_solves"],
  "21 kinds of elements, nested subcircuits and logic gates; the places each one asks for and loads are transcribed per device (ElemModel). Semiconductor models written by modelgen are not covered")
c("C59", "proved", [EL+"ac_loaded", EL+"acSolve_solves"],
  "every field, so the complex numbers too; a pivot that is exactly zero is replaced by the minimum pivot, which is the term e. Exact arithmetic; the values the devices load are inputs")
c("C60", "partial", [EL+"portImpedance_spec", EL+"ac_port_impedance", EL+"solves_unique", EL+"z_parallel_own", EL+"vccs_impedance_wrong"],
  "proved whenever the admittance handed over really lies between the two probed nodes and the minors of the matrix are not zero; with admittance 0 this is Zraw and Z(node); what is handed over is what an element with its conductance across its output loaded (z_parallel_own). False for controlled sources: their gain is taken for an admittance across the output (vccs_impedance_wrong)")
CO = "Gnucap.Coil."
c("C61", "partial", [CO+"rel_step", CO+"rel_run", CO+"mutual_refines", CO+"winding_line", CO+"coil_row", CO+"coil_terminal_row", CO+"mutual_row", CO+"coupled_coil_equation", CO+"coupled_ac", CO+"bypass_keeps_old_flux"],
  "proved for every legal sequence of calls in which the coupling is evaluated at the accepted currents, whatever a previous run left in its histories; false when the evaluation is bypassed: the bypass looks only at the difference of the two currents, so if both move alike after the second iteration of a step the flux kept for the next step is an old one (bypass_keeps_old_flux). The mutual inductance of each evaluation is an input; exact arithmetic")
TG = "Gnucap.Tangent."
c("C62", "partial", [TG+"plain_begin", TG+"res_line", TG+"res_slope", TG+"adm_line", TG+"vcvs_line", TG+"vs_line", TG+"cs_line", TG+"cccs_line", TG+"ccvs_line", TG+"vcg_line", TG+"vcr_line", TG+"damped_line", TG+"loads_kinds", TG+"element_row", TG+"newton_tangent", TG+"probed_line", TG+"plain_sweep", TG+"cccs_sweep", TG+"ccvs_sweep_partial", TG+"cccs_ac", TG+"ccvs_ac", TG+"cccs_ac_gain", TG+"ccvs_ac_without_op", TG+"ccvs_sweep_stale", TG+"ccvs_inode_collapses", TG+"cccs_inode_sweep_stale"],
  "the tangents hold for all ten classes; the sweep for resistor, admittance, VCCS, VCVS, V, I, and for a CCCS not sensing a coupled coil. False: a plain CCVS keeps the gain it had before the sweep (ccvs_sweep_stale), loses its gain by -1/shortckt per iteration if it senses a coupled coil (ccvs_inode_collapses), and has no gain in AC without an operating point (ccvs_ac_without_op); a plain CCCS sensing a coupled coil keeps its old gain (cccs_inode_sweep_stale). newton_tangent asks that the function leaves its input in place, which it does not with ioffset (C63). Voltage limiting and rounding are not modelled")
BH = "Gnucap.Behav."
c("C63", "partial", [BH+"poly_sum", BH+"poly_report", BH+"lim_value", BH+"lim_report", BH+"posy_report", BH+"posy_eval_report", BH+"tanh_report", BH+"tanh_cut", BH+"modified_report", BH+"modified_tangent", BH+"ioffset_line", BH+"ioffset_lost", BH+"fit_ignores_ioffset", BH+"source_value", BH+"source_tdv", BH+"current_source_tdv", BH+"admittance_tdv", BH+"ac_drift", BH+"ac_slope", BH+"exp_value", BH+"exp_before", BH+"exp_hangs", BH+"exp_continuous", BH+"sffm_range", BH+"ac_final", BH+"ac_final_no_bandwidth", BH+"ac_bandwidth_drops_imaginary", BH+"ac_long_delay", BH+"poly_without_coefficients", BH+"posy_constant_at_zero", BH+"posy_slope_at_zero"],
  "value and slope are proved for POLY and TANH everywhere but at the corners of abs, min, max, for POSY away from 0, with all modifiers; the tangent in the circuit holds without ioffset. False: with ioffset the line is displaced by slope times ioffset (ioffset_line), so that it does nothing on a linear function (ioffset_lost), AC drifts by one ioffset per frequency (ac_drift), and FIT and TABLE do not look at it; V and I sources drop ooffset (source_value, source_tdv, current_source_tdv); POSY at 0 takes a constant term for 1 and has no slope; POLY without coefficients reads out of bounds; EXP with period 0 never ends; bandwidth drops the imaginary part of a complex gain. Exact arithmetic")
CD = "Gnucap.Cond."
c("C64", "partial", [CD+"rules_spec", CD+"read_given", CD+"selection", CD+"all_served", CD+"spice_source", CD+"single_element", CD+"single_source", CD+"print_parse_partial", CD+"plain_value_lost", CD+"gate_in_source"],
  "the selection holds for all lists of behavioural functions; reading back holds unless it is a source with a plain number beside a DC value (plain_value_lost). A logic gate as the function of a source is undefined behaviour (gate_in_source). Clauses are given as keyword and function, scanning of the text is not modelled here")
SB = "Gnucap.Subckt."
c("C65", "partial", [SB+"elaborate_flat", SB+"elaborate_rows", SB+"elaborate_depth", SB+"elaborate_cyclic", SB+"elaborate_ok", SB+"rinit_first", SB+"rinit_again_partial", SB+"header_skip", SB+"skip_overrun", SB+"skip_joins", SB+"skipped_port_shorts", SB+"skipped_port_overrun", SB+"again_collides", SB+"model_node_name", SB+"again_coil"],
  "the first expansion is the flat circuit for all circuits whose headers name at most 100 ports, all different and none ground. A header ending in ground or a repeated port counts the refused port: the first node inside is tied to the instance's next terminal, or the table is overrun (header_skip, skip_joins, skip_overrun). Expanding again gives the same numbers when the circuit's own devices with internal nodes come before the instances; otherwise numbers collide (again_collides), and a coupled coil leaves a dead unknown (again_coil). Definitions are all at the top level; parameters and the text of lines are not modelled here")
NM = "Gnucap.Names."
c("C66", "partial", [NM+"addBranches_spec", NM+"one_dot", NM+"printed_name_probed", NM+"findBranch_spec", NM+"modify_plain", NM+"inner_nodes_lost", NM+"delete_printed", NM+"delete_pattern", NM+"delete_not_in_devices", NM+"delete_safe_partial", NM+"mixed_order_found", NM+"found_twice", NM+"printed_name_not_found", NM+"modify_only_first_instance", NM+"modify_too_deep", NM+"definition_found", NM+"delete_in_model_crashes"],
  "what probes find is characterised for all names: the pieces taken from either end at each level, which for one dot is the two orders, for more also mixtures (mixed_order_found), and a part can be found twice (found_twice). Printed names are found by probes, and by delete at the outermost level. list, modify, fault and dc take the outermost name last only, so printed names of inner parts are not found (printed_name_not_found); the first place is found (findBranch_spec), all places only for names without dots (modify_plain): with dots the search goes on in the inner list (modify_only_first_instance, modify_too_deep). Definitions are searched too (definition_found). Nodes inside instances cannot be found (inner_nodes_lost). delete with a model as container uses a null pointer (delete_in_model_crashes)")
ST = "Gnucap.Stor."
c("C67", "partial", [ST+"euler_balance", ST+"trap_balance", ST+"gear_balance", ST+"capacitor_euler", ST+"capacitor_trap", ST+"capacitor_ac", ST+"step_charge", ST+"cap_line", ST+"ind_line", ST+"inductor_step", ST+"static_line", ST+"dc_flat", ST+"loaded_follows", ST+"rate_tangent", ST+"value_report", ST+"vccap_charge", ST+"vccap_probe_off", ST+"vccap_function_lost", ST+"vccap_ac_at_output", ST+"tcap_function_lost"],
  "charge and flux balance are exact for Euler and the trapezoidal rule for all runs; for Gear with equal steps up to half the difference of the last and first change (gear_balance). The line of the inductor without a current node passes through the rate when its current is that of the last evaluation (inductor_step). A transcapacitor with a function carries nothing in a transient (tcap_function_lost); VCCAP with a function has the output offset for its capacitance (vccap_function_lost), in AC evaluates it at the wrong voltage (vccap_ac_at_output), and always shows a current other than the one loaded (vccap_probe_off). Continuing a transient and the bypass of evaluation are not covered")
TL = "Gnucap.Tline."
c("C68", "partial", [TL+"wave_out", TL+"characteristics", TL+"launch_close", TL+"matched", TL+"load_full", TL+"load_incremental", TL+"not_queued", TL+"acLength_spec", TL+"angle_ok", TL+"angle_close", TL+"ac_telegraph", TL+"ac_load_rows", TL+"ac_lossless", TL+"ac_matched", TL+"from_lc", TL+"from_frequency", TL+"wave_out_throws", TL+"first_step_at_delay", TL+"long_step_asymmetric", TL+"static_open_end", TL+"no_delay_throws"],
  "characteristics needs every step to be no longer than the line (which is what the line asks for in tr_review) and the first step not to be exactly the delay; the others show what happens else: an exception (first_step_at_delay, no_delay_throws), a wave that depends on the one just sent (long_step_asymmetric). In a static analysis the two ends are not connected (static_open_end), unlike AC at low frequency. The port voltages are free inputs; the currents are those of the line as loaded (load_full, load_incremental). Exact arithmetic; the noise filter dn_diff is in launch.")
DI = "Gnucap.Diode."
c("C69", "partial", [DI+"reverse_exact", DI+"forward_tangent", DI+"forward_next", DI+"forward_fixed", DI+"held_converges", DI+"held_slope", DI+"parallel_wrong", DI+"parallel_stops", DI+"low_exact", DI+"high_exact", DI+"spice_exact", DI+"limited_exact", DI+"law_strictMono", DI+"limit_short", DI+"limit_never", DI+"no_breakdown", DI+"no_breakdown_usual", DI+"satCurrent_nominal", DI+"satCurrent_mono", DI+"junction_smooth", DI+"junction_pos_mono", DI+"charge_close", DI+"cap_charge", DI+"charge_drifts"],
  "Proved as stated for the usual model without parallel conductance (flags 0010, 0040, 0100, 0400 off), iteration included (held_converges, held_slope). False otherwise: with a parallel conductance iteration rests at too small a forward current (parallel_wrong, parallel_stops); mosfet junctions and flag 0040 are limited with the last current taken for the last voltage and hand back too little for ever (limit_short, limit_never), below the critical voltage they are exact (limited_exact); bv has no effect (no_breakdown, no_breakdown_usual); charge is not conserved over a closed run (charge_drifts), the error is bounded (charge_close, without transit time and sidewall). Iteration is at a held voltage, not with the circuit around it. Real arithmetic.")
MO = "Gnucap.Mos."
c("C70", "partial", [MO+"eval_eq", MO+"eval_slopes", MO+"vth_nominal", MO+"eval_passive", MO+"vgs_reaches", MO+"vds_reaches", MO+"settled_fixed", MO+"settles", MO+"settled_flow", MO+"F_swap", MO+"F_mirror", MO+"device_tangent", MO+"eval_von", MO+"device_current", MO+"bulk_forward", MO+"body_slope_wrong", MO+"sub_n", MO+"sub_p", MO+"sub_p_witness", MO+"sub_7", MO+"into_sum", MO+"probe_dsg", MO+"probe_bulk_wrong"],
  "settles is for any equations whose threshold is a function of the bulk voltage (level 1: eval_von). device_current and device_tangent need the bulk not forward biased at either end, or at the one that works as source; else more flows than is reported (bulk_forward). The substrate current is right for n channel devices of level 8 (sub_n), wrong for p channel (sub_p, sub_p_witness) and level 7 (sub_7). The bulk current reported has the junctions with the wrong sign (probe_bulk_wrong). Equations of levels 2 to 8 are free inputs of the device; series resistors, junctions (C69), charges and the bypass tr_needs_eval are left out. Real arithmetic.")
BJ = "Gnucap.Bjt."
c("C71", "partial", [BJ+"half_on", BJ+"half_off", BJ+"charge_slopes", BJ+"slopes", BJ+"pnj_reaches", BJ+"settles", BJ+"rest_flow", BJ+"mirror", BJ+"terminals", BJ+"forward_gain", BJ+"reverse_gain", BJ+"cce_slope_wrong", BJ+"spec_passive", BJ+"delivers", BJ+"never_bypassed", BJ+"tdp_nominal", BJ+"tdp_is_mono", BJ+"tdp_steps", BJ+"tdp_pot", BJ+"tdp_pot_steps", BJ+"depletion_slope", BJ+"substrate_slope", BJ+"transit_slopes", BJ+"transit_exact", BJ+"itf_wrong", BJ+"chargeBE_slopes", BJ+"transit_neg", BJ+"chargeBC_slopes", BJ+"fpoly_flow", BJ+"fpoly_line", BJ+"fpoly_static"],
  "The collector current has the base-collector current subtracted twice (terminals): right at vbc = 0 (forward_gain), reverse gain is br+1 (reverse_gain), the slope lacks gmu (cce_slope_wrong), a device can deliver power (delivers) although as specified it cannot (spec_passive). Slopes of currents hold above -5vt; below, half_off. Capacitance is the slope of the transit charge unless itf and xtf are given (itf_wrong). Saturation current, gain and leakage at a temperature do not depend on where they were measured (tdp_steps), junction potentials do (tdp_pot_steps). pnj_reaches needs vt <= vcrit. Base resistance, initial conditions and the initial guess are left out. Real arithmetic.")
ME = "Gnucap.Meyer."
c("C72", "partial", [ME+"ddif_pos", ME+"bounds", ME+"bias_ok", ME+"ends", ME+"terminals", ME+"meyer_eq", ME+"meyer_continuous", ME+"cgb_continuous", ME+"reversal", ME+"charges_const", ME+"charges_linear", ME+"reversal_jumps", ME+"reversal_bulk", ME+"onset_jumps", ME+"threshold_jumps", ME+"charge_lost"],
  "Bounds, Meyer's formulas, continuity above threshold and of the bulk capacitance, no jump on reversal from a tenth of a volt above threshold on with cmodel 3. Violated: exchanged on reversal closer to threshold (reversal_jumps) or with cmodel 1 and bulk bias (reversal_bulk), source part jumps at -phi/2 (onset_jumps) and at threshold (threshold_jumps), charge not conserved over a cycle (charge_lost). vdsat is that of level 1 in bias only, elsewhere any. Exact arithmetic.")
FA = "Gnucap.Fault."
c("C73", "partial", [FA+"unfault_restores", FA+"faults_leave_nothing", FA+"run_sees_faults", FA+"run_spec", FA+"sweep_leaves_nothing", FA+"sweep_values", FA+"sweep_covers", FA+"sweep_log", FA+"sweep_log_zero", FA+"faultLine_partial", FA+"faultLine_long", FA+"instance_fault", FA+"deleted_fault", FA+"not_an_element"],
  "Holds for elements of the circuit and of definitions that are not deleted. Violated for parts of instances: the next analysis makes them anew, so the change is lost and unfault writes to freed memory (instance_fault), for elements deleted meanwhile (deleted_fault), and for cards that are not elements (not_an_element). The words of the sweep command before the arguments must not take more than 35 characters (faultLine_partial, faultLine_long). Instances within instances, the temporary file and printing are left out. Exact arithmetic.")
SPI = "Gnucap.Spice."
c("C74", "partial", [SPI+"count_pairs", SPI+"count_end", SPI+"count_bracket", SPI+"count_paren", SPI+"count_guess", SPI+"count_ends", SPI+"count_inside", SPI+"list_read", SPI+"quoted_pairs", SPI+"quoted_escape", SPI+"braces_read", SPI+"semicolon_hangs", SPI+"expression_split", SPI+"sysparam_kept", SPI+"sysparam_renamed", SPI+"module_params_lost"],
  "Nodes are counted as written and listings read back (list_read) when names and values can stand on a line as they are: no blanks, brackets, quotes in front or ends of words, a node is no reserved word, a label does not begin with a point or *>. Violated: a comment behind a semicolon makes the count loop for ever (semicolon_hangs; without a semicolon it ends, count_ends); an expression with blanks loses its braces when listed and is split when read (expression_split); four of the eight system parameters change their name when listed (sysparam_kept, sysparam_renamed); parameters of a subcircuit are not listed (module_params_lost). An unnamed value behind the type is taken for a node as long as there is room (count_guess). Devices that read the rest of the line themselves are left out.")
OPT = "Gnucap.Opt."
c("C75", "partial", [OPT+"name_selects", OPT+"no_name_clears", OPT+"loop_ends", OPT+"settled_kept", OPT+"initial_settled", OPT+"print_inside", OPT+"print_read_partial", OPT+"limits_lost", OPT+"zero_flags_lost", OPT+"comment_read", OPT+"comment_sets", OPT+"slash_end_ub", OPT+"flag_value", OPT+"toInt_cuts", OPT+"int_value", OPT+"lang_value"],
  "Flags, integers and the language get the value that is written (flag_value, int_value, lang_value; integers are cut off towards zero). Names, end, invariant and printing inside the tables are proved for all texts and states. The round trip (print_read_partial) gives back all listed options, for any form of numbers that reads as the value, when a language with a plain name is set. Violated: iteration limits are printed as itl@1=, which is not understood (limits_lost); flags of diodes and mosfets are printed only if not 0, so they are not cleared (zero_flags_lost; the same for mosfets is in print_read_partial); a comment behind a semicolon is taken for options after its first word (comment_read, comment_sets); // at the end of the line is read over (slash_end_ub). Language none is printed but names no language.")
XPR = "Gnucap.XProbe."
c("C76", "partial", [XPR+"name_reads", XPR+"node_volts", XPR+"denoise_near", XPR+"denoise_noise", XPR+"power_split", XPR+"sub_power_partial", XPR+"sub_power_wrong", XPR+"switch_reads_current", XPR+"switch_blind", XPR+"node_reads_partial", XPR+"count_runs_on", XPR+"ac_reads", XPR+"ac_polar", XPR+"phase_range", XPR+"db_back", XPR+"power_db", XPR+"power_db_lost", XPR+"r_is_inverse"],
  "Names, pins, rounding, power and the AC readings are proved for all names, states and values in exact arithmetic. Violated where case matters: a subcircuit asks its parts for P, PD and PS, which they do not know, and reads NOT_VALID per part (sub_power_wrong; sub_power_partial is for case insensitive mode); a current controlled switch asks for I, so it never turns on, whatever the current (switch_blind; switch_reads_current is for case insensitive mode). Reading count of a node never ends (count_runs_on; node_reads_partial is all other logic names). Power in dB is that of the real part, so all sourced power reads -500 (power_db_lost). What storage devices, meters and subcircuits return behind their names is not modelled, except the power.")
VLG = "Gnucap.Vlog."
c("C77", "partial", [VLG+"attrs_read", VLG+"attrs_groups", VLG+"id_read", VLG+"params_read", VLG+"ports_read", VLG+"list_read", VLG+"type_found_partial", VLG+"type_star", VLG+"digit_name_changed", VLG+"escape_dropped", VLG+"escape_unended", VLG+"ordered_read", VLG+"underscore_lost", VLG+"header_read", VLG+"module_ports_partial", VLG+"module_overrun", VLG+"paramset_read_partial", VLG+"paramset_cut"],
  "Instances and headers that are listed are read again exactly (list_read, header_read), with attributes of any text, escaped names and nested parentheses; several groups of attributes are one list with commas (attrs_groups); ports by order are read in order (ordered_read). Violated: attributes with an asterisk make the dispatcher see another type (type_star; type_found_partial is for those without); a name that begins with a digit and has more than digits and letters comes back with a backslash (digit_name_changed), one of digits and letters kept with a backslash loses it (escape_dropped); an escaped name that no blank ends leads the scanner behind the end of the text (escape_unended); a node whose name begins with an underscore ends the nodes by order (underscore_lost); more than a hundred ports by name in a header are written outside of the table (module_overrun; module_ports_partial is for up to a hundred); a value of a paramset with a parenthesis, brace or equal sign is cut there and all that follows is lost (paramset_cut; paramset_read_partial is for values of one word). Not covered: parameters by order read back, the body of a module, devices that list through the obsolete callback, ports left open.")
SPE = "Gnucap.Spectre."
c("C78", "partial", [SPE+"scan_finds", SPE+"args_end", SPE+"list_read", SPE+"ports_bounds", SPE+"type_found_partial", SPE+"type_bracket", SPE+"bare_read", SPE+"bare_lost", SPE+"bare_hangs", SPE+"head_read", SPE+"refused_stays", SPE+"bare_ports_lost", SPE+"model_read", SPE+"paren_cut", SPE+"blank_cut", SPE+"underscore_type", SPE+"search_ends", SPE+"label_full"],
  "Instances, headers and models that are listed are read again exactly (list_read, head_read, model_read); parameters of any text end and nothing is left (args_end); the number of nodes keeps its bounds whatever the line (ports_bounds); the search for the type ends in any text (search_ends); no label is empty (label_full); nodes without parentheses are read if a parameter follows (bare_read). Violated: without a parameter the first node is taken for the type (bare_lost); an unmatched closing sign in a line with nodes not in parentheses loops for ever (bare_hangs); a label with a bracket and no parameters makes the dispatcher see another type (type_bracket; type_found_partial is for labels skipped as a whole); a last port that is refused stays (refused_stays); ports of a subcircuit without parentheses are lost silently (bare_ports_lost); a value that begins with a parenthesis or has blanks is cut and its rest set as another parameter (paren_cut, blank_cut); a node that begins with an underscore ends the nodes and is the type (underscore_type). Not covered: bodies of subcircuits, commands with a label, which parameters a device takes.")
OUT = "Gnucap.Out."
c("C79", "partial", [OUT+"column_kept", OUT+"laid_out", OUT+"width_kept", OUT+"fits_unbroken", OUT+"short_unbroken", OUT+"tab_reaches", OUT+"at_lost", OUT+"pack_other", OUT+"broken_read", OUT+"words_read", OUT+"long_split", OUT+"handle_known", OUT+"handle_new", OUT+"handle_full", OUT+"table_kept", OUT+"redirected", OUT+"closed_written", OUT+"redirected_nowhere", OUT+"argument_stays", OUT+"kept", OUT+"next_command", OUT+"files_closed_partial", OUT+"closed_twice"],
  "For all sequences of output operations: columns (column_kept), nothing lost and nothing added but line breaks (laid_out), the width (width_kept), no needless breaks (fits_unbroken, short_unbroken), tabulators (tab_reaches), words of broken lines read again (broken_read, words_read), the table of files (handle_known, handle_new, table_kept), redirection to one file (redirected), the other words of a command (kept), what is left after it (next_command), no break between `=` or `(` and a short argument (argument_stays), files closed once and none left open if every one can be opened (files_closed_partial). column_kept and laid_out are without `pack` and for characters other than tab, backspace and return; laid_out is without tabulators and counts a `@` at the end of a text as a mark that is not shown. Violated: a text with `@` at its end loses it (at_lost); with `pack` a blank is left out because of a blank written to another file (pack_other); a line longer than the buffer of the reader but within the width is read as two (long_split); places in the table are never given back, so the 32nd file gets none (handle_full) and output redirected to it is lost without a word (redirected_nowhere); with two redirections output goes to the file closed (closed_written), and if the second can not be opened the first is closed twice (closed_twice). Not covered: flushing, the C library, numbers (C46), cipher.")
TAB = "Gnucap.Table."
c("C80", "partial", [TAB+"digits_range", TAB+"same_columns", TAB+"row_read", TAB+"row_line", TAB+"row_broken", "Gnucap.Num.ftos_width", "Gnucap.Num.ftos_visible", TAB+"run_together", TAB+"long_shifts", TAB+"label_overflows"],
  "For 4 to 20 digits, in exact arithmetic: every number fills its column exactly and ends with a blank (ftos_width), is made of printable characters (ftos_visible), stands below its label if no label is wider than the column (same_columns), and is read again with a relative error of at most half a unit in the last but one of the digits asked for, zero below 1e-99, values up to BIGBIG (row_read); rows that fit are one line (row_line), others, broken anywhere, have the same words when read again if the width is within the buffer of the reader (row_broken). Violated: with 3 digits, the least allowed, neighbours run together (run_together); a label wider than its column shifts all headings behind it (long_shifts); a label of 4095 characters is written behind the end of a buffer (label_overflows). Not covered: rounding in the conversion, infinity and NaN, the heading when it is broken.")
PLT = "Gnucap.Plot."
c("C81", "partial", [PLT+"scale_range", PLT+"ticks_at", PLT+"grid", PLT+"narrow_outside", PLT+"point_range", PLT+"point_near", PLT+"point_mono", PLT+"point_beyond_partial", PLT+"point_far", PLT+"point_tick", PLT+"drawn", PLT+"read_off", PLT+"not_drawn", PLT+"third_lost", PLT+"cut_wrong", PLT+"labels_apart", PLT+"labels_centred", PLT+"scale_line", PLT+"scale_broken"],
  "In exact arithmetic, for widths from 10 to 2^31-1: arrays never left (scale_range, grid), marks exactly at the divisions (ticks_at), points nearest, in order, at the ends beyond the limits (point_near, point_mono, point_beyond_partial), values at marks on the marks (point_tick), lines as they should be and shorter than the width (drawn), values read off to half a column (read_off), numbers apart, over their marks, in one line with a short label (labels_apart, labels_centred, scale_line). Violated: a width below 10 (or above 2^31-1) writes before the arrays (narrow_outside); a value too far beyond the limits is converted to an integer that can not hold it (point_far); the first column and the numbers are cut to 8 characters, which loses exponents and makes mega milli (cut_wrong); a label longer than the first column breaks the line of the scale (scale_broken); a third probe has a scale but is not drawn (third_lost). Not covered: rounding of the steps between marks (with a very large number of divisions the loop does not end), infinity and NaN, opening and closing of plots, log scales (not used).")
CMDN = "Gnucap.Cmd."
c("C82", "partial", [CMDN+"short_runs", CMDN+"short_unique", CMDN+"long_runs", CMDN+"find_booted", CMDN+"name_runs", CMDN+"unknown", CMDN+"mark_runs", CMDN+"comment_partial", CMDN+"indented_comment_wrong", CMDN+"indented_taken", CMDN+"hidden_name"],
  "Every word that is the beginning of one of the 14 names with short forms, long enough, runs that command (short_runs), and is short for one command only (short_unique); every other word is looked up as it is (long_runs); all 119 names installed at the start are found and no others (find_booted), and each runs its own command in any case (name_runs, except the marks, for which mark_runs); words that are neither run nothing (unknown); comments at the beginning of the line run nothing (comment_partial). Violated: behind blanks only the first mark of a comment is seen, so that an indented comment is taken for a command and one in quotes is run (indented_comment_wrong, indented_taken). A command installed under a short name is not run by it (hidden_name; the code says so). Not covered: what the commands do, commands of languages other than the default, the order of the lookup when plugins replace commands (C48).")
MULTN = "Gnucap.Mult."
c("C83", "partial", [MULTN+"first_product", MULTN+"runs_product_partial", MULTN+"stale_inside", MULTN+"sweep_keeps", MULTN+"stale_witness", MULTN+"copies_load", MULTN+"copies_solve", MULTN+"order_element", MULTN+"order_device", MULTN+"order_common", MULTN+"order_base", MULTN+"order_never", MULTN+"mfactor_name", MULTN+"m_name", MULTN+"m_subckt", MULTN+"sys_index"],
  "After the first analysis every component has the product of the factors on its path (first_product), and after any sequence of analyses the product with the last parameters if all that contain it are subcircuits or logic devices (runs_product_partial). n equal elements load what one with n times the factor does (copies_load), and a subcircuit of multiplicity k has the solutions of k copies in parallel, symmetric ones (copies_solve). Violated: the elements inside a device made by modelgen keep the factor of the first analysis (stale_inside, stale_witness; with assertions on, e_compon.h:199 stops the program), a sweep does not change factors (sweep_keeps); Verilog arguments by order to anything but a plain element start with $mfactor or are refused (order_device, order_common, order_base, order_never; order_element for plain elements); m= on a subcircuit never sets the multiplicity (m_subckt; mfactor_name and m_name for the others). Not covered: solutions of the copies that are not symmetric, probes (C60, C76), rounding.")
PRBN = "Gnucap.PrbCmd."
c("C84", "partial", [PRBN+"probe_line", PRBN+"add_item", PRBN+"remove_item", PRBN+"loop_items", PRBN+"kind_named", PRBN+"kind_none", PRBN+"short_unique", PRBN+"clear_one", PRBN+"clear_all", PRBN+"system_item", PRBN+"nodes_item", PRBN+"loop_ends", PRBN+"loop_adds", PRBN+"loop_removes", PRBN+"others_kept", PRBN+"printed_name_removes", PRBN+"part_removed", PRBN+"system_removed", PRBN+"sticky_endless", PRBN+"line_endless", PRBN+"zero_name_wrong", PRBN+"missing_name_stops", PRBN+"missing_name_probes", PRBN+"remove_list_wrong", PRBN+"inner_nodes_alike", PRBN+"comment_ub"],
  "A line of items gives the list it describes, signs carrying over to the items behind (probe_line, by loop_items, add_item, remove_item); v(nodes) and x(0) (nodes_item, system_item); the analysis by name or short name (kind_named, kind_none, short_unique); clear (clear_one, clear_all); other lists stay (others_kept); without a minus nothing is lost and without additions nothing is gained, for every text (loop_adds, loop_removes); the printed name takes a probe off (printed_name_removes): for parts the names on the way with dots between, for the system 0 (part_removed, system_removed). Every text without =, [ and ] comes to an end (loop_ends). Violated: at =, [ or ] the loop never ends (sticky_endless, line_endless); names that begin with 0 are taken as 0 (zero_name_wrong); a name that is not in the circuit ends its list, and what is left is read as an item (missing_name_stops, missing_name_probes); a minus with a list takes off only the first (remove_list_wrong); inner nodes of two instances have one printed name (inner_nodes_alike); a comment inside limits moves the cursor behind the end (comment_ub). Not covered: listings and messages, names found with wildcards are those of C66.")
GENN = "Gnucap.Gen."
c("C85", "partial", [GENN+"before", GENN+"first_rise", GENN+"shape", GENN+"shape_on", GENN+"periodic", GENN+"bounded", GENN+"continuous_wave", GENN+"no_number", GENN+"on_drops", GENN+"long_rise", GENN+"command_line", GENN+"command_ends", GENN+"loop_nonneg", GENN+"command_ok", GENN+"initial_nonneg", GENN+"unknown_stops"],
  "In exact arithmetic: the value before the delay (before), the first rise (first_rise; the period is longer than the rise), the pulse in every period by a formula of its own (shape, shape_on), periods (periodic), limits (bounded), continuity if the pulse has a rise, a fall and a width and fits into the period (continuous_wave). The command: names and short names (command_line), words not known (unknown_stops), its end (command_ends), times never negative after any commands (command_ok, loop_nonneg, initial_nonneg). Violated: without a rise time 0 is divided by 0 at the beginning of every period but the first, and only there (no_number); without a width the periodic pulse falls at once (on_drops); with a rise longer than the period the first rise falls back to the initial value and the maximum is never reached (long_rise). Not covered: corners are not announced to the time step control (c_genrat.cc:25 says so), rounding, the listing.")
FIND = "Gnucap.Find."
c("C86", "partial", [FIND+"looking_out", FIND+"looking_out_none", FIND+"instance_of", FIND+"instance_unknown", FIND+"lexical_partial", FIND+"captured", FIND+"reading_skips", FIND+"reading_skips_witness", FIND+"bins_end", FIND+"offers_unique", FIND+"model_found", FIND+"model_mismatch", FIND+"model_none", FIND+"no_bins", FIND+"model_lexical_partial", FIND+"model_captured", FIND+"in_copy", FIND+"device_hides", FIND+"limits_meant", FIND+"mos_bin", FIND+"gap", FIND+"wrong_message"],
  "Subcircuit names: looking_out, looking_out_none, instance_of, instance_unknown. Model names: model_found, model_mismatch, model_none, with what one list offers stated on its own (Offers, offers_unique); the bins end (bins_end), MOS limits with their ends (limits_meant), the lowest fitting bin (mos_bin), a gap in the numbers (gap), the copy an instance has (in_copy). Violated: what a subcircuit sees is what is around its instance: a definition or model of the same name in a subcircuit between captures the name (captured, model_captured); it is as written if none between has the name (lexical_partial, model_lexical_partial). While a definition inside a definition is read, the outer one is not seen (reading_skips, reading_skips_witness). A device of the name, even the one that asks, hides a model behind it (device_hides). No bins match is said only of the root list (no_bins, wrong_message).")
SEMI = "Gnucap.Semi."
c("C87", "partial", [SEMI+"capacitor_value", SEMI+"capacitor_only", SEMI+"resistor_value", SEMI+"resistor_only", SEMI+"resistor_plain", SEMI+"line_value_unused", SEMI+"no_length", SEMI+"nominal", SEMI+"series", SEMI+"capacitor_mono"],
  "Proved in an ordered field: the values (capacitor_value, resistor_value, resistor_plain), that there is one only if something is left (capacitor_only, resistor_only, no_length), the temperature factor at nominal (nominal), strips in series (series), larger capacitors (capacitor_mono). Violated: the value on the line of a capacitor with such a model, or of a resistor whose model has a sheet resistance, is not used (line_value_unused), and without a length it does not help (no_length); Spice 3, with which the file says it is compatible, takes the value. Not covered: what tc1, tc2 and scale on the line of the device add (C63), rounding.")
ANA = "Gnucap.AnaCmd."
TRC = "Gnucap.TranCmd."
FIL = "Gnucap.Files."
SES = "Gnucap.Sess."
PLG = "Gnucap.Plug."
SPW = "Gnucap.SpiceWrap."
c("C88", "partial", [ANA+"options_ends", ANA+"ac_line", ANA+"op_line", ANA+"dc_line", ANA+"free_left", ANA+"ac_step_anywhere", ANA+"ac_decade_text", ANA+"ac_keeps", ANA+"ac_plus_wrong", ANA+"na_cuts", ANA+"dc_captured_wrong", ANA+"dc_unknown_wrong", ANA+"dc_stop_wrong", ANA+"op_temperature_wrong", ANA+"numbers_expression", ANA+"numbers_expressions", ANA+"paren_wrong", ANA+"word_alone", ANA+"dc_again", ANA+"dc_card", ANA+"dc_numbers", ANA+"dc_times"],
  "Proved for all lines made of items (ac_line, op_line, dc_line), with the words listed on their own, independently of the tables; the end of the loop for all texts (options_ends); words the options do not know (free_left); the step of AC on either side (ac_step_anywhere); from the text to the frequencies of a decade sweep (ac_decade_text, with C36); what AC keeps (ac_keeps); expressions in quotes or braces as range of OP and AC (numbers_expression, numbers_expressions); words without their number (word_alone); DC with nothing, with numbers alone, with a step alone, with a card that is no element (dc_again, dc_numbers, dc_times, dc_card). Violated: a parenthesis is taken for an argument but not read (paren_wrong); + behind two numbers of AC is taken for a number without digits (ac_plus_wrong); a text that begins with NA is cut (na_cuts); at a second level of DC an element named like a flag is taken for the flag, its range for steps (dc_captured_wrong); an unknown word behind a level makes four levels with what earlier lines left (dc_unknown_wrong); the stop of DC is read without a look and takes a step word (dc_stop_wrong); the temperature on a line of OP is overwritten by the start of the sweep (op_temperature_wrong). Not covered: flags written with = and a truth value, the redirections outset reads, findbranch.")
M6 = "Gnucap.Mos."
c("C89", "partial", [M6+"level6_current", M6+"level6_slopes", M6+"level6_sigma_wrong", M6+"level6_threshold", M6+"level6_corner", M6+"level6_bulk_wrong", M6+"level6_passive", M6+"level6_turns_down", M6+"level6_device", M6+"level6_nominal", M6+"level6_temp", M6+"level6_temp_wrong", M6+"level1_temp", M6+"vto_process"],
  "Proved: the current at all voltages (level6_current); the slopes along all smooth paths without static feedback, away from threshold (level6_slopes), and at it with a power above 1 (level6_threshold); signs (level6_passive); the device from any state (level6_device); the threshold at the nominal temperature and, for an n channel with the usual gate, at any (level6_nominal, level6_temp); level 1 for both channels (level1_temp); the threshold from the process, that of Spice (vto_process). Violated: sigma is in the slope but not in the threshold (level6_sigma_wrong); with the default power 1 the current has a corner at threshold (level6_corner); with the bulk more than twice phi forward the slope is that of the tangent, the current no longer moves (level6_bulk_wrong); the threshold of a p channel moves against its surface potential with temperature (level6_temp_wrong; also levels 2 and 3, which have the same text); with nv above nc more gate voltage gives less current (level6_turns_down). Real arithmetic.")
c("C90", "partial", [M6+"level3_current", M6+"level3_path", M6+"level3_slopes", M6+"level3_slopes_plain", M6+"level3_theta_wrong", M6+"level3_eta_wrong", M6+"level3_sub_wrong", M6+"level3_onset", M6+"level3_vmax_current", M6+"level3_vmax_slopes", M6+"level3_vmax_wrong", M6+"level3_vdsat_wrong", M6+"level3_nan", M6+"level3_passive", M6+"level3_device", M6+"level3_forward", M6+"level3_forward_slopes", M6+"level3_forward_wrong", M6+"level3_vmax_short"],
  "Proved: without velocity saturation the current at all voltages (level3_current), its slopes with gate and drain voltage along all smooth paths and exactly what that with bulk voltage lacks (level3_path, level3_slopes; all three right without theta: level3_slopes_plain), its sign (level3_passive) and the device from any state without static feedback (level3_device); with velocity saturation the current without shortening and the slopes below saturation (level3_vmax_current, level3_vmax_slopes), and the current and slopes with shortening up to the slope of vdsat (level3_vmax_short); the current with the bulk forward of the source (level3_forward), and the slopes of its threshold (level3_forward_slopes). Violated: with theta the slope with bulk voltage is wrong whenever current flows (level3_theta_wrong); with eta both other slopes are wrong in saturation with shortening (level3_eta_wrong); below threshold in saturation that with gate voltage is (level3_sub_wrong); past the onset of saturation the law itself has unbounded slopes, the transconductance falls below any bound (level3_onset); with vmax and no doping the current is flat in saturation and its slope is not zero (level3_vmax_wrong), and the slope of vdsat is wrong (level3_vdsat_wrong); xj without nsub gives slopes that are not numbers (level3_nan); for a narrow channel with the bulk forward the slope of the threshold is wrong (level3_forward_wrong). Missing: velocity saturation below threshold and with static feedback in saturation. Real arithmetic.")
c("C91", "partial", [M6+"level4_current", M6+"drain_greatest", M6+"level4_slopes", M6+"level4_gds_low", M6+"level4_gds_wrong", M6+"level4_gmb_wrong", M6+"level4_nan", M6+"level4_device"],
  "Proved: the current, threshold and saturation voltage at all voltages (level4_current), the saturated current being the largest on the way (drain_greatest); its slopes with gate and bulk voltage along all smooth paths where they are not negative, and that with drain voltage without weak inversion (level4_slopes); the device from any state without feedback of the drain (level4_device). Violated: with weak inversion the slope with drain voltage is too low whenever it is positive (level4_gds_low), so always below threshold (level4_gds_wrong); a slope that is negative is reported as zero, as that with bulk voltage when k2 outweighs the body effect (level4_gmb_wrong); with vdd left at its default of zero the result at no drain voltage is not a number (level4_nan). Missing: the bulk forward of the source, rest with feedback of the drain, sizes from the process, charges (never used by the device). Real arithmetic.")
c("C92", "partial", [TRC+"tran_line", TRC+"tran_gives", TRC+"tran_session", TRC+"options_ends", TRC+"tran_signed_wrong", TRC+"tran_fifth", TRC+"fourier_line", TRC+"fourier_backwards", TRC+"fourier_times_ignored"],
  "Proved: the line of TRANSIENT from its text (tran_line), with the meanings of C55 (tran_gives), and any number of them (tran_session); the line of FOURIER (fourier_line); the end of reading for all texts (options_ends). Violated: a line of TRANSIENT that begins with a signed number is read as one without numbers (tran_signed_wrong); a fifth number is passed over with a warning (tran_fifth); FOURIER takes a step below zero, to a run that ends before it begins (fourier_backwards); its options start, stop and strobeperiod are read and change nothing (fourier_times_ignored). Missing: arguments that are texts, output files (given from outside). Rational arithmetic.")
c("C93", "partial", [SPW+"spice_device", SPW+"spice_ac", SPW+"spice_states", SPW+"spice_history", SPW+"spice_integrate", SPW+"spice_converged", SPW+"spice_queued", SPW+"spice_skipped", SPW+"spice_real", SPW+"spice_int_partial", SPW+"spice_unload_partial", SPW+"spice_float_wrong", SPW+"spice_float_beyond_wrong", SPW+"spice_joined_wrong", SPW+"spice_setup_changed_wrong", SPW+"spice_pz_wrong", SPW+"spice_unload_wrong", SPW+"spice_gear_wrong", SPW+"spice_int_wrong", SPW+"spice_flag_wrong"],
  "Proved: seating, voltages and loads over any run (spice_device), the same for AC (spice_ac), states over time (spice_states, spice_history), integration at every reachable time (spice_integrate), convergence, queueing and skipping (spice_converged, spice_queued, spice_skipped), parameters (spice_real, spice_int_partial). Violated: floating terminals read and write outside the arrays (spice_float_wrong, spice_float_beyond_wrong); one node of its own joined to another makes two (spice_joined_wrong); nodes that change with a parameter keep their first numbers (spice_setup_changed_wrong); a device with only DEVpzLoad is not loaded in AC (spice_pz_wrong); unloading leaves the right side (spice_unload_wrong, spice_unload_partial); Gear is Euler (spice_gear_wrong); integers of a thousand or more are cut at the K (spice_int_wrong); a flag of 0 is set (spice_flag_wrong). Missing: the Spice devices themselves, damping (C15), initial conditions, sensitivities. Rational arithmetic.")
c("C94", "partial", [FIL+"means_runs", FIL+"file_read", FIL+"in_place", FIL+"mode_kept", FIL+"runs_unique", FIL+"missing_section_wrong", FIL+"include_in_subckt_wrong", FIL+"in_subckt", FIL+"subckt_file_wrong", FIL+"indented_eom_wrong", FIL+"glued_wrong", FIL+"shadow_wrong", FIL+"letter_b_wrong", FIL+"empty_file_wrong", FIL+"endl_of_another_wrong", FIL+"inc_other_wrong", FIL+"clears_anyway", FIL+"double_mark_wrong", FIL+"include_dir_wrong", FIL+"more_warned", FIL+"inc_nested_wrong"],
  "Proved: the reader does what a tree of files means, for every tree (means_runs, file_read), by all the commands that read lines (.include, .lib, .merge, .get, <, .build, .inc, .`include) with the options behind a file; words behind a section are warned of (more_warned); files in place at the top (in_place), one outcome (runs_unique), the run mode kept (mode_kept). Violated: an instance of a file included in a subcircuit has no owner and a command there works on the whole circuit (include_in_subckt_wrong, subckt_file_wrong; in_subckt is the line written there); a section that is not there is no error (missing_section_wrong); the .endl of another section ends this one (endl_of_another_wrong); .eom behind a blank ends nothing (indented_eom_wrong); a mark glued to a word runs the command of that name (glued_wrong, clears_anyway), so does the letter B (letter_b_wrong); a card named like a command takes it away (shadow_wrong); an empty file run with < ends the file around it (empty_file_wrong); .inc is another command than .include (inc_other_wrong); << f does not clear the circuit as < < f does (double_mark_wrong); an exception in a file of .`include leaves the directory changed (include_dir_wrong); a file that an .inc file names and that is not there is a warning for the .inc line and loses the rest of its file (inc_nested_wrong). Missing: prompts within files of .inc; options written with =; continuation lines and comments of the input; what cards and commands do.")
c("C95", "partial", [SES+"line_runs", SES+"mode_kept", SES+"dir_kept", SES+"typed_runs", SES+"typed_total", SES+"args_run", SES+"reads_total", SES+"reads_unique", SES+"session_runs", SES+"session_total", SES+"code_zero_wrong", SES+"startup_wrong", SES+"empty_file_ends_wrong", SES+"next_file_wrong", SES+"interrupt_wrong", SES+"interrupt_get", SES+"interrupt_run_wrong", SES+"interrupt_line", SES+"interrupt_code_wrong"],
  "Proved: without interrupts a session is exactly what its arguments and lines mean, with the run mode given by the files around a line (session_runs, line_runs, typed_runs, args_run; total and unique), the circuit is cleared at the end; an interrupt outside get, merge and < gives up one line only (interrupt_line, mode_kept). Violated: an interrupt inside get or merge leaves mode preset for ever, so quit, end and all analyses do nothing (interrupt_wrong, interrupt_get); inside < it leaves mode script, so end does not end (interrupt_run_wrong); the exit code is 0 whatever failed (code_zero_wrong), also for an interrupted -b (interrupt_code_wrong); a startup file that fails ends the program with nothing done and code 0 (startup_wrong); an empty file run with < or get ends the session (empty_file_ends_wrong); after a file that fails the next argument is looked for in the directory of that file (next_file_wrong). Missing: what the actions do; cd, pause, option acct; exceptions of clear.")
c("C96", "partial", [PLG+"found_first", PLG+"found_none", PLG+"last_empty_wrong", PLG+"counted", PLG+"loaded_iff", PLG+"listed_right", PLG+"all_gone", PLG+"attach_detach", PLG+"attach_told", PLG+"circuit_keeps", PLG+"plugins_mem", PLG+"plugins_sorted", PLG+"dir_attached", PLG+"name_found", PLG+"path_found", PLG+"replace_wrong", PLG+"two_names_wrong", PLG+"removed_wrong", PLG+"dir_detach_wrong"],
  "Proved: the search (found_first, found_none, name_found, path_found), counts and list after any history (counted, loaded_iff, listed_right), detach undoes attach (attach_detach), detach_all (all_gone), protection of a circuit (circuit_keeps), directories (plugins_mem, plugins_sorted, dir_attached). Violated: an empty last item of the path is not looked at (last_empty_wrong); attaching again what cannot be opened takes the old one away (replace_wrong); a library attached by two names stays loaded when one is detached (two_names_wrong); a plugin whose file is gone cannot be detached (removed_wrong); detaching a directory stops at the first plugin not attached (dir_detach_wrong). Missing: what a library does when it is loaded (dispatchers: C48), flags public and lazy.")
c("C97", "partial", [M6+"level2_current", M6+"level2_gm", M6+"level2_gds", M6+"level2_gmb", M6+"level2_weak_gm", M6+"level2_weak_gds", M6+"level2_weak_gmb", M6+"level2_weak_wrong", M6+"level2_narrow_wrong", M6+"level2_short_wrong", M6+"level2_passive", M6+"drift_greatest", M6+"level2_device", M6+"level2_end", M6+"quart_law", M6+"pick_least", M6+"level2_vmax_end_partial", M6+"level2_vmax_current_partial", M6+"level2_vmax_ignored", M6+"level2_vmax_linear_wrong", M6+"level2_nan"],
  "Proved, without vmax: current (level2_current), slopes above threshold (level2_gm, level2_gds but for roundofftol, level2_gmb), slopes below for long channels (level2_weak_gm, level2_weak_gds), sign (level2_passive), saturation where the charge ends (drift_greatest), the device from any state, for long channels (level2_device). With vmax: there is one end of the channel (level2_end), the equation of fourth degree solved for it is the law (quart_law), its least root is found if the signs of the cubic are right (pick_least, level2_vmax_end_partial), and then the current is that of the law up to the tolerance of the equation (level2_vmax_current_partial). Violated: below threshold the slope with bulk voltage is too small, by an exact amount (level2_weak_gmb, level2_weak_wrong); a narrow channel without body effect and lambda has too small a transconductance (level2_narrow_wrong); a short channel without lambda has too large an output conductance (level2_short_wrong); with vmax the angle in the cubic is taken on the wrong side when S > 0 and vmax is ignored (level2_vmax_ignored); in the linear region the output conductance is too large by the current over vmax*l/ueff (level2_vmax_linear_wrong), and not a number without doping (level2_nan). Missing: the other slopes with vmax; slopes of short channels below threshold; forward bulk (which the device does not pass on); rounding.")
c("C98", "partial", ["Gnucap.ListCmd.names_listed", "Gnucap.ListCmd.names_all", "Gnucap.ListCmd.all_listed", "Gnucap.ListCmd.range_listed", "Gnucap.ListCmd.rest_listed", "Gnucap.ListCmd.start_listed", "Gnucap.ListCmd.range_inside", "Gnucap.ListCmd.hits_end", "Gnucap.ListCmd.args_end", "Gnucap.ListCmd.unknown_silent", "Gnucap.ListCmd.range_same_refused", "Gnucap.ListCmd.dash_later", "Gnucap.ListCmd.dash_in_name", "Gnucap.ListCmd.range_mixed", "Gnucap.ListCmd.inside_first_only"],
  "Proved from the characters of the line: names without dots, ranges, all, and that every listing ends. Violated: a later name that matches nothing ends the listing silently (unknown_silent, dash_later); a range from a part to itself is refused (range_same_refused); a dash needs a blank in front (dash_in_name); a range ending inside an instance compares iterators of two lists (range_mixed); of parts inside instances only the first instance is listed (inside_first_only). Missing: how a part is printed (C74, C77, C78), names of BUFLEN characters and more.")
c("C99", "partial", ["Gnucap.ParCmd.param_sets", "Gnucap.ParCmd.param_real", "Gnucap.ParCmd.param_number", "Gnucap.ParCmd.param_expression", "Gnucap.ParCmd.param_others", "Gnucap.ParCmd.command_ends", "Gnucap.ParCmd.type_prefix_wrong", "Gnucap.ParCmd.missing_value_wrong", "Gnucap.ParCmd.na_prefix_wrong"],
  "Proved from the characters of the line to the value found in a scope inside (with C42). Violated: a name that begins with real loses its front (type_prefix_wrong); a name without a value gets that of the name before (missing_value_wrong); a value that begins with NA is no value and its rest a name (na_prefix_wrong). Missing: lines of type integer and string, the printed list, calls of functions outside brackets.")
c("C100", "partial", ["Gnucap.MeasCmd.run_records", "Gnucap.MeasCmd.steps_total", "Gnucap.MeasCmd.found_after_run", "Gnucap.MeasCmd.found_label", "Gnucap.MeasCmd.found_kept", "Gnucap.MeasCmd.measure_line", "Gnucap.MeasCmd.measure_max", "Gnucap.MeasCmd.measure_min", "Gnucap.MeasCmd.measure_cross", "Gnucap.MeasCmd.measure_slope", "Gnucap.MeasCmd.measure_integral", "Gnucap.MeasCmd.measure_average", "Gnucap.MeasCmd.measure_rms_excess", "Gnucap.MeasCmd.measure_at_between", "Gnucap.MeasCmd.measure_at_point", "Gnucap.MeasCmd.measure_at_above", "Gnucap.MeasCmd.measure_at_below", "Gnucap.MeasCmd.after_probe_wrong", "Gnucap.MeasCmd.early_wrong", "Gnucap.MeasCmd.null_wrong", "Gnucap.MeasCmd.purge_wrong", "Gnucap.MeasCmd.unquoted_wrong"],
  "Proved from the characters of the line and the history of the session to the value (with C37). Violated: after any probe command no wave is found (after_probe_wrong); after an analysis that fails before it starts, its list is used with the waves of the run before, or beyond them, or with none (early_wrong, null_wrong); deleting a part shifts the list and not the waves (purge_wrong); a label without quotes is cut at its parenthesis (unquoted_wrong); rms exceeds the rms of the wave (measure_rms_excess, as C37). Missing: the function eval, how the value is printed into the parameter, bounds that are NA.")
c("C101", "partial", ["Gnucap.Mos.level5_current", "Gnucap.Mos.level5_slopes", "Gnucap.Mos.hermite_ends", "Gnucap.Mos.vgeff5", "Gnucap.Mos.vg_path", "Gnucap.Mos.law_meets_sat", "Gnucap.Mos.level5_device", "Gnucap.Mos.eval5_some", "Gnucap.Mos.level5_jump", "Gnucap.Mos.level5_limits", "Gnucap.Mos.level5_no_vdd", "Gnucap.Mos.level5_stops"],
  "Proved in all six regions with all 41 parameters free, in real arithmetic. Violated: the current jumps at the low end of the cubic unless the factors of mobility and velocity saturation are one (level5_jump); beyond twice vgg, vdd, vbb the current stays and the slopes of the limit are reported (level5_limits), so that without vdd no current flows (level5_no_vdd); without n0 and with vglow the program stops above threshold (level5_stops). Missing: points on the borders, active guards, the charges, drain feedback in level5_device.")
c("C102", "partial", ["Gnucap.MosProc.process", "Gnucap.MosProc.again", "Gnucap.MosProc.follows", "Gnucap.MosProc.size_law", "Gnucap.MosProc.size_mirror", "Gnucap.MosProc.sticks", "Gnucap.MosProc.gain_stale", "Gnucap.MosProc.threshold_stale", "Gnucap.MosProc.oxide_lost", "Gnucap.MosProc.sheet_told_wrong", "Gnucap.MosProc.default_length", "Gnucap.MosProc.length_negative", "Gnucap.MosProc.mobility_temp_wrong"],
  "Proved: the first analysis (process), repetition (again), given values in every history (follows), sizes (size_law, size_mirror). Violated: derived values are stored as if given, so later analyses use those of the first (sticks): gain and threshold of another oxide (gain_stale, threshold_stale); a thickness once not positive is thrown away (oxide_lost). A message says the sheet resistance is used when it is not (sheet_told_wrong); the default length is not corrected (default_length); lengths up to the diffusion are accepted (length_negative); the mobility of levels 2 and 3 rises with temperature while the gain falls (mobility_temp_wrong). Missing: texts without a value, parameters special to a level, rounding.")
c("C103", "partial", ["Gnucap.BjtBase.Props.card_law", "Gnucap.BjtBase.Props.within", "Gnucap.BjtBase.Props.conducts", "Gnucap.BjtBase.Props.falls", "Gnucap.BjtBase.Props.parallel", "Gnucap.BjtBase.Props.zero_bias", "Gnucap.BjtBase.Props.half_way", "Gnucap.BjtBase.Props.ebers_moll", "Gnucap.BjtBase.Props.half_way_device", "Gnucap.BjtBase.Props.side_by_side", "Gnucap.BjtBase.Props.negative", "Gnucap.BjtBase.Props.negative_reached", "Gnucap.BjtBase.Props.minimum_alone", "Gnucap.BjtBase.Props.over", "Gnucap.BjtBase.Props.over_reached"],
  "Proved: defaults of the card (card_law); for base charge >= 1, or base currents up to 5e9 IRB, the resistance is between RBM and RB, positive and passive (within, conducts), falls (falls), scales with the area (parallel); RB at zero bias (zero_bias), half way at IRB to 1 % (half_way, in an ideal device half_way_device); without the optional effects the device is that of Ebers and Moll (ebers_moll), and n times the area is n devices side by side in every region if gmin is 0 (side_by_side). Violated: beyond 6e9 IRB the angle passes the pole of the tangent and the resistance is negative (negative, negative_reached); RBM without RB gives 0 ohm at zero bias and stops the program (minimum_alone); below a base charge of 1, which an Early voltage gives in the normal region, it is above RB (over, over_reached).")
c("C104", "partial", ["Gnucap.BsimSize.Props.sdp_law", "Gnucap.BsimSize.Props.sdp_big", "Gnucap.BsimSize.Props.eff_law", "Gnucap.BsimSize.Props.eff_exists", "Gnucap.BsimSize.Props.four_law", "Gnucap.BsimSize.Props.five_law", "Gnucap.BsimSize.Props.wide", "Gnucap.BsimSize.Props.gain_at_bulk", "Gnucap.BsimSize.Props.gain_order", "Gnucap.BsimSize.Props.gain_disordered", "Gnucap.BsimSize.Props.no_bulk", "Gnucap.BsimSize.Props.no_oxide", "Gnucap.BsimSize.Props.narrow", "Gnucap.BsimSize.Props.overlap_drawn", "Gnucap.BsimSize.Props.no_potential"],
  "Proved: values at a size (sdp_law, sdp_big, eff_law, eff_exists, four_law, five_law), width scaling (wide), order of the gains at VBB, and in the whole range if MUS0 is not below MU0 (gain_at_bulk, gain_order). Violated: quiet_min is generated as a comment, so MUS0 below MU0 is kept (gain_disordered) and divides by 0 without VBB (no_bulk); no TOX gives an infinite capacitance (no_oxide); PHI below 0 has no root (no_potential); a channel narrower than DW has negative capacitance and gain (narrow); overlaps are taken before DW and DL (overlap_drawn).")
c("C105", "partial", ["Gnucap.Logf.Props.defined", "Gnucap.Logf.Props.copied", "Gnucap.Logf.Props.copied_pool", "Gnucap.Logf.Props.all_or_nothing", "Gnucap.Logf.Props.log_file", "Gnucap.Logf.Props.out_file", "Gnucap.Logf.Props.columns_partial", "Gnucap.Logf.Props.stale_column", "Gnucap.Logf.Props.warning_alone", "Gnucap.Logf.Props.place_lost", "Gnucap.Logf.Props.replay_closes"],
  "Proved by refinement of a specification without table and pointers: nothing undefined happens (defined), the first 30 files hold what they should (copied), all files where fopen gives from 30 pointers (copied_pool), any file holds all or nothing (all_or_nothing), contents of a file of log and of > (log_file, out_file), columns for whole lines (columns_partial). Violated: a file that gets the pointer of one closed in a line starts at its column (stale_column); warnings are not in the file of > (warning_alone); a place is never given back, the 31st file may get nothing (place_lost); a log ends with the command that closes it and closes another when read again (replay_closes).")
c("C106", "partial", ["Gnucap.PolyG.Props.synced", "Gnucap.PolyG.Props.load_law", "Gnucap.PolyG.Props.modes_agree", "Gnucap.PolyG.Props.amps_partial", "Gnucap.PolyG.Props.amps_error", "Gnucap.PolyG.Props.approach", "Gnucap.PolyG.Props.converged_partial", "Gnucap.PolyG.Props.unload_partial", "Gnucap.PolyG.Props.first_no", "Gnucap.PolyG.Props.bypass_keeps", "Gnucap.PolyG.Props.amps_wrong", "Gnucap.PolyG.Props.early", "Gnucap.PolyG.Props.rest_left"],
  "Proved for every list of passes: the matrix holds what is remembered (synced), a pass moves every amount as damping says (load_law), incremental and full loading agree (modes_agree), equal evaluations are approached by a constant factor (approach), the reported current without damping (amps_partial) and its exact error with damping (amps_error), convergence and unloading without damping (converged_partial, unload_partial), no convergence before the first evaluation (first_no), loading again without evaluating changes nothing (bypass_keeps). Violated with damping: the reported current mixes values before and after damping (amps_wrong); source and first port are compared with what was evaluated, not loaded (early); a part of an element taken out is left (rest_left).")
c("C107", "partial", ["Gnucap.Timer.Props.sim_time", "Gnucap.Timer.Props.sim_parts", "Gnucap.Timer.Props.overhead_nonneg", "Gnucap.Timer.Props.never_aborts_partial", "Gnucap.Timer.Props.get_time", "Gnucap.Timer.Props.get_off_partial", "Gnucap.Timer.Props.aborts", "Gnucap.Timer.Props.get_left", "Gnucap.Timer.Props.last_nested", "Gnucap.Timer.Props.acct_last", "Gnucap.Timer.Props.thrown_lost"],
  "Proved for every session: a simulation is measured from start to end wherever it throws (sim_time), its parts exactly (sim_parts), overhead is never negative (overhead_nonneg), reading a file without commands (get_time); where no file is missing no timer is started while it runs (never_aborts_partial), where nothing is thrown outside of simulations the timer of get does not run between commands (get_off_partial). Violated: a missing file within an included file makes an assertion fail, in a program compiled with assertions (aborts); after a missing file the timer of get never stops for good (get_left); its last time is that since the last file within (last_nested); acct shows the time since the last command within (acct_last); the phase that throws is shown as overhead (thrown_lost).")
c("C108", "partial", ["Gnucap.DcLife.Props.session_partial", "Gnucap.DcLife.Props.one_partial", "Gnucap.DcLife.Props.empty_stash", "Gnucap.DcLife.Props.reverts", "Gnucap.DcLife.Props.dangles", "Gnucap.DcLife.Props.param_reverts", "Gnucap.DcLife.Props.lingers", "Gnucap.DcLife.Props.no_level", "Gnucap.DcLife.Props.twice", "Gnucap.DcLife.Props.eval_fails"],
  "Proved: every session whose dc lines are right and sweep no component twice, or name no component at all, and that sweeps no generator once a parameter has been swept, leaves the circuit as the user made it (session_partial); one right line about things that are there, whatever came before (one_partial). Violated: a line wrong behind a component restores from a stash not yet filled (empty_stash, eval_fails), gives an earlier component its old value (reverts) or writes to a deleted one (dangles); a swept parameter gets its old text back from later commands that do not name it (param_reverts); a component left chosen by a wrong line keeps a parameter from being restored (lingers); dc without arguments after a line wrong at once has no level (no_level); a component named twice is left with the common of the sweep (twice).")
c("C109", "partial", ["Gnucap.ModelLine.Props.card_partial", "Gnucap.ModelLine.Props.given_partial", "Gnucap.ModelLine.Props.logic_partial", "Gnucap.ModelLine.Props.value_cut", "Gnucap.ModelLine.Props.logic_cut", "Gnucap.ModelLine.Props.unnamed_null"],
  "Proved for every card whose names and values can stand on a line as they are: label, type and pairs read back (card_partial), cards that list only what was given (given_partial), logic families all given (logic_partial). Violated: a value with a closing parenthesis ends there and all behind it is lost (value_cut); a logic family lists what was not given as NA(default), so that it reads back only up to the first parameter not given, with that text (logic_cut); an unnamed value in quotes or braces is given to a null pointer (unnamed_null). Choosing the kind of card from type and level is C110.")
c("C110", "partial", ["Gnucap.ModelType.Props.again", "Gnucap.ModelType.Props.level_name", "Gnucap.ModelType.Props.builtin_again", "Gnucap.ModelType.Props.mos_level", "Gnucap.ModelType.Props.mos_plain", "Gnucap.ModelType.Props.bjt_level", "Gnucap.ModelType.Props.hidden", "Gnucap.ModelType.Props.case_ignored", "Gnucap.ModelType.Props.case_kept", "Gnucap.ModelType.Props.level_plus", "Gnucap.ModelType.Props.level_minus", "Gnucap.ModelType.Props.level_text", "Gnucap.ModelType.Props.diode_level", "Gnucap.ModelType.Props.glued_wrong"],
  "Proved: for every registry whose models are installed under their public names, a card set as one of its public keys says is listed under a type that makes it again (again), which covers every card of the mosfets, bipolar transistors and diodes built in (builtin_again); a level written as a number is put behind the type as written, leading zeros aside (level_name), and nmos and pmos with level 1 to 8 make that mosfet of that polarity (mos_level), level 1 without one (mos_plain), npn and pnp likewise (bjt_level); a base that is hidden sets nothing (hidden); letters count only when case is kept (case_ignored, case_kept); a plus sign changes nothing and a level below 0 is refused (level_plus, level_minus). Violated: a level that is no number, as a parameter, counts as 0 and the line is refused (level_text); a diode with any level is refused (diode_level); pmos4 with level 9 makes the mosfet of level 8 as nmos (glued_wrong). Missing: where level is found on the line, levels of 2^31 and more, other models.")
