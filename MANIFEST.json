{"claims": [
{"property": "C01", "status": "proved", "theorems": ["Gnucap.Mat.solve_correct", "Gnucap.Mat.solve_exact", "Gnucap.Mat.fbsub3_ground"], "note": "every size, profile, loaded matrix and history; exact field arithmetic. solve_exact assumes the leading minors are non-zero (no pivot replaced); solve_correct covers replaced pivots"},
{"property": "C02", "status": "proved", "theorems": ["Gnucap.Mat.partial_eq_full", "Gnucap.Mat.run_eqAt"], "note": "any history of loads, clears and decompositions in which a partial one is asked for only after a decomposition since the last clear"},
{"property": "C03", "status": "partial", "theorems": ["Gnucap.Mat.fbsubt_correct", "Gnucap.Mat.fbsubt_size0"], "note": "proved for every size >= 1; for size 0 the code writes v[1], outside the vector (fbsubt_size0)"},
{"property": "C04", "status": "proved", "theorems": ["Gnucap.Mat.inplace_eq_copy", "Gnucap.Mat.inplace_solve"], "note": "in every stored position"},
{"property": "C05", "status": "proved", "theorems": ["Gnucap.Mat.cellIndex_in_bounds", "Gnucap.Mat.cellIndex_injective", "Gnucap.Mat.nzcount_eq", "Gnucap.Mat.sget_spec"], "note": ""},
{"property": "C06", "status": "proved", "theorems": ["Gnucap.Mat.iwantAll_spec", "Gnucap.Mat.iwantAll_covers", "Gnucap.Mat.iwantAll_order_independent", "Gnucap.Mat.iwantAll_wf"], "note": ""},
{"property": "C07", "status": "proved", "theorems": ["Gnucap.Mat.loadSymmetric_stamp", "Gnucap.Mat.loadAsymmetric_stamp", "Gnucap.Mat.loadCouple_stamp", "Gnucap.Mat.loadPoint_stamp", "Gnucap.Mat.loadDiagonalPoint_stamp"], "note": "against an incidence specification"},
{"property": "C08", "status": "partial", "theorems": ["Gnucap.Load.iteration_solves_circuit", "Gnucap.Load.iteration_solves_circuit_exact_partial", "Gnucap.Load.lost_bound", "Gnucap.Load.recorded_values", "Gnucap.Load.loading_drifts"], "note": "false as stated: changes below roundofftol in the first iteration of a step are recorded but never loaded (loading_drifts). Proved: exact identity with the dropped amount, its bound, and the exact statement with de-noising off"},
{"property": "C09", "status": "proved", "theorems": ["Gnucap.Load.clear_load_factor_agree", "Gnucap.Load.iteration_solves_circuit"], "note": "any legal history of analyses, options and marks"},
{"property": "C10", "status": "proved", "theorems": ["Gnucap.Solve.solve_success_confirmed", "Gnucap.Solve.solve_bounded", "Gnucap.Solve.negative_itermin_accepts_limiting"], "note": "for itermin >= 0 and every sequence of evaluation outcomes; negative itermin accepts a limited iteration (witness)"},
{"property": "C100", "status": "partial", "theorems": ["Gnucap.MeasCmd.run_records", "Gnucap.MeasCmd.steps_total", "Gnucap.MeasCmd.found_after_run", "Gnucap.MeasCmd.found_label", "Gnucap.MeasCmd.found_kept", "Gnucap.MeasCmd.measure_line", "Gnucap.MeasCmd.measure_max", "Gnucap.MeasCmd.measure_min", "Gnucap.MeasCmd.measure_cross", "Gnucap.MeasCmd.measure_slope", "Gnucap.MeasCmd.measure_integral", "Gnucap.MeasCmd.measure_average", "Gnucap.MeasCmd.measure_rms_excess", "Gnucap.MeasCmd.measure_at_between", "Gnucap.MeasCmd.measure_at_point", "Gnucap.MeasCmd.measure_at_above", "Gnucap.MeasCmd.measure_at_below", "Gnucap.MeasCmd.after_probe_wrong", "Gnucap.MeasCmd.early_wrong", "Gnucap.MeasCmd.null_wrong", "Gnucap.MeasCmd.purge_wrong", "Gnucap.MeasCmd.unquoted_wrong"], "note": "Proved from the characters of the line and the history of the session to the value (with C37). Violated: after any probe command no wave is found (after_probe_wrong); after an analysis that fails before it starts, its list is used with the waves of the run before, or beyond them, or with none (early_wrong, null_wrong); deleting a part shifts the list and not the waves (purge_wrong); a label without quotes is cut at its parenthesis (unquoted_wrong); rms exceeds the rms of the wave (measure_rms_excess, as C37). Missing: the function eval, how the value is printed into the parameter, bounds that are NA."},
{"property": "C101", "status": "partial", "theorems": ["Gnucap.Mos.level5_current", "Gnucap.Mos.level5_slopes", "Gnucap.Mos.hermite_ends", "Gnucap.Mos.vgeff5", "Gnucap.Mos.vg_path", "Gnucap.Mos.law_meets_sat", "Gnucap.Mos.level5_device", "Gnucap.Mos.eval5_some", "Gnucap.Mos.level5_jump", "Gnucap.Mos.level5_limits", "Gnucap.Mos.level5_no_vdd", "Gnucap.Mos.level5_stops"], "note": "Proved in all six regions with all 41 parameters free, in real arithmetic. Violated: the current jumps at the low end of the cubic unless the factors of mobility and velocity saturation are one (level5_jump); beyond twice vgg, vdd, vbb the current stays and the slopes of the limit are reported (level5_limits), so that without vdd no current flows (level5_no_vdd); without n0 and with vglow the program stops above threshold (level5_stops). Missing: points on the borders, active guards, the charges, drain feedback in level5_device."},
{"property": "C102", "status": "partial", "theorems": ["Gnucap.MosProc.process", "Gnucap.MosProc.again", "Gnucap.MosProc.follows", "Gnucap.MosProc.size_law", "Gnucap.MosProc.size_mirror", "Gnucap.MosProc.sticks", "Gnucap.MosProc.gain_stale", "Gnucap.MosProc.threshold_stale", "Gnucap.MosProc.oxide_lost", "Gnucap.MosProc.sheet_told_wrong", "Gnucap.MosProc.default_length", "Gnucap.MosProc.length_negative", "Gnucap.MosProc.mobility_temp_wrong"], "note": "Proved: the first analysis (process), repetition (again), given values in every history (follows), sizes (size_law, size_mirror). Violated: derived values are stored as if given, so later analyses use those of the first (sticks): gain and threshold of another oxide (gain_stale, threshold_stale); a thickness once not positive is thrown away (oxide_lost). A message says the sheet resistance is used when it is not (sheet_told_wrong); the default length is not corrected (default_length); lengths up to the diffusion are accepted (length_negative); the mobility of levels 2 and 3 rises with temperature while the gain falls (mobility_temp_wrong). Missing: texts without a value, parameters special to a level, rounding."},
{"property": "C103", "status": "partial", "theorems": ["Gnucap.BjtBase.Props.card_law", "Gnucap.BjtBase.Props.within", "Gnucap.BjtBase.Props.conducts", "Gnucap.BjtBase.Props.falls", "Gnucap.BjtBase.Props.parallel", "Gnucap.BjtBase.Props.zero_bias", "Gnucap.BjtBase.Props.half_way", "Gnucap.BjtBase.Props.ebers_moll", "Gnucap.BjtBase.Props.half_way_device", "Gnucap.BjtBase.Props.side_by_side", "Gnucap.BjtBase.Props.negative", "Gnucap.BjtBase.Props.negative_reached", "Gnucap.BjtBase.Props.minimum_alone", "Gnucap.BjtBase.Props.over", "Gnucap.BjtBase.Props.over_reached"], "note": "Proved: defaults of the card (card_law); for base charge >= 1, or base currents up to 5e9 IRB, the resistance is between RBM and RB, positive and passive (within, conducts), falls (falls), scales with the area (parallel); RB at zero bias (zero_bias), half way at IRB to 1 % (half_way, in an ideal device half_way_device); without the optional effects the device is that of Ebers and Moll (ebers_moll), and n times the area is n devices side by side in every region if gmin is 0 (side_by_side). Violated: beyond 6e9 IRB the angle passes the pole of the tangent and the resistance is negative (negative, negative_reached); RBM without RB gives 0 ohm at zero bias and stops the program (minimum_alone); below a base charge of 1, which an Early voltage gives in the normal region, it is above RB (over, over_reached)."},
{"property": "C104", "status": "partial", "theorems": ["Gnucap.BsimSize.Props.sdp_law", "Gnucap.BsimSize.Props.sdp_big", "Gnucap.BsimSize.Props.eff_law", "Gnucap.BsimSize.Props.eff_exists", "Gnucap.BsimSize.Props.four_law", "Gnucap.BsimSize.Props.five_law", "Gnucap.BsimSize.Props.wide", "Gnucap.BsimSize.Props.gain_at_bulk", "Gnucap.BsimSize.Props.gain_order", "Gnucap.BsimSize.Props.gain_disordered", "Gnucap.BsimSize.Props.no_bulk", "Gnucap.BsimSize.Props.no_oxide", "Gnucap.BsimSize.Props.narrow", "Gnucap.BsimSize.Props.overlap_drawn", "Gnucap.BsimSize.Props.no_potential"], "note": "Proved: values at a size (sdp_law, sdp_big, eff_law, eff_exists, four_law, five_law), width scaling (wide), order of the gains at VBB, and in the whole range if MUS0 is not below MU0 (gain_at_bulk, gain_order). Violated: quiet_min is generated as a comment, so MUS0 below MU0 is kept (gain_disordered) and divides by 0 without VBB (no_bulk); no TOX gives an infinite capacitance (no_oxide); PHI below 0 has no root (no_potential); a channel narrower than DW has negative capacitance and gain (narrow); overlaps are taken before DW and DL (overlap_drawn)."},
{"property": "C105", "status": "partial", "theorems": ["Gnucap.Logf.Props.defined", "Gnucap.Logf.Props.copied", "Gnucap.Logf.Props.copied_pool", "Gnucap.Logf.Props.all_or_nothing", "Gnucap.Logf.Props.log_file", "Gnucap.Logf.Props.out_file", "Gnucap.Logf.Props.columns_partial", "Gnucap.Logf.Props.stale_column", "Gnucap.Logf.Props.warning_alone", "Gnucap.Logf.Props.place_lost", "Gnucap.Logf.Props.replay_closes"], "note": "Proved by refinement of a specification without table and pointers: nothing undefined happens (defined), the first 30 files hold what they should (copied), all files where fopen gives from 30 pointers (copied_pool), any file holds all or nothing (all_or_nothing), contents of a file of log and of > (log_file, out_file), columns for whole lines (columns_partial). Violated: a file that gets the pointer of one closed in a line starts at its column (stale_column); warnings are not in the file of > (warning_alone); a place is never given back, the 31st file may get nothing (place_lost); a log ends with the command that closes it and closes another when read again (replay_closes)."},
{"property": "C106", "status": "partial", "theorems": ["Gnucap.PolyG.Props.synced", "Gnucap.PolyG.Props.load_law", "Gnucap.PolyG.Props.modes_agree", "Gnucap.PolyG.Props.amps_partial", "Gnucap.PolyG.Props.amps_error", "Gnucap.PolyG.Props.approach", "Gnucap.PolyG.Props.converged_partial", "Gnucap.PolyG.Props.unload_partial", "Gnucap.PolyG.Props.first_no", "Gnucap.PolyG.Props.bypass_keeps", "Gnucap.PolyG.Props.amps_wrong", "Gnucap.PolyG.Props.early", "Gnucap.PolyG.Props.rest_left"], "note": "Proved for every list of passes: the matrix holds what is remembered (synced), a pass moves every amount as damping says (load_law), incremental and full loading agree (modes_agree), equal evaluations are approached by a constant factor (approach), the reported current without damping (amps_partial) and its exact error with damping (amps_error), convergence and unloading without damping (converged_partial, unload_partial), no convergence before the first evaluation (first_no), loading again without evaluating changes nothing (bypass_keeps). Violated with damping: the reported current mixes values before and after damping (amps_wrong); source and first port are compared with what was evaluated, not loaded (early); a part of an element taken out is left (rest_left)."},
{"property": "C107", "status": "partial", "theorems": ["Gnucap.Timer.Props.sim_time", "Gnucap.Timer.Props.sim_parts", "Gnucap.Timer.Props.overhead_nonneg", "Gnucap.Timer.Props.never_aborts_partial", "Gnucap.Timer.Props.get_time", "Gnucap.Timer.Props.get_off_partial", "Gnucap.Timer.Props.aborts", "Gnucap.Timer.Props.get_left", "Gnucap.Timer.Props.last_nested", "Gnucap.Timer.Props.acct_last", "Gnucap.Timer.Props.thrown_lost"], "note": "Proved for every session: a simulation is measured from start to end wherever it throws (sim_time), its parts exactly (sim_parts), overhead is never negative (overhead_nonneg), reading a file without commands (get_time); where no file is missing no timer is started while it runs (never_aborts_partial), where nothing is thrown outside of simulations the timer of get does not run between commands (get_off_partial). Violated: a missing file within an included file makes an assertion fail, in a program compiled with assertions (aborts); after a missing file the timer of get never stops for good (get_left); its last time is that since the last file within (last_nested); acct shows the time since the last command within (acct_last); the phase that throws is shown as overhead (thrown_lost)."},
{"property": "C108", "status": "partial", "theorems": ["Gnucap.DcLife.Props.session_partial", "Gnucap.DcLife.Props.one_partial", "Gnucap.DcLife.Props.empty_stash", "Gnucap.DcLife.Props.reverts", "Gnucap.DcLife.Props.dangles", "Gnucap.DcLife.Props.param_reverts", "Gnucap.DcLife.Props.lingers", "Gnucap.DcLife.Props.no_level", "Gnucap.DcLife.Props.twice", "Gnucap.DcLife.Props.eval_fails"], "note": "Proved: every session whose dc lines are right and sweep no component twice, or name no component at all, and that sweeps no generator once a parameter has been swept, leaves the circuit as the user made it (session_partial); one right line about things that are there, whatever came before (one_partial). Violated: a line wrong behind a component restores from a stash not yet filled (empty_stash, eval_fails), gives an earlier component its old value (reverts) or writes to a deleted one (dangles); a swept parameter gets its old text back from later commands that do not name it (param_reverts); a component left chosen by a wrong line keeps a parameter from being restored (lingers); dc without arguments after a line wrong at once has no level (no_level); a component named twice is left with the common of the sweep (twice)."},
{"property": "C109", "status": "partial", "theorems": ["Gnucap.ModelLine.Props.card_partial", "Gnucap.ModelLine.Props.given_partial", "Gnucap.ModelLine.Props.logic_partial", "Gnucap.ModelLine.Props.value_cut", "Gnucap.ModelLine.Props.logic_cut", "Gnucap.ModelLine.Props.unnamed_null"], "note": "Proved for every card whose names and values can stand on a line as they are: label, type and pairs read back (card_partial), cards that list only what was given (given_partial), logic families all given (logic_partial). Violated: a value with a closing parenthesis ends there and all behind it is lost (value_cut); a logic family lists what was not given as NA(default), so that it reads back only up to the first parameter not given, with that text (logic_cut); an unnamed value in quotes or braces is given to a null pointer (unnamed_null). Choosing the kind of card from type and level is C110."},
{"property": "C11", "status": "partial", "theorems": ["Gnucap.Solve.homotopy_restores_partial", "Gnucap.Solve.homotopy_bounded", "Gnucap.Solve.homotopy_throw_leaves_options", "Gnucap.Load.final_solve_keeps_homotopy_gmin"], "note": "false as stated in two ways (witnesses): an exception leaves the options changed, and the last solve still has the stepping gmin in the matrix. Proved: every normal return restores both options, first and last solve are made under them"},
{"property": "C110", "status": "partial", "theorems": ["Gnucap.ModelType.Props.again", "Gnucap.ModelType.Props.level_name", "Gnucap.ModelType.Props.builtin_again", "Gnucap.ModelType.Props.mos_level", "Gnucap.ModelType.Props.mos_plain", "Gnucap.ModelType.Props.bjt_level", "Gnucap.ModelType.Props.hidden", "Gnucap.ModelType.Props.case_ignored", "Gnucap.ModelType.Props.case_kept", "Gnucap.ModelType.Props.level_plus", "Gnucap.ModelType.Props.level_minus", "Gnucap.ModelType.Props.level_text", "Gnucap.ModelType.Props.diode_level", "Gnucap.ModelType.Props.glued_wrong"], "note": "Proved: for every registry whose models are installed under their public names, a card set as one of its public keys says is listed under a type that makes it again (again), which covers every card of the mosfets, bipolar transistors and diodes built in (builtin_again); a level written as a number is put behind the type as written, leading zeros aside (level_name), and nmos and pmos with level 1 to 8 make that mosfet of that polarity (mos_level), level 1 without one (mos_plain), npn and pnp likewise (bjt_level); a base that is hidden sets nothing (hidden); letters count only when case is kept (case_ignored, case_kept); a plus sign changes nothing and a level below 0 is refused (level_plus, level_minus). Violated: a level that is no number, as a parameter, counts as 0 and the line is refused (level_text); a diode with any level is refused (diode_level); pmos4 with level 9 makes the mosfet of level 8 as nmos (glued_wrong). Missing: where level is found on the line, levels of 2^31 and more, other models."},
{"property": "C12", "status": "proved", "theorems": ["Gnucap.Sim.nodemap_dense", "Gnucap.Sim.nodemap_stable", "Gnucap.Sim.nodemap_same_iff", "Gnucap.Sim.nodemap_lookup"], "note": "any sequence of calls, the case option free to change between calls (names compared after folding)"},
{"property": "C13", "status": "proved", "theorems": ["Gnucap.Sim.mapNodes_spec", "Gnucap.Sim.mapNodes_bijective", "Gnucap.Sim.user_number_inverse"], "note": "every order option and node count"},
{"property": "C14", "status": "proved", "theorems": ["Gnucap.Sim.setLimit_spec", "Gnucap.Sim.setLimit_idempotent", "Gnucap.Sim.limits_grow"], "note": "exact arithmetic"},
{"property": "C15", "status": "proved", "theorems": ["Gnucap.Sim.restore_last_kept"], "note": "any history between"},
{"property": "C16", "status": "proved", "theorems": ["Gnucap.Trans.accepted_times_increase"], "note": "any schedule of failures, reviews and events; only dtmin > 0 assumed"},
{"property": "C17", "status": "partial", "theorems": ["Gnucap.Trans.next_never_late_partial", "Gnucap.Trans.events_not_stepped_over_partial", "Gnucap.Trans.strobe_lost", "Gnucap.Trans.event_lost", "Gnucap.Trans.strobe_lost_shrink"], "note": "false when a one tick step does not converge (or trstepshrink > 4): witnesses. Proved for every other schedule, per step and over whole runs"},
{"property": "C18", "status": "partial", "theorems": ["Gnucap.Trans.sweep_terminates_partial", "Gnucap.Trans.step_at_least_dtmin", "Gnucap.Trans.step_control_spins", "Gnucap.Trans.small_dtmax_crashes"], "note": "false: with steps that do not converge the control alternates between two steps for ever (proved for every run length). Proved: minimum step always, explicit bound on the number of steps without one tick failures"},
{"property": "C19", "status": "partial", "theorems": ["Gnucap.Trans.strobes_exact_partial", "Gnucap.Trans.strobe_lost"], "note": "as C17; exact list of output times, complete at the end of the sweep"},
{"property": "C20", "status": "proved", "theorems": ["Gnucap.Trans.eventTime_spec", "Gnucap.Trans.queue_run", "Gnucap.Trans.pop_earliest"], "note": "any history of requests and pops"},
{"property": "C21", "status": "proved", "theorems": ["Gnucap.Integ.review_is_min", "Gnucap.Integ.review_order_independent"], "note": "any nesting of card lists"},
{"property": "C22", "status": "proved", "theorems": ["Gnucap.Integ.hist_run", "Gnucap.Integ.hist_decreasing"], "note": "refinement to a list of accepted times, through SIM::advance_time"},
{"property": "C23", "status": "partial", "theorems": ["Gnucap.Integ.differentiate_linear", "Gnucap.Integ.differentiate_trap_quadratic", "Gnucap.Integ.differentiate_gear_quadratic_partial", "Gnucap.Integ.differentiate_gear_error", "Gnucap.Integ.differentiate_gear_wrong", "Gnucap.Integ.differentiate_other"], "note": "linear: all methods; trapezoid on quadratics proved; the gear formula is exact on quadratics only for equal steps (exact error formula and witness for unequal steps)"},
{"property": "C24", "status": "proved", "theorems": ["Gnucap.Integ.companion_is_derivative", "Gnucap.Integ.capacitor_companion"], "note": "exact arithmetic"},
{"property": "C25", "status": "proved", "theorems": ["Gnucap.Integ.method_select_spec", "Gnucap.Integ.first_step_euler"], "note": "whole table"},
{"property": "C26", "status": "proved", "theorems": ["Gnucap.Integ.derivatives_interpolant", "Gnucap.Integ.derivatives_polynomial"], "note": "any number of points, any distinct times; later degenerate times do not matter"},
{"property": "C27", "status": "proved", "theorems": ["Gnucap.Integ.truncError_pos", "Gnucap.Integ.checkAndConvert_future", "Gnucap.Integ.checkAndConvert_never", "Gnucap.Integ.truncError_polynomial", "Gnucap.Integ.truncError_meets_tolerance"], "note": "real arithmetic; trreject <= 1"},
{"property": "C28", "status": "partial", "theorems": ["Gnucap.Source.pulse_bounds", "Gnucap.Source.pulse_periodic", "Gnucap.Source.pulse_shape", "Gnucap.Source.pulse_shape_square", "Gnucap.Source.precalc_pos", "Gnucap.Source.pulse_event_future", "Gnucap.Source.pulse_straight_partial", "Gnucap.Source.pulse_near_corner_missed", "Gnucap.Source.pulse_wrap_missed"], "note": "bounds, shape, periodicity for every time. Announced corners: false for a corner within 2*dtmin and for a pulse longer than its period (witnesses), proved otherwise. Exact arithmetic; shape for both ramps positive or both 0"},
{"property": "C29", "status": "partial", "theorems": ["Gnucap.Interp.pwl_table_check", "Gnucap.Interp.pwl_source_value_partial", "Gnucap.Interp.pwl_device_value_partial", "Gnucap.Interp.pwl_review_next_corner_partial", "Gnucap.Interp.pwl_linear_until_event_partial", "Gnucap.Interp.pwl_review_before_first", "Gnucap.Interp.pwl_second_analysis_doubles", "Gnucap.Interp.pwl_second_analysis_ub", "Gnucap.Interp.pwl_one_point_second_analysis_throws", "Gnucap.Interp.pwl_final_step_throws", "Gnucap.Interp.pwl_near_corner_missed"], "note": "false in several ways (witnesses): from the second analysis on the table is doubled, review before the first point leaves the array, a step at the end throws, a corner within 2*dtmin is not announced. Proved for the first analysis otherwise"},
{"property": "C30", "status": "proved", "theorems": ["Gnucap.Interp.interpolate_between", "Gnucap.Interp.interpolate_above", "Gnucap.Interp.interpolate_below", "Gnucap.Interp.interpolate_last", "Gnucap.Interp.interpolate_at_point", "Gnucap.Interp.interpolate_polyline", "Gnucap.Interp.interpolate_continuous"], "note": "any length; line theorems also with equal keys elsewhere in the table; closed form and continuity for distinct keys"},
{"property": "C31", "status": "partial", "theorems": ["Gnucap.Spline.at_knot", "Gnucap.Spline.order1", "Gnucap.Spline.order1_ends", "Gnucap.Spline.order2", "Gnucap.Spline.order2_ends", "Gnucap.Spline.order3_partial", "Gnucap.Spline.joins1", "Gnucap.Spline.joins2", "Gnucap.Spline.joins3", "Gnucap.Spline.djoins2", "Gnucap.Spline.djoins3", "Gnucap.Spline.ddjoins3", "Gnucap.Spline.ddends3", "Gnucap.Spline.glue", "Gnucap.Spline.glue_cont", "Gnucap.Spline.two_points_wrong", "Gnucap.Spline.one_point_ub", "Gnucap.Spline.construct_accepts"], "note": "every strictly increasing table of at least three points (order 3) with natural or given end slopes; a cubic of two points has slope 0 below the table, one point reads out of range (witnesses). Exact arithmetic"},
{"property": "C32", "status": "partial", "theorems": ["Gnucap.Interp.delay_line_partial", "Gnucap.Interp.reflection", "Gnucap.Interp.line_begins_with_zero", "Gnucap.Interp.empty_wave_throws", "Gnucap.Interp.repeated_push_throws"], "note": "false for an empty WAVE (throws); reflection up to the round-off tolerance; the transmission line's own initialisation gives 0"},
{"property": "C33", "status": "partial", "theorems": ["Gnucap.Source.sin_bounds", "Gnucap.Source.sin_extreme", "Gnucap.Source.sin_peak_partial", "Gnucap.Source.sin_zero_partial", "Gnucap.Source.sin_both_partial", "Gnucap.Source.sin_peak_wrong"], "note": "the delay is not subtracted: proved for delays of whole half (quarter) periods, false for others (for every time, witness 1/8 period). Undamped, real arithmetic"},
{"property": "C34", "status": "partial", "theorems": ["Gnucap.Integ.poly_roundtrip", "Gnucap.Integ.poly_ops", "Gnucap.Integ.poly_mul_slope", "Gnucap.Integ.poly_mul_wrong", "Gnucap.Integ.poly_mul_partial"], "note": "everything except the product of two FPOLY1, whose slope is wrong (exact characterisation)"},
{"property": "C35", "status": "partial", "theorems": ["Gnucap.Sweep.dc_linear", "Gnucap.Sweep.dc_linear_exact", "Gnucap.Sweep.dc_loop", "Gnucap.Sweep.dc_loop_exact", "Gnucap.Sweep.dc_reverse_partial", "Gnucap.Sweep.dc_reverse_misses_stop", "Gnucap.Sweep.dc_reverse_loop_one_point", "Gnucap.Sweep.dc_wrong_direction", "Gnucap.Sweep.dc_no_step", "Gnucap.Sweep.dc_log", "Gnucap.Sweep.dc_log_from_zero_endless", "Gnucap.Sweep.dc_log_to_zero_endless", "Gnucap.Sweep.dc_lin_points_wrong", "Gnucap.Sweep.dc_nested", "Gnucap.Sweep.mem_cross", "Gnucap.Sweep.length_cross", "Gnucap.Sweep.dc_restores_partial", "Gnucap.Sweep.dc_same_element_twice_wrong", "Gnucap.Sweep.dc_stale_parameter"], "note": "forward, loop, nesting: proved for every start, stop, step. False: reverse leaves out the stop point, reverse with loop visits one point, a multiplying sweep from 0 or to 0 never ends, `lin n` uses n as the step, an element swept on two levels is not restored, a stale parameter is swept instead of the generator. Real arithmetic"},
{"property": "C36", "status": "partial", "theorems": ["Gnucap.Sweep.ac_linear", "Gnucap.Sweep.acLast_grid", "Gnucap.Sweep.ac_points_partial", "Gnucap.Sweep.ac_single", "Gnucap.Sweep.ac_points_one_wrong", "Gnucap.Sweep.ac_overshoots", "Gnucap.Sweep.ac_log_partial", "Gnucap.Sweep.ac_decade", "Gnucap.Sweep.ac_log_to_zero_endless", "Gnucap.Sweep.ac_log_degenerate"], "note": "exact list of frequencies. False: when stop is not on the grid one more point beyond stop is visited; `lin 1` gives two points; a shrinking sweep to 0 never ends. Real arithmetic"},
{"property": "C37", "status": "partial", "theorems": ["Gnucap.Measure.mem_window", "Gnucap.Measure.max_correct", "Gnucap.Measure.min_correct", "Gnucap.Measure.cross_correct", "Gnucap.Measure.cross_on_line", "Gnucap.Measure.integral_correct", "Gnucap.Measure.average_correct", "Gnucap.Measure.slew_correct", "Gnucap.Measure.average_small_window", "Gnucap.Measure.rms_excess", "Gnucap.Measure.rms_wrong", "Gnucap.Measure.slew_flat_top_missed", "Gnucap.Measure.slew_last_wrong"], "note": "max, min, cross, integral, average proved for every waveform recorded in order of time; false for integral and average of windows holding no point or one; rms is not the rms of the piecewise linear waveform (exact excess); slewrate misses a stop value that is only reached. Exact arithmetic"},
{"property": "C38", "status": "partial", "theorems": ["Gnucap.Expr.parse_text", "Gnucap.Expr.parse_all", "Gnucap.Expr.parse_three", "Gnucap.Expr.parse_shape", "Gnucap.Expr.text_unique", "Gnucap.Expr.rpn_injective", "Gnucap.Expr.blank_sign_wrong", "Gnucap.Expr.backslash_operator_wrong", "Gnucap.Expr.operator_eats_comma", "Gnucap.Expr.angle_eats_comma"], "note": "every text of the grammar (names, numbers, strings, calls, arrays, signs, all binary operators, conditionals, blanks between tokens), every text after it that does not go on; whatever is accepted is the postfix form of one tree. Not covered: <angle> symbols, names with [index]. False: a blank before + or !, a backslash is an operator, commas are eaten after operators and after <a>"},
{"property": "C39", "status": "partial", "theorems": ["Gnucap.Expr.dump_disp", "Gnucap.Expr.dump_parse_partial", "Gnucap.Expr.dump_tern_wrong"], "note": "every tree of the grammar without a conditional as operand: the dump is read back as the same tokens. False otherwise: (x?1:2)+3 is printed as a text that means x?1:(2+3)"},
{"property": "C40", "status": "partial", "theorems": ["Gnucap.Expr.reduce_value", "Gnucap.Expr.reduce_complete", "Gnucap.Expr.reduce_completion_partial", "Gnucap.Expr.reduce_twice_partial", "Gnucap.Expr.reduce_rpn", "Gnucap.Expr.den_fun", "Gnucap.Expr.redN_succ", "Gnucap.Expr.unary_residual", "Gnucap.Expr.self_reference", "Gnucap.Expr.unary_copy_wrong", "Gnucap.Expr.regroup_overflow_wrong", "Gnucap.Expr.swap_class_wrong", "Gnucap.Expr.typed_partial_wrong", "Gnucap.Expr.string_parameter_wrong", "Gnucap.Expr.unknown_operator_wrong", "Gnucap.Expr.abs_string_wrong"], "note": "fully known: for every expression and scope (no parameter of type string) a constant comes out exactly if the expression has that value. Partly known: the result has the value of the text in every completion, provided no sign is left in it, not in Verilog mode, and parameters with a type are known. False without these: -x loses its sign, 7/(2+x) changes from 7/3 to 2, an Integer parameter becomes its unconverted text; regrouping can overflow. Exact arithmetic"},
{"property": "C41", "status": "partial", "theorems": ["Gnucap.Base.binop_arith_partial", "Gnucap.Base.binop_div_vint", "Gnucap.Base.unop_arith", "Gnucap.Base.mod_int_real_wrong", "Gnucap.Base.mod_zero_ub", "Gnucap.Base.add_overflow_ub", "Gnucap.Base.vint_sign_wrong", "Gnucap.Base.vint_sum_order_wrong", "Gnucap.Base.log_base_wrong", "Gnucap.Base.binop_not_vreal"], "note": "all pairs of the four numeric classes, all operators, exact arithmetic on double. False: integer % real has its operands swapped, integer remainder by 0 and int32 overflow are undefined, in Verilog mode signs and sums change the class so that a division is or is not cut and log changes its base"},
{"property": "C42", "status": "partial", "theorems": ["Gnucap.Param.deepLookup_spec", "Gnucap.Param.deepLookup_none", "Gnucap.Param.setParam_lookup", "Gnucap.Param.setText_plain", "Gnucap.Param.eVal_text", "Gnucap.Param.eVal_fixed", "Gnucap.Param.eVal_default", "Gnucap.Param.eVal_unknown", "Gnucap.Param.eVal_counter", "Gnucap.Param.eVal_more", "Gnucap.Param.after_good_partial", "Gnucap.Param.failures_break_next", "Gnucap.Param.circle_no_result", "Gnucap.Param.circle_no_value", "Gnucap.Param.evalCopy_find", "Gnucap.Param.evalCopy_arg", "Gnucap.Param.evalCopy_den", "Gnucap.Param.evalCopy_not_given", "Gnucap.Param.recursion_leak_wrong", "Gnucap.Param.nested_default_wrong", "Gnucap.Param.outer_text_sees_inner", "Gnucap.Param.string_argument_lost", "Gnucap.Param.argument_class_lost", "Gnucap.Param.case_switch_wrong"], "note": "lookup, setting, evaluating, copying: every chain of lists, every text, every history of evaluations that do not throw; circles never get a value. False: 20 failed evaluations make the next one fail, whatever it is; a text that names a parameter without value gives NA instead of the default; a string argument without a type is dropped. Printing a fixed value as text is a parameter of the model"},
{"property": "C43", "status": "partial", "theorems": ["Gnucap.Scan.keyword_accepts", "Gnucap.Scan.umatch_single", "Gnucap.Scan.umatch_first_partial", "Gnucap.Scan.umatch_blank_alternative_wrong", "Gnucap.Scan.umatch_unclosed_ub"], "note": "one alternative: exact. Several: first match, only without leading blanks (with leading blanks every later alternative fails, witness). Patterns with a closed optional part and without escapes"},
{"property": "C44", "status": "partial", "theorems": ["Gnucap.Wmatch.wmatch_sound", "Gnucap.Wmatch.wmatch_complete_partial", "Gnucap.Wmatch.wmatch_trailing_star", "Gnucap.Wmatch.trailing_star_wrong", "Gnucap.Wmatch.star_in_subject_wrong"], "note": "every accepted string is an instance. The converse holds for subjects without stars except that a trailing star does not match the empty string (exact characterisation, witnesses)"},
{"property": "C45", "status": "partial", "theorems": ["Gnucap.Num.ctof_numeral", "Gnucap.Num.ctof_not_number", "Gnucap.Num.ctoi_numeral", "Gnucap.Num.ctof_sign_wrong", "Gnucap.Num.ctof_comma_wrong", "Gnucap.Num.ctof_exponent_ub", "Gnucap.Num.ctof_meter_wrong", "Gnucap.Num.ctoi_sign_wrong"], "note": "every well formed numeral, both systems of units, any text around it. False: a lone sign or point passes for 0 and eats the word after it, a comma is eaten where there is no number, an exponent beyond int overflows. Exact arithmetic"},
{"property": "C46", "status": "partial", "theorems": ["Gnucap.Num.ftos_roundtrip_partial", "Gnucap.Num.ftos_zero", "Gnucap.Num.ftos_unterminated", "Gnucap.Num.ftos_overrun", "Gnucap.Num.ftos_one_digit_less"], "note": "every number from 1e-99 to BIGBIG, every width and format, up to 33 digits, both systems of units. False for 34 digits (no room for the NUL, or beyond the buffer) and by one digit for numbers printed with a two digit exponent. Exact arithmetic"},
{"property": "C47", "status": "partial", "theorems": ["Gnucap.Lines.getlines_logical_partial", "Gnucap.Lines.getlines_end", "Gnucap.Lines.logical_rest", "Gnucap.Lines.readAll_logicals_partial", "Gnucap.Lines.long_line_split"], "note": "false for physical lines longer than the buffer (witness). Proved for every file whose lines fit; a last line that is a lone + without newline is excluded; comments are not treated by getlines"},
{"property": "C48", "status": "partial", "theorems": ["Gnucap.Dispatch.keys_spec", "Gnucap.Dispatch.install_finds", "Gnucap.Dispatch.install_keeps", "Gnucap.Dispatch.install_reachable_partial", "Gnucap.Dispatch.empty_name_wrong", "Gnucap.Dispatch.lookup_neutral", "Gnucap.Dispatch.lookup_answer", "Gnucap.Dispatch.uninstall_exact", "Gnucap.Dispatch.history_found", "Gnucap.Dispatch.history_reachable_partial", "Gnucap.Dispatch.history_only"], "note": "any history of installs and uninstalls. The empty name is not ignored as the comment says: the plugin under it is lost (witness)"},
{"property": "C49", "status": "partial", "theorems": ["Gnucap.Probe.step_ok", "Gnucap.Probe.run_ok", "Gnucap.Probe.gone_no_probe", "Gnucap.Probe.assign_self_wrong", "Gnucap.Ref.step_ok", "Gnucap.Ref.run_ok", "Gnucap.Ref.no_leak", "Gnucap.Ref.sweep_roundtrip", "Gnucap.Ref.sweepSteps_id", "Gnucap.Ref.addTo_ok", "Gnucap.Ref.assignAttr_partial", "Gnucap.Ref.assign_shared_wrong", "Gnucap.Ref.assign_self_wrong", "Gnucap.Ref.sweep_twice_wrong", "Gnucap.Ref.expand_leaks", "Gnucap.Ref.own_part_undefined"], "note": "Probes: every sequence of adding, removing, clearing, destroying and making objects keeps the counts exact, and no destroyed object is touched. Shared data: every sequence of the counting operations used as intended. False as a whole, each with a witness: a probe or an attribute list assigned to itself, an attribute list assigned over one that is shared (the assertion fails), an element swept twice in a nested DC sweep, and the clone that COMPONENT::expand leaks"},
{"property": "C50", "status": "partial", "theorems": ["Gnucap.Logic.gate_settles", "Gnucap.Logic.gate_order", "Gnucap.Logic.gate_still", "Gnucap.Logic.gate_accept_future", "Gnucap.Logic.gate_present_partial", "Gnucap.Logic.gate_present_wrong", "Gnucap.Logic.and_gate_spurious_event"], "note": "settled values proved for any number and order of inputs. Not true for the value before the change (witness), so an AND gate with one input rising and one falling schedules an event to 1 although the output stays 0 (witness)"},
{"property": "C51", "status": "partial", "theorems": ["Gnucap.Logic.event_on_time_partial", "Gnucap.Logic.rejected_restores_partial", "Gnucap.Logic.step_accepted", "Gnucap.Logic.overshoot_delays_event", "Gnucap.Logic.analog_roundtrip_partial", "Gnucap.Logic.analog_roundtrip_default", "Gnucap.Logic.analog_roundtrip_wrong", "Gnucap.Logic.analog_within", "Gnucap.Logic.analog_edge"], "note": "false when a rejected step went past the event time (the event is delayed to the rejected time) and for families with vmin != 0 (to_logic does not subtract it): witnesses"},
{"property": "C52", "status": "partial", "theorems": ["Gnucap.Limit.vgs_between", "Gnucap.Limit.vgs_fixed", "Gnucap.Limit.vgs_no_false_stop", "Gnucap.Limit.vgs_move_bounded", "Gnucap.Limit.vgs_transparent", "Gnucap.Limit.vds_between_partial", "Gnucap.Limit.vds_fixed_partial", "Gnucap.Limit.vds_no_false_stop_partial", "Gnucap.Limit.vds_moves_converged", "Gnucap.Limit.vds_stuck", "Gnucap.Limit.pnj_fixed", "Gnucap.Limit.pnj_transparent", "Gnucap.Limit.pnj_up", "Gnucap.Limit.pnj_down", "Gnucap.Limit.pnj_overshoots", "Gnucap.Limit.pnj_no_false_stop"], "note": "vgs: everything. vds: false below -0.5 V (a converged voltage is moved; stuck at -0.5 V). pnj: downward moves can go past the asked voltage to vcrit"},
{"property": "C53", "status": "proved", "theorems": ["Gnucap.Fft.fft_correct", "Gnucap.Fft.fft_there_and_back", "Gnucap.Fft.fft_returns_iff", "Gnucap.Fft.fft_three_hangs"], "note": "every power of two and every input, against the defining sum; nothing behind the array is written; for every other length the call hangs (the only caller rounds up to a power of two, points_spec). Exact complex arithmetic"},
{"property": "C54", "status": "proved", "theorems": ["Gnucap.Switch.transient_state", "Gnucap.Switch.transient_state_vt_vh", "Gnucap.Switch.thresholds_given", "Gnucap.Switch.dc_state", "Gnucap.Switch.static_converged", "Gnucap.Switch.conductance_matches", "Gnucap.Switch.change_is_loaded", "Gnucap.Switch.decided_run", "Gnucap.Switch.crossing_announced", "Gnucap.Switch.no_crossing_future", "Gnucap.Switch.accepted_crossing", "Gnucap.Switch.rejected_refines", "Gnucap.Switch.threshold_differs", "Gnucap.Switch.negative_hysteresis_wrong"], "note": "The state is decided by the newest input, among those at the end of each finished step, outside the band, for every sequence of calls, thrown away steps included; the conductance is always the one of the state and a change reaches the load queue; a step that crosses a threshold announces the crossing of the straight line, and with the step control it is accepted only if the crossing is at most four minimum steps before its end. The thresholds themselves decide in transient analysis but not in DC, and a negative hysteresis makes the steps collapse (both proved)."},
{"property": "C55", "status": "partial", "theorems": ["Gnucap.TranSet.setup_times", "Gnucap.TranSet.setup_steps_partial", "Gnucap.TranSet.three_spice", "Gnucap.TranSet.three_logical", "Gnucap.TranSet.two_spice", "Gnucap.TranSet.two_logical", "Gnucap.TranSet.one_stop", "Gnucap.TranSet.again_continues", "Gnucap.TranSet.three_ambiguous", "Gnucap.TranSet.strobe_longer_than_run", "Gnucap.TranSet.dtmin_above_dtmax", "Gnucap.TranSet.again_forever"], "note": "times proved for all arguments and states. False: the strobe period (and dtmax) may be longer than the run, dtmin may exceed dtmax, `tran` after `tran step stop` runs forever (witnesses)"},
{"property": "C56", "status": "proved", "theorems": ["Gnucap.Expr.parse_total", "Gnucap.Expr.parse_fuel", "Gnucap.Expr.parse_progress"], "note": "every text, both modes; memory and the depth of the C++ stack are not modelled"},
{"property": "C57", "status": "proved", "theorems": ["Gnucap.Fft.fourier_correct", "Gnucap.Fft.relative_correct", "Gnucap.Fft.points_spec", "Gnucap.Fft.stepnum_nearest", "Gnucap.Fft.half_sampling_wrong"], "note": "every fstep > 0, fstart, fstop >= 0 and every wave whose harmonics do not exceed fstop, given exact samples at the strobe times; when fstop is not a multiple of fstep a line above fstop can be printed, at half the sampling frequency with twice its amplitude (half_sampling_wrong). Exact arithmetic"},
{"property": "C58", "status": "proved", "theorems": ["Gnucap.Elem.dev_tr", "Gnucap.Elem.dev_ac", "Gnucap.Elem.card_tr", "Gnucap.Elem.card_ac", "Gnucap.Elem.tr_writes_inside", "Gnucap.Elem.ac_writes_inside", "Gnucap.Elem.stamp_elsewhere", "Gnucap.Elem.circuit_iteration_solves"], "note": "21 kinds of elements, nested subcircuits and logic gates; the places each one asks for and loads are transcribed per device (ElemModel). Semiconductor models written by modelgen are not covered"},
{"property": "C59", "status": "proved", "theorems": ["Gnucap.Elem.ac_loaded", "Gnucap.Elem.acSolve_solves"], "note": "every field, so the complex numbers too; a pivot that is exactly zero is replaced by the minimum pivot, which is the term e. Exact arithmetic; the values the devices load are inputs"},
{"property": "C60", "status": "partial", "theorems": ["Gnucap.Elem.portImpedance_spec", "Gnucap.Elem.ac_port_impedance", "Gnucap.Elem.solves_unique", "Gnucap.Elem.z_parallel_own", "Gnucap.Elem.vccs_impedance_wrong"], "note": "proved whenever the admittance handed over really lies between the two probed nodes and the minors of the matrix are not zero; with admittance 0 this is Zraw and Z(node); what is handed over is what an element with its conductance across its output loaded (z_parallel_own). False for controlled sources: their gain is taken for an admittance across the output (vccs_impedance_wrong)"},
{"property": "C61", "status": "partial", "theorems": ["Gnucap.Coil.rel_step", "Gnucap.Coil.rel_run", "Gnucap.Coil.mutual_refines", "Gnucap.Coil.winding_line", "Gnucap.Coil.coil_row", "Gnucap.Coil.coil_terminal_row", "Gnucap.Coil.mutual_row", "Gnucap.Coil.coupled_coil_equation", "Gnucap.Coil.coupled_ac", "Gnucap.Coil.bypass_keeps_old_flux"], "note": "proved for every legal sequence of calls in which the coupling is evaluated at the accepted currents, whatever a previous run left in its histories; false when the evaluation is bypassed: the bypass looks only at the difference of the two currents, so if both move alike after the second iteration of a step the flux kept for the next step is an old one (bypass_keeps_old_flux). The mutual inductance of each evaluation is an input; exact arithmetic"},
{"property": "C62", "status": "partial", "theorems": ["Gnucap.Tangent.plain_begin", "Gnucap.Tangent.res_line", "Gnucap.Tangent.res_slope", "Gnucap.Tangent.adm_line", "Gnucap.Tangent.vcvs_line", "Gnucap.Tangent.vs_line", "Gnucap.Tangent.cs_line", "Gnucap.Tangent.cccs_line", "Gnucap.Tangent.ccvs_line", "Gnucap.Tangent.vcg_line", "Gnucap.Tangent.vcr_line", "Gnucap.Tangent.damped_line", "Gnucap.Tangent.loads_kinds", "Gnucap.Tangent.element_row", "Gnucap.Tangent.newton_tangent", "Gnucap.Tangent.probed_line", "Gnucap.Tangent.plain_sweep", "Gnucap.Tangent.cccs_sweep", "Gnucap.Tangent.ccvs_sweep_partial", "Gnucap.Tangent.cccs_ac", "Gnucap.Tangent.ccvs_ac", "Gnucap.Tangent.cccs_ac_gain", "Gnucap.Tangent.ccvs_ac_without_op", "Gnucap.Tangent.ccvs_sweep_stale", "Gnucap.Tangent.ccvs_inode_collapses", "Gnucap.Tangent.cccs_inode_sweep_stale"], "note": "the tangents hold for all ten classes; the sweep for resistor, admittance, VCCS, VCVS, V, I, and for a CCCS not sensing a coupled coil. False: a plain CCVS keeps the gain it had before the sweep (ccvs_sweep_stale), loses its gain by -1/shortckt per iteration if it senses a coupled coil (ccvs_inode_collapses), and has no gain in AC without an operating point (ccvs_ac_without_op); a plain CCCS sensing a coupled coil keeps its old gain (cccs_inode_sweep_stale). newton_tangent asks that the function leaves its input in place, which it does not with ioffset (C63). Voltage limiting and rounding are not modelled"},
{"property": "C63", "status": "partial", "theorems": ["Gnucap.Behav.poly_sum", "Gnucap.Behav.poly_report", "Gnucap.Behav.lim_value", "Gnucap.Behav.lim_report", "Gnucap.Behav.posy_report", "Gnucap.Behav.posy_eval_report", "Gnucap.Behav.tanh_report", "Gnucap.Behav.tanh_cut", "Gnucap.Behav.modified_report", "Gnucap.Behav.modified_tangent", "Gnucap.Behav.ioffset_line", "Gnucap.Behav.ioffset_lost", "Gnucap.Behav.fit_ignores_ioffset", "Gnucap.Behav.source_value", "Gnucap.Behav.source_tdv", "Gnucap.Behav.current_source_tdv", "Gnucap.Behav.admittance_tdv", "Gnucap.Behav.ac_drift", "Gnucap.Behav.ac_slope", "Gnucap.Behav.exp_value", "Gnucap.Behav.exp_before", "Gnucap.Behav.exp_hangs", "Gnucap.Behav.exp_continuous", "Gnucap.Behav.sffm_range", "Gnucap.Behav.ac_final", "Gnucap.Behav.ac_final_no_bandwidth", "Gnucap.Behav.ac_bandwidth_drops_imaginary", "Gnucap.Behav.ac_long_delay", "Gnucap.Behav.poly_without_coefficients", "Gnucap.Behav.posy_constant_at_zero", "Gnucap.Behav.posy_slope_at_zero"], "note": "value and slope are proved for POLY and TANH everywhere but at the corners of abs, min, max, for POSY away from 0, with all modifiers; the tangent in the circuit holds without ioffset. False: with ioffset the line is displaced by slope times ioffset (ioffset_line), so that it does nothing on a linear function (ioffset_lost), AC drifts by one ioffset per frequency (ac_drift), and FIT and TABLE do not look at it; V and I sources drop ooffset (source_value, source_tdv, current_source_tdv); POSY at 0 takes a constant term for 1 and has no slope; POLY without coefficients reads out of bounds; EXP with period 0 never ends; bandwidth drops the imaginary part of a complex gain. Exact arithmetic"},
{"property": "C64", "status": "partial", "theorems": ["Gnucap.Cond.rules_spec", "Gnucap.Cond.read_given", "Gnucap.Cond.selection", "Gnucap.Cond.all_served", "Gnucap.Cond.spice_source", "Gnucap.Cond.single_element", "Gnucap.Cond.single_source", "Gnucap.Cond.print_parse_partial", "Gnucap.Cond.plain_value_lost", "Gnucap.Cond.gate_in_source"], "note": "the selection holds for all lists of behavioural functions; reading back holds unless it is a source with a plain number beside a DC value (plain_value_lost). A logic gate as the function of a source is undefined behaviour (gate_in_source). Clauses are given as keyword and function, scanning of the text is not modelled here"},
{"property": "C65", "status": "partial", "theorems": ["Gnucap.Subckt.elaborate_flat", "Gnucap.Subckt.elaborate_rows", "Gnucap.Subckt.elaborate_depth", "Gnucap.Subckt.elaborate_cyclic", "Gnucap.Subckt.elaborate_ok", "Gnucap.Subckt.rinit_first", "Gnucap.Subckt.rinit_again_partial", "Gnucap.Subckt.header_skip", "Gnucap.Subckt.skip_overrun", "Gnucap.Subckt.skip_joins", "Gnucap.Subckt.skipped_port_shorts", "Gnucap.Subckt.skipped_port_overrun", "Gnucap.Subckt.again_collides", "Gnucap.Subckt.model_node_name", "Gnucap.Subckt.again_coil"], "note": "the first expansion is the flat circuit for all circuits whose headers name at most 100 ports, all different and none ground. A header ending in ground or a repeated port counts the refused port: the first node inside is tied to the instance's next terminal, or the table is overrun (header_skip, skip_joins, skip_overrun). Expanding again gives the same numbers when the circuit's own devices with internal nodes come before the instances; otherwise numbers collide (again_collides), and a coupled coil leaves a dead unknown (again_coil). Definitions are all at the top level; parameters and the text of lines are not modelled here"},
{"property": "C66", "status": "partial", "theorems": ["Gnucap.Names.addBranches_spec", "Gnucap.Names.one_dot", "Gnucap.Names.printed_name_probed", "Gnucap.Names.findBranch_spec", "Gnucap.Names.modify_plain", "Gnucap.Names.inner_nodes_lost", "Gnucap.Names.delete_printed", "Gnucap.Names.delete_pattern", "Gnucap.Names.delete_not_in_devices", "Gnucap.Names.delete_safe_partial", "Gnucap.Names.mixed_order_found", "Gnucap.Names.found_twice", "Gnucap.Names.printed_name_not_found", "Gnucap.Names.modify_only_first_instance", "Gnucap.Names.modify_too_deep", "Gnucap.Names.definition_found", "Gnucap.Names.delete_in_model_crashes"], "note": "what probes find is characterised for all names: the pieces taken from either end at each level, which for one dot is the two orders, for more also mixtures (mixed_order_found), and a part can be found twice (found_twice). Printed names are found by probes, and by delete at the outermost level. list, modify, fault and dc take the outermost name last only, so printed names of inner parts are not found (printed_name_not_found); the first place is found (findBranch_spec), all places only for names without dots (modify_plain): with dots the search goes on in the inner list (modify_only_first_instance, modify_too_deep). Definitions are searched too (definition_found). Nodes inside instances cannot be found (inner_nodes_lost). delete with a model as container uses a null pointer (delete_in_model_crashes)"},
{"property": "C67", "status": "partial", "theorems": ["Gnucap.Stor.euler_balance", "Gnucap.Stor.trap_balance", "Gnucap.Stor.gear_balance", "Gnucap.Stor.capacitor_euler", "Gnucap.Stor.capacitor_trap", "Gnucap.Stor.capacitor_ac", "Gnucap.Stor.step_charge", "Gnucap.Stor.cap_line", "Gnucap.Stor.ind_line", "Gnucap.Stor.inductor_step", "Gnucap.Stor.static_line", "Gnucap.Stor.dc_flat", "Gnucap.Stor.loaded_follows", "Gnucap.Stor.rate_tangent", "Gnucap.Stor.value_report", "Gnucap.Stor.vccap_charge", "Gnucap.Stor.vccap_probe_off", "Gnucap.Stor.vccap_function_lost", "Gnucap.Stor.vccap_ac_at_output", "Gnucap.Stor.tcap_function_lost"], "note": "charge and flux balance are exact for Euler and the trapezoidal rule for all runs; for Gear with equal steps up to half the difference of the last and first change (gear_balance). The line of the inductor without a current node passes through the rate when its current is that of the last evaluation (inductor_step). A transcapacitor with a function carries nothing in a transient (tcap_function_lost); VCCAP with a function has the output offset for its capacitance (vccap_function_lost), in AC evaluates it at the wrong voltage (vccap_ac_at_output), and always shows a current other than the one loaded (vccap_probe_off). Continuing a transient and the bypass of evaluation are not covered"},
{"property": "C68", "status": "partial", "theorems": ["Gnucap.Tline.wave_out", "Gnucap.Tline.characteristics", "Gnucap.Tline.launch_close", "Gnucap.Tline.matched", "Gnucap.Tline.load_full", "Gnucap.Tline.load_incremental", "Gnucap.Tline.not_queued", "Gnucap.Tline.acLength_spec", "Gnucap.Tline.angle_ok", "Gnucap.Tline.angle_close", "Gnucap.Tline.ac_telegraph", "Gnucap.Tline.ac_load_rows", "Gnucap.Tline.ac_lossless", "Gnucap.Tline.ac_matched", "Gnucap.Tline.from_lc", "Gnucap.Tline.from_frequency", "Gnucap.Tline.wave_out_throws", "Gnucap.Tline.first_step_at_delay", "Gnucap.Tline.long_step_asymmetric", "Gnucap.Tline.static_open_end", "Gnucap.Tline.no_delay_throws"], "note": "characteristics needs every step to be no longer than the line (which is what the line asks for in tr_review) and the first step not to be exactly the delay; the others show what happens else: an exception (first_step_at_delay, no_delay_throws), a wave that depends on the one just sent (long_step_asymmetric). In a static analysis the two ends are not connected (static_open_end), unlike AC at low frequency. The port voltages are free inputs; the currents are those of the line as loaded (load_full, load_incremental). Exact arithmetic; the noise filter dn_diff is in launch."},
{"property": "C69", "status": "partial", "theorems": ["Gnucap.Diode.reverse_exact", "Gnucap.Diode.forward_tangent", "Gnucap.Diode.forward_next", "Gnucap.Diode.forward_fixed", "Gnucap.Diode.held_converges", "Gnucap.Diode.held_slope", "Gnucap.Diode.parallel_wrong", "Gnucap.Diode.parallel_stops", "Gnucap.Diode.low_exact", "Gnucap.Diode.high_exact", "Gnucap.Diode.spice_exact", "Gnucap.Diode.limited_exact", "Gnucap.Diode.law_strictMono", "Gnucap.Diode.limit_short", "Gnucap.Diode.limit_never", "Gnucap.Diode.no_breakdown", "Gnucap.Diode.no_breakdown_usual", "Gnucap.Diode.satCurrent_nominal", "Gnucap.Diode.satCurrent_mono", "Gnucap.Diode.junction_smooth", "Gnucap.Diode.junction_pos_mono", "Gnucap.Diode.charge_close", "Gnucap.Diode.cap_charge", "Gnucap.Diode.charge_drifts"], "note": "Proved as stated for the usual model without parallel conductance (flags 0010, 0040, 0100, 0400 off), iteration included (held_converges, held_slope). False otherwise: with a parallel conductance iteration rests at too small a forward current (parallel_wrong, parallel_stops); mosfet junctions and flag 0040 are limited with the last current taken for the last voltage and hand back too little for ever (limit_short, limit_never), below the critical voltage they are exact (limited_exact); bv has no effect (no_breakdown, no_breakdown_usual); charge is not conserved over a closed run (charge_drifts), the error is bounded (charge_close, without transit time and sidewall). Iteration is at a held voltage, not with the circuit around it. Real arithmetic."},
{"property": "C70", "status": "partial", "theorems": ["Gnucap.Mos.eval_eq", "Gnucap.Mos.eval_slopes", "Gnucap.Mos.vth_nominal", "Gnucap.Mos.eval_passive", "Gnucap.Mos.vgs_reaches", "Gnucap.Mos.vds_reaches", "Gnucap.Mos.settled_fixed", "Gnucap.Mos.settles", "Gnucap.Mos.settled_flow", "Gnucap.Mos.F_swap", "Gnucap.Mos.F_mirror", "Gnucap.Mos.device_tangent", "Gnucap.Mos.eval_von", "Gnucap.Mos.device_current", "Gnucap.Mos.bulk_forward", "Gnucap.Mos.body_slope_wrong", "Gnucap.Mos.sub_n", "Gnucap.Mos.sub_p", "Gnucap.Mos.sub_p_witness", "Gnucap.Mos.sub_7", "Gnucap.Mos.into_sum", "Gnucap.Mos.probe_dsg", "Gnucap.Mos.probe_bulk_wrong"], "note": "settles is for any equations whose threshold is a function of the bulk voltage (level 1: eval_von). device_current and device_tangent need the bulk not forward biased at either end, or at the one that works as source; else more flows than is reported (bulk_forward). The substrate current is right for n channel devices of level 8 (sub_n), wrong for p channel (sub_p, sub_p_witness) and level 7 (sub_7). The bulk current reported has the junctions with the wrong sign (probe_bulk_wrong). Equations of levels 2 to 8 are free inputs of the device; series resistors, junctions (C69), charges and the bypass tr_needs_eval are left out. Real arithmetic."},
{"property": "C71", "status": "partial", "theorems": ["Gnucap.Bjt.half_on", "Gnucap.Bjt.half_off", "Gnucap.Bjt.charge_slopes", "Gnucap.Bjt.slopes", "Gnucap.Bjt.pnj_reaches", "Gnucap.Bjt.settles", "Gnucap.Bjt.rest_flow", "Gnucap.Bjt.mirror", "Gnucap.Bjt.terminals", "Gnucap.Bjt.forward_gain", "Gnucap.Bjt.reverse_gain", "Gnucap.Bjt.cce_slope_wrong", "Gnucap.Bjt.spec_passive", "Gnucap.Bjt.delivers", "Gnucap.Bjt.never_bypassed", "Gnucap.Bjt.tdp_nominal", "Gnucap.Bjt.tdp_is_mono", "Gnucap.Bjt.tdp_steps", "Gnucap.Bjt.tdp_pot", "Gnucap.Bjt.tdp_pot_steps", "Gnucap.Bjt.depletion_slope", "Gnucap.Bjt.substrate_slope", "Gnucap.Bjt.transit_slopes", "Gnucap.Bjt.transit_exact", "Gnucap.Bjt.itf_wrong", "Gnucap.Bjt.chargeBE_slopes", "Gnucap.Bjt.transit_neg", "Gnucap.Bjt.chargeBC_slopes", "Gnucap.Bjt.fpoly_flow", "Gnucap.Bjt.fpoly_line", "Gnucap.Bjt.fpoly_static"], "note": "The collector current has the base-collector current subtracted twice (terminals): right at vbc = 0 (forward_gain), reverse gain is br+1 (reverse_gain), the slope lacks gmu (cce_slope_wrong), a device can deliver power (delivers) although as specified it cannot (spec_passive). Slopes of currents hold above -5vt; below, half_off. Capacitance is the slope of the transit charge unless itf and xtf are given (itf_wrong). Saturation current, gain and leakage at a temperature do not depend on where they were measured (tdp_steps), junction potentials do (tdp_pot_steps). pnj_reaches needs vt <= vcrit. Base resistance, initial conditions and the initial guess are left out. Real arithmetic."},
{"property": "C72", "status": "partial", "theorems": ["Gnucap.Meyer.ddif_pos", "Gnucap.Meyer.bounds", "Gnucap.Meyer.bias_ok", "Gnucap.Meyer.ends", "Gnucap.Meyer.terminals", "Gnucap.Meyer.meyer_eq", "Gnucap.Meyer.meyer_continuous", "Gnucap.Meyer.cgb_continuous", "Gnucap.Meyer.reversal", "Gnucap.Meyer.charges_const", "Gnucap.Meyer.charges_linear", "Gnucap.Meyer.reversal_jumps", "Gnucap.Meyer.reversal_bulk", "Gnucap.Meyer.onset_jumps", "Gnucap.Meyer.threshold_jumps", "Gnucap.Meyer.charge_lost"], "note": "Bounds, Meyer's formulas, continuity above threshold and of the bulk capacitance, no jump on reversal from a tenth of a volt above threshold on with cmodel 3. Violated: exchanged on reversal closer to threshold (reversal_jumps) or with cmodel 1 and bulk bias (reversal_bulk), source part jumps at -phi/2 (onset_jumps) and at threshold (threshold_jumps), charge not conserved over a cycle (charge_lost). vdsat is that of level 1 in bias only, elsewhere any. Exact arithmetic."},
{"property": "C73", "status": "partial", "theorems": ["Gnucap.Fault.unfault_restores", "Gnucap.Fault.faults_leave_nothing", "Gnucap.Fault.run_sees_faults", "Gnucap.Fault.run_spec", "Gnucap.Fault.sweep_leaves_nothing", "Gnucap.Fault.sweep_values", "Gnucap.Fault.sweep_covers", "Gnucap.Fault.sweep_log", "Gnucap.Fault.sweep_log_zero", "Gnucap.Fault.faultLine_partial", "Gnucap.Fault.faultLine_long", "Gnucap.Fault.instance_fault", "Gnucap.Fault.deleted_fault", "Gnucap.Fault.not_an_element"], "note": "Holds for elements of the circuit and of definitions that are not deleted. Violated for parts of instances: the next analysis makes them anew, so the change is lost and unfault writes to freed memory (instance_fault), for elements deleted meanwhile (deleted_fault), and for cards that are not elements (not_an_element). The words of the sweep command before the arguments must not take more than 35 characters (faultLine_partial, faultLine_long). Instances within instances, the temporary file and printing are left out. Exact arithmetic."},
{"property": "C74", "status": "partial", "theorems": ["Gnucap.Spice.count_pairs", "Gnucap.Spice.count_end", "Gnucap.Spice.count_bracket", "Gnucap.Spice.count_paren", "Gnucap.Spice.count_guess", "Gnucap.Spice.count_ends", "Gnucap.Spice.count_inside", "Gnucap.Spice.list_read", "Gnucap.Spice.quoted_pairs", "Gnucap.Spice.quoted_escape", "Gnucap.Spice.braces_read", "Gnucap.Spice.semicolon_hangs", "Gnucap.Spice.expression_split", "Gnucap.Spice.sysparam_kept", "Gnucap.Spice.sysparam_renamed", "Gnucap.Spice.module_params_lost"], "note": "Nodes are counted as written and listings read back (list_read) when names and values can stand on a line as they are: no blanks, brackets, quotes in front or ends of words, a node is no reserved word, a label does not begin with a point or *>. Violated: a comment behind a semicolon makes the count loop for ever (semicolon_hangs; without a semicolon it ends, count_ends); an expression with blanks loses its braces when listed and is split when read (expression_split); four of the eight system parameters change their name when listed (sysparam_kept, sysparam_renamed); parameters of a subcircuit are not listed (module_params_lost). An unnamed value behind the type is taken for a node as long as there is room (count_guess). Devices that read the rest of the line themselves are left out."},
{"property": "C75", "status": "partial", "theorems": ["Gnucap.Opt.name_selects", "Gnucap.Opt.no_name_clears", "Gnucap.Opt.loop_ends", "Gnucap.Opt.settled_kept", "Gnucap.Opt.initial_settled", "Gnucap.Opt.print_inside", "Gnucap.Opt.print_read_partial", "Gnucap.Opt.limits_lost", "Gnucap.Opt.zero_flags_lost", "Gnucap.Opt.comment_read", "Gnucap.Opt.comment_sets", "Gnucap.Opt.slash_end_ub", "Gnucap.Opt.flag_value", "Gnucap.Opt.toInt_cuts", "Gnucap.Opt.int_value", "Gnucap.Opt.lang_value"], "note": "Flags, integers and the language get the value that is written (flag_value, int_value, lang_value; integers are cut off towards zero). Names, end, invariant and printing inside the tables are proved for all texts and states. The round trip (print_read_partial) gives back all listed options, for any form of numbers that reads as the value, when a language with a plain name is set. Violated: iteration limits are printed as itl@1=, which is not understood (limits_lost); flags of diodes and mosfets are printed only if not 0, so they are not cleared (zero_flags_lost; the same for mosfets is in print_read_partial); a comment behind a semicolon is taken for options after its first word (comment_read, comment_sets); // at the end of the line is read over (slash_end_ub). Language none is printed but names no language."},
{"property": "C76", "status": "partial", "theorems": ["Gnucap.XProbe.name_reads", "Gnucap.XProbe.node_volts", "Gnucap.XProbe.denoise_near", "Gnucap.XProbe.denoise_noise", "Gnucap.XProbe.power_split", "Gnucap.XProbe.sub_power_partial", "Gnucap.XProbe.sub_power_wrong", "Gnucap.XProbe.switch_reads_current", "Gnucap.XProbe.switch_blind", "Gnucap.XProbe.node_reads_partial", "Gnucap.XProbe.count_runs_on", "Gnucap.XProbe.ac_reads", "Gnucap.XProbe.ac_polar", "Gnucap.XProbe.phase_range", "Gnucap.XProbe.db_back", "Gnucap.XProbe.power_db", "Gnucap.XProbe.power_db_lost", "Gnucap.XProbe.r_is_inverse"], "note": "Names, pins, rounding, power and the AC readings are proved for all names, states and values in exact arithmetic. Violated where case matters: a subcircuit asks its parts for P, PD and PS, which they do not know, and reads NOT_VALID per part (sub_power_wrong; sub_power_partial is for case insensitive mode); a current controlled switch asks for I, so it never turns on, whatever the current (switch_blind; switch_reads_current is for case insensitive mode). Reading count of a node never ends (count_runs_on; node_reads_partial is all other logic names). Power in dB is that of the real part, so all sourced power reads -500 (power_db_lost). What storage devices, meters and subcircuits return behind their names is not modelled, except the power."},
{"property": "C77", "status": "partial", "theorems": ["Gnucap.Vlog.attrs_read", "Gnucap.Vlog.attrs_groups", "Gnucap.Vlog.id_read", "Gnucap.Vlog.params_read", "Gnucap.Vlog.ports_read", "Gnucap.Vlog.list_read", "Gnucap.Vlog.type_found_partial", "Gnucap.Vlog.type_star", "Gnucap.Vlog.digit_name_changed", "Gnucap.Vlog.escape_dropped", "Gnucap.Vlog.escape_unended", "Gnucap.Vlog.ordered_read", "Gnucap.Vlog.underscore_lost", "Gnucap.Vlog.header_read", "Gnucap.Vlog.module_ports_partial", "Gnucap.Vlog.module_overrun", "Gnucap.Vlog.paramset_read_partial", "Gnucap.Vlog.paramset_cut"], "note": "Instances and headers that are listed are read again exactly (list_read, header_read), with attributes of any text, escaped names and nested parentheses; several groups of attributes are one list with commas (attrs_groups); ports by order are read in order (ordered_read). Violated: attributes with an asterisk make the dispatcher see another type (type_star; type_found_partial is for those without); a name that begins with a digit and has more than digits and letters comes back with a backslash (digit_name_changed), one of digits and letters kept with a backslash loses it (escape_dropped); an escaped name that no blank ends leads the scanner behind the end of the text (escape_unended); a node whose name begins with an underscore ends the nodes by order (underscore_lost); more than a hundred ports by name in a header are written outside of the table (module_overrun; module_ports_partial is for up to a hundred); a value of a paramset with a parenthesis, brace or equal sign is cut there and all that follows is lost (paramset_cut; paramset_read_partial is for values of one word). Not covered: parameters by order read back, the body of a module, devices that list through the obsolete callback, ports left open."},
{"property": "C78", "status": "partial", "theorems": ["Gnucap.Spectre.scan_finds", "Gnucap.Spectre.args_end", "Gnucap.Spectre.list_read", "Gnucap.Spectre.ports_bounds", "Gnucap.Spectre.type_found_partial", "Gnucap.Spectre.type_bracket", "Gnucap.Spectre.bare_read", "Gnucap.Spectre.bare_lost", "Gnucap.Spectre.bare_hangs", "Gnucap.Spectre.head_read", "Gnucap.Spectre.refused_stays", "Gnucap.Spectre.bare_ports_lost", "Gnucap.Spectre.model_read", "Gnucap.Spectre.paren_cut", "Gnucap.Spectre.blank_cut", "Gnucap.Spectre.underscore_type", "Gnucap.Spectre.search_ends", "Gnucap.Spectre.label_full"], "note": "Instances, headers and models that are listed are read again exactly (list_read, head_read, model_read); parameters of any text end and nothing is left (args_end); the number of nodes keeps its bounds whatever the line (ports_bounds); the search for the type ends in any text (search_ends); no label is empty (label_full); nodes without parentheses are read if a parameter follows (bare_read). Violated: without a parameter the first node is taken for the type (bare_lost); an unmatched closing sign in a line with nodes not in parentheses loops for ever (bare_hangs); a label with a bracket and no parameters makes the dispatcher see another type (type_bracket; type_found_partial is for labels skipped as a whole); a last port that is refused stays (refused_stays); ports of a subcircuit without parentheses are lost silently (bare_ports_lost); a value that begins with a parenthesis or has blanks is cut and its rest set as another parameter (paren_cut, blank_cut); a node that begins with an underscore ends the nodes and is the type (underscore_type). Not covered: bodies of subcircuits, commands with a label, which parameters a device takes."},
{"property": "C79", "status": "partial", "theorems": ["Gnucap.Out.column_kept", "Gnucap.Out.laid_out", "Gnucap.Out.width_kept", "Gnucap.Out.fits_unbroken", "Gnucap.Out.short_unbroken", "Gnucap.Out.tab_reaches", "Gnucap.Out.at_lost", "Gnucap.Out.pack_other", "Gnucap.Out.broken_read", "Gnucap.Out.words_read", "Gnucap.Out.long_split", "Gnucap.Out.handle_known", "Gnucap.Out.handle_new", "Gnucap.Out.handle_full", "Gnucap.Out.table_kept", "Gnucap.Out.redirected", "Gnucap.Out.closed_written", "Gnucap.Out.redirected_nowhere", "Gnucap.Out.argument_stays", "Gnucap.Out.kept", "Gnucap.Out.next_command", "Gnucap.Out.files_closed_partial", "Gnucap.Out.closed_twice"], "note": "For all sequences of output operations: columns (column_kept), nothing lost and nothing added but line breaks (laid_out), the width (width_kept), no needless breaks (fits_unbroken, short_unbroken), tabulators (tab_reaches), words of broken lines read again (broken_read, words_read), the table of files (handle_known, handle_new, table_kept), redirection to one file (redirected), the other words of a command (kept), what is left after it (next_command), no break between `=` or `(` and a short argument (argument_stays), files closed once and none left open if every one can be opened (files_closed_partial). column_kept and laid_out are without `pack` and for characters other than tab, backspace and return; laid_out is without tabulators and counts a `@` at the end of a text as a mark that is not shown. Violated: a text with `@` at its end loses it (at_lost); with `pack` a blank is left out because of a blank written to another file (pack_other); a line longer than the buffer of the reader but within the width is read as two (long_split); places in the table are never given back, so the 32nd file gets none (handle_full) and output redirected to it is lost without a word (redirected_nowhere); with two redirections output goes to the file closed (closed_written), and if the second can not be opened the first is closed twice (closed_twice). Not covered: flushing, the C library, numbers (C46), cipher."},
{"property": "C80", "status": "partial", "theorems": ["Gnucap.Table.digits_range", "Gnucap.Table.same_columns", "Gnucap.Table.row_read", "Gnucap.Table.row_line", "Gnucap.Table.row_broken", "Gnucap.Num.ftos_width", "Gnucap.Num.ftos_visible", "Gnucap.Table.run_together", "Gnucap.Table.long_shifts", "Gnucap.Table.label_overflows"], "note": "For 4 to 20 digits, in exact arithmetic: every number fills its column exactly and ends with a blank (ftos_width), is made of printable characters (ftos_visible), stands below its label if no label is wider than the column (same_columns), and is read again with a relative error of at most half a unit in the last but one of the digits asked for, zero below 1e-99, values up to BIGBIG (row_read); rows that fit are one line (row_line), others, broken anywhere, have the same words when read again if the width is within the buffer of the reader (row_broken). Violated: with 3 digits, the least allowed, neighbours run together (run_together); a label wider than its column shifts all headings behind it (long_shifts); a label of 4095 characters is written behind the end of a buffer (label_overflows). Not covered: rounding in the conversion, infinity and NaN, the heading when it is broken."},
{"property": "C81", "status": "partial", "theorems": ["Gnucap.Plot.scale_range", "Gnucap.Plot.ticks_at", "Gnucap.Plot.grid", "Gnucap.Plot.narrow_outside", "Gnucap.Plot.point_range", "Gnucap.Plot.point_near", "Gnucap.Plot.point_mono", "Gnucap.Plot.point_beyond_partial", "Gnucap.Plot.point_far", "Gnucap.Plot.point_tick", "Gnucap.Plot.drawn", "Gnucap.Plot.read_off", "Gnucap.Plot.not_drawn", "Gnucap.Plot.third_lost", "Gnucap.Plot.cut_wrong", "Gnucap.Plot.labels_apart", "Gnucap.Plot.labels_centred", "Gnucap.Plot.scale_line", "Gnucap.Plot.scale_broken"], "note": "In exact arithmetic, for widths from 10 to 2^31-1: arrays never left (scale_range, grid), marks exactly at the divisions (ticks_at), points nearest, in order, at the ends beyond the limits (point_near, point_mono, point_beyond_partial), values at marks on the marks (point_tick), lines as they should be and shorter than the width (drawn), values read off to half a column (read_off), numbers apart, over their marks, in one line with a short label (labels_apart, labels_centred, scale_line). Violated: a width below 10 (or above 2^31-1) writes before the arrays (narrow_outside); a value too far beyond the limits is converted to an integer that can not hold it (point_far); the first column and the numbers are cut to 8 characters, which loses exponents and makes mega milli (cut_wrong); a label longer than the first column breaks the line of the scale (scale_broken); a third probe has a scale but is not drawn (third_lost). Not covered: rounding of the steps between marks (with a very large number of divisions the loop does not end), infinity and NaN, opening and closing of plots, log scales (not used)."},
{"property": "C82", "status": "partial", "theorems": ["Gnucap.Cmd.short_runs", "Gnucap.Cmd.short_unique", "Gnucap.Cmd.long_runs", "Gnucap.Cmd.find_booted", "Gnucap.Cmd.name_runs", "Gnucap.Cmd.unknown", "Gnucap.Cmd.mark_runs", "Gnucap.Cmd.comment_partial", "Gnucap.Cmd.indented_comment_wrong", "Gnucap.Cmd.indented_taken", "Gnucap.Cmd.hidden_name"], "note": "Every word that is the beginning of one of the 14 names with short forms, long enough, runs that command (short_runs), and is short for one command only (short_unique); every other word is looked up as it is (long_runs); all 119 names installed at the start are found and no others (find_booted), and each runs its own command in any case (name_runs, except the marks, for which mark_runs); words that are neither run nothing (unknown); comments at the beginning of the line run nothing (comment_partial). Violated: behind blanks only the first mark of a comment is seen, so that an indented comment is taken for a command and one in quotes is run (indented_comment_wrong, indented_taken). A command installed under a short name is not run by it (hidden_name; the code says so). Not covered: what the commands do, commands of languages other than the default, the order of the lookup when plugins replace commands (C48)."},
{"property": "C83", "status": "partial", "theorems": ["Gnucap.Mult.first_product", "Gnucap.Mult.runs_product_partial", "Gnucap.Mult.stale_inside", "Gnucap.Mult.sweep_keeps", "Gnucap.Mult.stale_witness", "Gnucap.Mult.copies_load", "Gnucap.Mult.copies_solve", "Gnucap.Mult.order_element", "Gnucap.Mult.order_device", "Gnucap.Mult.order_common", "Gnucap.Mult.order_base", "Gnucap.Mult.order_never", "Gnucap.Mult.mfactor_name", "Gnucap.Mult.m_name", "Gnucap.Mult.m_subckt", "Gnucap.Mult.sys_index"], "note": "After the first analysis every component has the product of the factors on its path (first_product), and after any sequence of analyses the product with the last parameters if all that contain it are subcircuits or logic devices (runs_product_partial). n equal elements load what one with n times the factor does (copies_load), and a subcircuit of multiplicity k has the solutions of k copies in parallel, symmetric ones (copies_solve). Violated: the elements inside a device made by modelgen keep the factor of the first analysis (stale_inside, stale_witness; with assertions on, e_compon.h:199 stops the program), a sweep does not change factors (sweep_keeps); Verilog arguments by order to anything but a plain element start with $mfactor or are refused (order_device, order_common, order_base, order_never; order_element for plain elements); m= on a subcircuit never sets the multiplicity (m_subckt; mfactor_name and m_name for the others). Not covered: solutions of the copies that are not symmetric, probes (C60, C76), rounding."},
{"property": "C84", "status": "partial", "theorems": ["Gnucap.PrbCmd.probe_line", "Gnucap.PrbCmd.add_item", "Gnucap.PrbCmd.remove_item", "Gnucap.PrbCmd.loop_items", "Gnucap.PrbCmd.kind_named", "Gnucap.PrbCmd.kind_none", "Gnucap.PrbCmd.short_unique", "Gnucap.PrbCmd.clear_one", "Gnucap.PrbCmd.clear_all", "Gnucap.PrbCmd.system_item", "Gnucap.PrbCmd.nodes_item", "Gnucap.PrbCmd.loop_ends", "Gnucap.PrbCmd.loop_adds", "Gnucap.PrbCmd.loop_removes", "Gnucap.PrbCmd.others_kept", "Gnucap.PrbCmd.printed_name_removes", "Gnucap.PrbCmd.part_removed", "Gnucap.PrbCmd.system_removed", "Gnucap.PrbCmd.sticky_endless", "Gnucap.PrbCmd.line_endless", "Gnucap.PrbCmd.zero_name_wrong", "Gnucap.PrbCmd.missing_name_stops", "Gnucap.PrbCmd.missing_name_probes", "Gnucap.PrbCmd.remove_list_wrong", "Gnucap.PrbCmd.inner_nodes_alike", "Gnucap.PrbCmd.comment_ub"], "note": "A line of items gives the list it describes, signs carrying over to the items behind (probe_line, by loop_items, add_item, remove_item); v(nodes) and x(0) (nodes_item, system_item); the analysis by name or short name (kind_named, kind_none, short_unique); clear (clear_one, clear_all); other lists stay (others_kept); without a minus nothing is lost and without additions nothing is gained, for every text (loop_adds, loop_removes); the printed name takes a probe off (printed_name_removes): for parts the names on the way with dots between, for the system 0 (part_removed, system_removed). Every text without =, [ and ] comes to an end (loop_ends). Violated: at =, [ or ] the loop never ends (sticky_endless, line_endless); names that begin with 0 are taken as 0 (zero_name_wrong); a name that is not in the circuit ends its list, and what is left is read as an item (missing_name_stops, missing_name_probes); a minus with a list takes off only the first (remove_list_wrong); inner nodes of two instances have one printed name (inner_nodes_alike); a comment inside limits moves the cursor behind the end (comment_ub). Not covered: listings and messages, names found with wildcards are those of C66."},
{"property": "C85", "status": "partial", "theorems": ["Gnucap.Gen.before", "Gnucap.Gen.first_rise", "Gnucap.Gen.shape", "Gnucap.Gen.shape_on", "Gnucap.Gen.periodic", "Gnucap.Gen.bounded", "Gnucap.Gen.continuous_wave", "Gnucap.Gen.no_number", "Gnucap.Gen.on_drops", "Gnucap.Gen.long_rise", "Gnucap.Gen.command_line", "Gnucap.Gen.command_ends", "Gnucap.Gen.loop_nonneg", "Gnucap.Gen.command_ok", "Gnucap.Gen.initial_nonneg", "Gnucap.Gen.unknown_stops"], "note": "In exact arithmetic: the value before the delay (before), the first rise (first_rise; the period is longer than the rise), the pulse in every period by a formula of its own (shape, shape_on), periods (periodic), limits (bounded), continuity if the pulse has a rise, a fall and a width and fits into the period (continuous_wave). The command: names and short names (command_line), words not known (unknown_stops), its end (command_ends), times never negative after any commands (command_ok, loop_nonneg, initial_nonneg). Violated: without a rise time 0 is divided by 0 at the beginning of every period but the first, and only there (no_number); without a width the periodic pulse falls at once (on_drops); with a rise longer than the period the first rise falls back to the initial value and the maximum is never reached (long_rise). Not covered: corners are not announced to the time step control (c_genrat.cc:25 says so), rounding, the listing."},
{"property": "C86", "status": "partial", "theorems": ["Gnucap.Find.looking_out", "Gnucap.Find.looking_out_none", "Gnucap.Find.instance_of", "Gnucap.Find.instance_unknown", "Gnucap.Find.lexical_partial", "Gnucap.Find.captured", "Gnucap.Find.reading_skips", "Gnucap.Find.reading_skips_witness", "Gnucap.Find.bins_end", "Gnucap.Find.offers_unique", "Gnucap.Find.model_found", "Gnucap.Find.model_mismatch", "Gnucap.Find.model_none", "Gnucap.Find.no_bins", "Gnucap.Find.model_lexical_partial", "Gnucap.Find.model_captured", "Gnucap.Find.in_copy", "Gnucap.Find.device_hides", "Gnucap.Find.limits_meant", "Gnucap.Find.mos_bin", "Gnucap.Find.gap", "Gnucap.Find.wrong_message"], "note": "Subcircuit names: looking_out, looking_out_none, instance_of, instance_unknown. Model names: model_found, model_mismatch, model_none, with what one list offers stated on its own (Offers, offers_unique); the bins end (bins_end), MOS limits with their ends (limits_meant), the lowest fitting bin (mos_bin), a gap in the numbers (gap), the copy an instance has (in_copy). Violated: what a subcircuit sees is what is around its instance: a definition or model of the same name in a subcircuit between captures the name (captured, model_captured); it is as written if none between has the name (lexical_partial, model_lexical_partial). While a definition inside a definition is read, the outer one is not seen (reading_skips, reading_skips_witness). A device of the name, even the one that asks, hides a model behind it (device_hides). No bins match is said only of the root list (no_bins, wrong_message)."},
{"property": "C87", "status": "partial", "theorems": ["Gnucap.Semi.capacitor_value", "Gnucap.Semi.capacitor_only", "Gnucap.Semi.resistor_value", "Gnucap.Semi.resistor_only", "Gnucap.Semi.resistor_plain", "Gnucap.Semi.line_value_unused", "Gnucap.Semi.no_length", "Gnucap.Semi.nominal", "Gnucap.Semi.series", "Gnucap.Semi.capacitor_mono"], "note": "Proved in an ordered field: the values (capacitor_value, resistor_value, resistor_plain), that there is one only if something is left (capacitor_only, resistor_only, no_length), the temperature factor at nominal (nominal), strips in series (series), larger capacitors (capacitor_mono). Violated: the value on the line of a capacitor with such a model, or of a resistor whose model has a sheet resistance, is not used (line_value_unused), and without a length it does not help (no_length); Spice 3, with which the file says it is compatible, takes the value. Not covered: what tc1, tc2 and scale on the line of the device add (C63), rounding."},
{"property": "C88", "status": "partial", "theorems": ["Gnucap.AnaCmd.options_ends", "Gnucap.AnaCmd.ac_line", "Gnucap.AnaCmd.op_line", "Gnucap.AnaCmd.dc_line", "Gnucap.AnaCmd.free_left", "Gnucap.AnaCmd.ac_step_anywhere", "Gnucap.AnaCmd.ac_decade_text", "Gnucap.AnaCmd.ac_keeps", "Gnucap.AnaCmd.ac_plus_wrong", "Gnucap.AnaCmd.na_cuts", "Gnucap.AnaCmd.dc_captured_wrong", "Gnucap.AnaCmd.dc_unknown_wrong", "Gnucap.AnaCmd.dc_stop_wrong", "Gnucap.AnaCmd.op_temperature_wrong", "Gnucap.AnaCmd.numbers_expression", "Gnucap.AnaCmd.numbers_expressions", "Gnucap.AnaCmd.paren_wrong", "Gnucap.AnaCmd.word_alone", "Gnucap.AnaCmd.dc_again", "Gnucap.AnaCmd.dc_card", "Gnucap.AnaCmd.dc_numbers", "Gnucap.AnaCmd.dc_times"], "note": "Proved for all lines made of items (ac_line, op_line, dc_line), with the words listed on their own, independently of the tables; the end of the loop for all texts (options_ends); words the options do not know (free_left); the step of AC on either side (ac_step_anywhere); from the text to the frequencies of a decade sweep (ac_decade_text, with C36); what AC keeps (ac_keeps); expressions in quotes or braces as range of OP and AC (numbers_expression, numbers_expressions); words without their number (word_alone); DC with nothing, with numbers alone, with a step alone, with a card that is no element (dc_again, dc_numbers, dc_times, dc_card). Violated: a parenthesis is taken for an argument but not read (paren_wrong); + behind two numbers of AC is taken for a number without digits (ac_plus_wrong); a text that begins with NA is cut (na_cuts); at a second level of DC an element named like a flag is taken for the flag, its range for steps (dc_captured_wrong); an unknown word behind a level makes four levels with what earlier lines left (dc_unknown_wrong); the stop of DC is read without a look and takes a step word (dc_stop_wrong); the temperature on a line of OP is overwritten by the start of the sweep (op_temperature_wrong). Not covered: flags written with = and a truth value, the redirections outset reads, findbranch."},
{"property": "C89", "status": "partial", "theorems": ["Gnucap.Mos.level6_current", "Gnucap.Mos.level6_slopes", "Gnucap.Mos.level6_sigma_wrong", "Gnucap.Mos.level6_threshold", "Gnucap.Mos.level6_corner", "Gnucap.Mos.level6_bulk_wrong", "Gnucap.Mos.level6_passive", "Gnucap.Mos.level6_turns_down", "Gnucap.Mos.level6_device", "Gnucap.Mos.level6_nominal", "Gnucap.Mos.level6_temp", "Gnucap.Mos.level6_temp_wrong", "Gnucap.Mos.level1_temp", "Gnucap.Mos.vto_process"], "note": "Proved: the current at all voltages (level6_current); the slopes along all smooth paths without static feedback, away from threshold (level6_slopes), and at it with a power above 1 (level6_threshold); signs (level6_passive); the device from any state (level6_device); the threshold at the nominal temperature and, for an n channel with the usual gate, at any (level6_nominal, level6_temp); level 1 for both channels (level1_temp); the threshold from the process, that of Spice (vto_process). Violated: sigma is in the slope but not in the threshold (level6_sigma_wrong); with the default power 1 the current has a corner at threshold (level6_corner); with the bulk more than twice phi forward the slope is that of the tangent, the current no longer moves (level6_bulk_wrong); the threshold of a p channel moves against its surface potential with temperature (level6_temp_wrong; also levels 2 and 3, which have the same text); with nv above nc more gate voltage gives less current (level6_turns_down). Real arithmetic."},
{"property": "C90", "status": "partial", "theorems": ["Gnucap.Mos.level3_current", "Gnucap.Mos.level3_path", "Gnucap.Mos.level3_slopes", "Gnucap.Mos.level3_slopes_plain", "Gnucap.Mos.level3_theta_wrong", "Gnucap.Mos.level3_eta_wrong", "Gnucap.Mos.level3_sub_wrong", "Gnucap.Mos.level3_onset", "Gnucap.Mos.level3_vmax_current", "Gnucap.Mos.level3_vmax_slopes", "Gnucap.Mos.level3_vmax_wrong", "Gnucap.Mos.level3_vdsat_wrong", "Gnucap.Mos.level3_nan", "Gnucap.Mos.level3_passive", "Gnucap.Mos.level3_device", "Gnucap.Mos.level3_forward", "Gnucap.Mos.level3_forward_slopes", "Gnucap.Mos.level3_forward_wrong", "Gnucap.Mos.level3_vmax_short"], "note": "Proved: without velocity saturation the current at all voltages (level3_current), its slopes with gate and drain voltage along all smooth paths and exactly what that with bulk voltage lacks (level3_path, level3_slopes; all three right without theta: level3_slopes_plain), its sign (level3_passive) and the device from any state without static feedback (level3_device); with velocity saturation the current without shortening and the slopes below saturation (level3_vmax_current, level3_vmax_slopes), and the current and slopes with shortening up to the slope of vdsat (level3_vmax_short); the current with the bulk forward of the source (level3_forward), and the slopes of its threshold (level3_forward_slopes). Violated: with theta the slope with bulk voltage is wrong whenever current flows (level3_theta_wrong); with eta both other slopes are wrong in saturation with shortening (level3_eta_wrong); below threshold in saturation that with gate voltage is (level3_sub_wrong); past the onset of saturation the law itself has unbounded slopes, the transconductance falls below any bound (level3_onset); with vmax and no doping the current is flat in saturation and its slope is not zero (level3_vmax_wrong), and the slope of vdsat is wrong (level3_vdsat_wrong); xj without nsub gives slopes that are not numbers (level3_nan); for a narrow channel with the bulk forward the slope of the threshold is wrong (level3_forward_wrong). Missing: velocity saturation below threshold and with static feedback in saturation. Real arithmetic."},
{"property": "C91", "status": "partial", "theorems": ["Gnucap.Mos.level4_current", "Gnucap.Mos.drain_greatest", "Gnucap.Mos.level4_slopes", "Gnucap.Mos.level4_gds_low", "Gnucap.Mos.level4_gds_wrong", "Gnucap.Mos.level4_gmb_wrong", "Gnucap.Mos.level4_nan", "Gnucap.Mos.level4_device"], "note": "Proved: the current, threshold and saturation voltage at all voltages (level4_current), the saturated current being the largest on the way (drain_greatest); its slopes with gate and bulk voltage along all smooth paths where they are not negative, and that with drain voltage without weak inversion (level4_slopes); the device from any state without feedback of the drain (level4_device). Violated: with weak inversion the slope with drain voltage is too low whenever it is positive (level4_gds_low), so always below threshold (level4_gds_wrong); a slope that is negative is reported as zero, as that with bulk voltage when k2 outweighs the body effect (level4_gmb_wrong); with vdd left at its default of zero the result at no drain voltage is not a number (level4_nan). Missing: the bulk forward of the source, rest with feedback of the drain, sizes from the process, charges (never used by the device). Real arithmetic."},
{"property": "C92", "status": "partial", "theorems": ["Gnucap.TranCmd.tran_line", "Gnucap.TranCmd.tran_gives", "Gnucap.TranCmd.tran_session", "Gnucap.TranCmd.options_ends", "Gnucap.TranCmd.tran_signed_wrong", "Gnucap.TranCmd.tran_fifth", "Gnucap.TranCmd.fourier_line", "Gnucap.TranCmd.fourier_backwards", "Gnucap.TranCmd.fourier_times_ignored"], "note": "Proved: the line of TRANSIENT from its text (tran_line), with the meanings of C55 (tran_gives), and any number of them (tran_session); the line of FOURIER (fourier_line); the end of reading for all texts (options_ends). Violated: a line of TRANSIENT that begins with a signed number is read as one without numbers (tran_signed_wrong); a fifth number is passed over with a warning (tran_fifth); FOURIER takes a step below zero, to a run that ends before it begins (fourier_backwards); its options start, stop and strobeperiod are read and change nothing (fourier_times_ignored). Missing: arguments that are texts, output files (given from outside). Rational arithmetic."},
{"property": "C93", "status": "partial", "theorems": ["Gnucap.SpiceWrap.spice_device", "Gnucap.SpiceWrap.spice_ac", "Gnucap.SpiceWrap.spice_states", "Gnucap.SpiceWrap.spice_history", "Gnucap.SpiceWrap.spice_integrate", "Gnucap.SpiceWrap.spice_converged", "Gnucap.SpiceWrap.spice_queued", "Gnucap.SpiceWrap.spice_skipped", "Gnucap.SpiceWrap.spice_real", "Gnucap.SpiceWrap.spice_int_partial", "Gnucap.SpiceWrap.spice_unload_partial", "Gnucap.SpiceWrap.spice_float_wrong", "Gnucap.SpiceWrap.spice_float_beyond_wrong", "Gnucap.SpiceWrap.spice_joined_wrong", "Gnucap.SpiceWrap.spice_setup_changed_wrong", "Gnucap.SpiceWrap.spice_pz_wrong", "Gnucap.SpiceWrap.spice_unload_wrong", "Gnucap.SpiceWrap.spice_gear_wrong", "Gnucap.SpiceWrap.spice_int_wrong", "Gnucap.SpiceWrap.spice_flag_wrong"], "note": "Proved: seating, voltages and loads over any run (spice_device), the same for AC (spice_ac), states over time (spice_states, spice_history), integration at every reachable time (spice_integrate), convergence, queueing and skipping (spice_converged, spice_queued, spice_skipped), parameters (spice_real, spice_int_partial). Violated: floating terminals read and write outside the arrays (spice_float_wrong, spice_float_beyond_wrong); one node of its own joined to another makes two (spice_joined_wrong); nodes that change with a parameter keep their first numbers (spice_setup_changed_wrong); a device with only DEVpzLoad is not loaded in AC (spice_pz_wrong); unloading leaves the right side (spice_unload_wrong, spice_unload_partial); Gear is Euler (spice_gear_wrong); integers of a thousand or more are cut at the K (spice_int_wrong); a flag of 0 is set (spice_flag_wrong). Missing: the Spice devices themselves, damping (C15), initial conditions, sensitivities. Rational arithmetic."},
{"property": "C94", "status": "partial", "theorems": ["Gnucap.Files.means_runs", "Gnucap.Files.file_read", "Gnucap.Files.in_place", "Gnucap.Files.mode_kept", "Gnucap.Files.runs_unique", "Gnucap.Files.missing_section_wrong", "Gnucap.Files.include_in_subckt_wrong", "Gnucap.Files.in_subckt", "Gnucap.Files.subckt_file_wrong", "Gnucap.Files.indented_eom_wrong", "Gnucap.Files.glued_wrong", "Gnucap.Files.shadow_wrong", "Gnucap.Files.letter_b_wrong", "Gnucap.Files.empty_file_wrong", "Gnucap.Files.endl_of_another_wrong", "Gnucap.Files.inc_other_wrong", "Gnucap.Files.clears_anyway", "Gnucap.Files.double_mark_wrong", "Gnucap.Files.include_dir_wrong", "Gnucap.Files.more_warned", "Gnucap.Files.inc_nested_wrong"], "note": "Proved: the reader does what a tree of files means, for every tree (means_runs, file_read), by all the commands that read lines (.include, .lib, .merge, .get, <, .build, .inc, .`include) with the options behind a file; words behind a section are warned of (more_warned); files in place at the top (in_place), one outcome (runs_unique), the run mode kept (mode_kept). Violated: an instance of a file included in a subcircuit has no owner and a command there works on the whole circuit (include_in_subckt_wrong, subckt_file_wrong; in_subckt is the line written there); a section that is not there is no error (missing_section_wrong); the .endl of another section ends this one (endl_of_another_wrong); .eom behind a blank ends nothing (indented_eom_wrong); a mark glued to a word runs the command of that name (glued_wrong, clears_anyway), so does the letter B (letter_b_wrong); a card named like a command takes it away (shadow_wrong); an empty file run with < ends the file around it (empty_file_wrong); .inc is another command than .include (inc_other_wrong); << f does not clear the circuit as < < f does (double_mark_wrong); an exception in a file of .`include leaves the directory changed (include_dir_wrong); a file that an .inc file names and that is not there is a warning for the .inc line and loses the rest of its file (inc_nested_wrong). Missing: prompts within files of .inc; options written with =; continuation lines and comments of the input; what cards and commands do."},
{"property": "C95", "status": "partial", "theorems": ["Gnucap.Sess.line_runs", "Gnucap.Sess.mode_kept", "Gnucap.Sess.dir_kept", "Gnucap.Sess.typed_runs", "Gnucap.Sess.typed_total", "Gnucap.Sess.args_run", "Gnucap.Sess.reads_total", "Gnucap.Sess.reads_unique", "Gnucap.Sess.session_runs", "Gnucap.Sess.session_total", "Gnucap.Sess.code_zero_wrong", "Gnucap.Sess.startup_wrong", "Gnucap.Sess.empty_file_ends_wrong", "Gnucap.Sess.next_file_wrong", "Gnucap.Sess.interrupt_wrong", "Gnucap.Sess.interrupt_get", "Gnucap.Sess.interrupt_run_wrong", "Gnucap.Sess.interrupt_line", "Gnucap.Sess.interrupt_code_wrong"], "note": "Proved: without interrupts a session is exactly what its arguments and lines mean, with the run mode given by the files around a line (session_runs, line_runs, typed_runs, args_run; total and unique), the circuit is cleared at the end; an interrupt outside get, merge and < gives up one line only (interrupt_line, mode_kept). Violated: an interrupt inside get or merge leaves mode preset for ever, so quit, end and all analyses do nothing (interrupt_wrong, interrupt_get); inside < it leaves mode script, so end does not end (interrupt_run_wrong); the exit code is 0 whatever failed (code_zero_wrong), also for an interrupted -b (interrupt_code_wrong); a startup file that fails ends the program with nothing done and code 0 (startup_wrong); an empty file run with < or get ends the session (empty_file_ends_wrong); after a file that fails the next argument is looked for in the directory of that file (next_file_wrong). Missing: what the actions do; cd, pause, option acct; exceptions of clear."},
{"property": "C96", "status": "partial", "theorems": ["Gnucap.Plug.found_first", "Gnucap.Plug.found_none", "Gnucap.Plug.last_empty_wrong", "Gnucap.Plug.counted", "Gnucap.Plug.loaded_iff", "Gnucap.Plug.listed_right", "Gnucap.Plug.all_gone", "Gnucap.Plug.attach_detach", "Gnucap.Plug.attach_told", "Gnucap.Plug.circuit_keeps", "Gnucap.Plug.plugins_mem", "Gnucap.Plug.plugins_sorted", "Gnucap.Plug.dir_attached", "Gnucap.Plug.name_found", "Gnucap.Plug.path_found", "Gnucap.Plug.replace_wrong", "Gnucap.Plug.two_names_wrong", "Gnucap.Plug.removed_wrong", "Gnucap.Plug.dir_detach_wrong"], "note": "Proved: the search (found_first, found_none, name_found, path_found), counts and list after any history (counted, loaded_iff, listed_right), detach undoes attach (attach_detach), detach_all (all_gone), protection of a circuit (circuit_keeps), directories (plugins_mem, plugins_sorted, dir_attached). Violated: an empty last item of the path is not looked at (last_empty_wrong); attaching again what cannot be opened takes the old one away (replace_wrong); a library attached by two names stays loaded when one is detached (two_names_wrong); a plugin whose file is gone cannot be detached (removed_wrong); detaching a directory stops at the first plugin not attached (dir_detach_wrong). Missing: what a library does when it is loaded (dispatchers: C48), flags public and lazy."},
{"property": "C97", "status": "partial", "theorems": ["Gnucap.Mos.level2_current", "Gnucap.Mos.level2_gm", "Gnucap.Mos.level2_gds", "Gnucap.Mos.level2_gmb", "Gnucap.Mos.level2_weak_gm", "Gnucap.Mos.level2_weak_gds", "Gnucap.Mos.level2_weak_gmb", "Gnucap.Mos.level2_weak_wrong", "Gnucap.Mos.level2_narrow_wrong", "Gnucap.Mos.level2_short_wrong", "Gnucap.Mos.level2_passive", "Gnucap.Mos.drift_greatest", "Gnucap.Mos.level2_device", "Gnucap.Mos.level2_end", "Gnucap.Mos.quart_law", "Gnucap.Mos.pick_least", "Gnucap.Mos.level2_vmax_end_partial", "Gnucap.Mos.level2_vmax_current_partial", "Gnucap.Mos.level2_vmax_ignored", "Gnucap.Mos.level2_vmax_linear_wrong", "Gnucap.Mos.level2_nan"], "note": "Proved, without vmax: current (level2_current), slopes above threshold (level2_gm, level2_gds but for roundofftol, level2_gmb), slopes below for long channels (level2_weak_gm, level2_weak_gds), sign (level2_passive), saturation where the charge ends (drift_greatest), the device from any state, for long channels (level2_device). With vmax: there is one end of the channel (level2_end), the equation of fourth degree solved for it is the law (quart_law), its least root is found if the signs of the cubic are right (pick_least, level2_vmax_end_partial), and then the current is that of the law up to the tolerance of the equation (level2_vmax_current_partial). Violated: below threshold the slope with bulk voltage is too small, by an exact amount (level2_weak_gmb, level2_weak_wrong); a narrow channel without body effect and lambda has too small a transconductance (level2_narrow_wrong); a short channel without lambda has too large an output conductance (level2_short_wrong); with vmax the angle in the cubic is taken on the wrong side when S > 0 and vmax is ignored (level2_vmax_ignored); in the linear region the output conductance is too large by the current over vmax*l/ueff (level2_vmax_linear_wrong), and not a number without doping (level2_nan). Missing: the other slopes with vmax; slopes of short channels below threshold; forward bulk (which the device does not pass on); rounding."},
{"property": "C98", "status": "partial", "theorems": ["Gnucap.ListCmd.names_listed", "Gnucap.ListCmd.names_all", "Gnucap.ListCmd.all_listed", "Gnucap.ListCmd.range_listed", "Gnucap.ListCmd.rest_listed", "Gnucap.ListCmd.start_listed", "Gnucap.ListCmd.range_inside", "Gnucap.ListCmd.hits_end", "Gnucap.ListCmd.args_end", "Gnucap.ListCmd.unknown_silent", "Gnucap.ListCmd.range_same_refused", "Gnucap.ListCmd.dash_later", "Gnucap.ListCmd.dash_in_name", "Gnucap.ListCmd.range_mixed", "Gnucap.ListCmd.inside_first_only"], "note": "Proved from the characters of the line: names without dots, ranges, all, and that every listing ends. Violated: a later name that matches nothing ends the listing silently (unknown_silent, dash_later); a range from a part to itself is refused (range_same_refused); a dash needs a blank in front (dash_in_name); a range ending inside an instance compares iterators of two lists (range_mixed); of parts inside instances only the first instance is listed (inside_first_only). Missing: how a part is printed (C74, C77, C78), names of BUFLEN characters and more."},
{"property": "C99", "status": "partial", "theorems": ["Gnucap.ParCmd.param_sets", "Gnucap.ParCmd.param_real", "Gnucap.ParCmd.param_number", "Gnucap.ParCmd.param_expression", "Gnucap.ParCmd.param_others", "Gnucap.ParCmd.command_ends", "Gnucap.ParCmd.type_prefix_wrong", "Gnucap.ParCmd.missing_value_wrong", "Gnucap.ParCmd.na_prefix_wrong"], "note": "Proved from the characters of the line to the value found in a scope inside (with C42). Violated: a name that begins with real loses its front (type_prefix_wrong); a name without a value gets that of the name before (missing_value_wrong); a value that begins with NA is no value and its rest a name (na_prefix_wrong). Missing: lines of type integer and string, the printed list, calls of functions outside brackets."}
]}
