import Verif.AnaCmdModel
import Verif.AnaCmdMore
import Verif.AnaCmdProps
import Verif.BaseModel
import Verif.BaseProps
import Verif.BehavModel
import Verif.BehavProps
import Verif.BjtBaseModel
import Verif.BjtBaseProps
import Verif.BjtModel
import Verif.BjtProps
import Verif.BsimSizeModel
import Verif.BsimSizeProps
import Verif.CmdModel
import Verif.CmdProps
import Verif.CoilModel
import Verif.CoilProps
import Verif.CondModel
import Verif.CondProps
import Verif.DcLifeModel
import Verif.DcLifeProps
import Verif.DiodeModel
import Verif.DiodeProps
import Verif.DispatchModel
import Verif.DispatchProps
import Verif.ElemModel
import Verif.ElemProps
import Verif.ExprDump
import Verif.ExprFuel
import Verif.ExprLemmas
import Verif.ExprModel
import Verif.ExprProps
import Verif.ExprShape
import Verif.FaultModel
import Verif.FaultProps
import Verif.FftModel
import Verif.FftProps
import Verif.FilesModel
import Verif.FilesProps
import Verif.FindModel
import Verif.FindProps
import Verif.FourierProps
import Verif.FtosProps
import Verif.FtosWidth
import Verif.GenModel
import Verif.GenProps
import Verif.IntegModel
import Verif.IntegProps
import Verif.InterpModel
import Verif.InterpProps
import Verif.LimitModel
import Verif.LimitProps
import Verif.LinesModel
import Verif.LinesProps
import Verif.ListModel
import Verif.ListProps
import Verif.LoadLemmas
import Verif.LoadModel
import Verif.LoadProps
import Verif.LogfModel
import Verif.LogfProps
import Verif.LogicModel
import Verif.LogicProps
import Verif.MatrixLemmas
import Verif.MatrixModel
import Verif.MatrixProps
import Verif.MatrixSolveLemmas
import Verif.MeasCmdModel
import Verif.MeasCmdMore
import Verif.MeasCmdProps
import Verif.MeasureModel
import Verif.MeasureProps
import Verif.MeyerModel
import Verif.MeyerProps
import Verif.ModelLineModel
import Verif.ModelLineProps
import Verif.ModelTypeModel
import Verif.ModelTypeProps
import Verif.Mos2Baum
import Verif.Mos2Model
import Verif.Mos2More
import Verif.Mos2Props
import Verif.Mos3Fwd
import Verif.Mos3Model
import Verif.Mos3Props
import Verif.Mos3Vmax
import Verif.Mos4Model
import Verif.Mos4Props
import Verif.Mos5Model
import Verif.Mos5Props
import Verif.Mos6Model
import Verif.Mos6Props
import Verif.MosModel
import Verif.MosProcModel
import Verif.MosProcProps
import Verif.MosProps
import Verif.MultModel
import Verif.MultProps
import Verif.NameModel
import Verif.NameProps
import Verif.NameThms
import Verif.NumModel
import Verif.NumProps
import Verif.OptModel
import Verif.OptNames
import Verif.OptProps
import Verif.OptRound
import Verif.OptValues
import Verif.OutModel
import Verif.OutProps
import Verif.ParCmdModel
import Verif.ParCmdProps
import Verif.ParamModel
import Verif.ParamProps
import Verif.ParamWrong
import Verif.PlotModel
import Verif.PlotProps
import Verif.PlugModel
import Verif.PlugProps
import Verif.PolyGModel
import Verif.PolyGProps
import Verif.PrbCmdModel
import Verif.PrbCmdProps
import Verif.ProbeModel
import Verif.ProbeProps
import Verif.ReduceLemmas
import Verif.ReduceModel
import Verif.ReducePartial
import Verif.ReduceProps
import Verif.ReduceSound
import Verif.ReduceWrong
import Verif.RefModel
import Verif.RefProps
import Verif.RefUse
import Verif.ScanModel
import Verif.ScanProps
import Verif.SemiModel
import Verif.SemiProps
import Verif.SessModel
import Verif.SessProps
import Verif.SimDataModel
import Verif.SimDataProps
import Verif.SolveModel
import Verif.SolveProps
import Verif.SourceModel
import Verif.SourceProps
import Verif.SpectreForms
import Verif.SpectreModel
import Verif.SpectreProps
import Verif.SpiceModel
import Verif.SpiceProps
import Verif.SpiceWrapModel
import Verif.SpiceWrapProps
import Verif.SplineModel
import Verif.SplineProps
import Verif.StorModel
import Verif.StorProps
import Verif.SubcktModel
import Verif.SubcktProps
import Verif.SubcktThms
import Verif.SweepModel
import Verif.SweepProps
import Verif.SwitchModel
import Verif.SwitchProps
import Verif.TableModel
import Verif.TableProps
import Verif.TangentModel
import Verif.TangentProps
import Verif.TimerModel
import Verif.TimerProps
import Verif.TlineModel
import Verif.TlineProps
import Verif.TranCmdModel
import Verif.TranCmdProps
import Verif.TranSetModel
import Verif.TranSetProps
import Verif.TransInv
import Verif.TransLemmas
import Verif.TransModel
import Verif.TransProps
import Verif.Util
import Verif.VlogModel
import Verif.VlogProps
import Verif.WmatchModel
import Verif.WmatchProps
import Verif.XProbeModel
import Verif.XProbeProps
import Verif.ZProbe

/-! Generated by tools/manifest.py: prints the axioms every claimed theorem depends on. -/

#print axioms Gnucap.Mat.solve_correct
#print axioms Gnucap.Mat.solve_exact
#print axioms Gnucap.Mat.fbsub3_ground
#print axioms Gnucap.Mat.partial_eq_full
#print axioms Gnucap.Mat.run_eqAt
#print axioms Gnucap.Mat.fbsubt_correct
#print axioms Gnucap.Mat.fbsubt_size0
#print axioms Gnucap.Mat.inplace_eq_copy
#print axioms Gnucap.Mat.inplace_solve
#print axioms Gnucap.Mat.cellIndex_in_bounds
#print axioms Gnucap.Mat.cellIndex_injective
#print axioms Gnucap.Mat.nzcount_eq
#print axioms Gnucap.Mat.sget_spec
#print axioms Gnucap.Mat.iwantAll_spec
#print axioms Gnucap.Mat.iwantAll_covers
#print axioms Gnucap.Mat.iwantAll_order_independent
#print axioms Gnucap.Mat.iwantAll_wf
#print axioms Gnucap.Mat.loadSymmetric_stamp
#print axioms Gnucap.Mat.loadAsymmetric_stamp
#print axioms Gnucap.Mat.loadCouple_stamp
#print axioms Gnucap.Mat.loadPoint_stamp
#print axioms Gnucap.Mat.loadDiagonalPoint_stamp
#print axioms Gnucap.Load.iteration_solves_circuit
#print axioms Gnucap.Load.iteration_solves_circuit_exact_partial
#print axioms Gnucap.Load.lost_bound
#print axioms Gnucap.Load.recorded_values
#print axioms Gnucap.Load.loading_drifts
#print axioms Gnucap.Load.clear_load_factor_agree
#print axioms Gnucap.Solve.solve_success_confirmed
#print axioms Gnucap.Solve.solve_bounded
#print axioms Gnucap.Solve.negative_itermin_accepts_limiting
#print axioms Gnucap.MeasCmd.run_records
#print axioms Gnucap.MeasCmd.steps_total
#print axioms Gnucap.MeasCmd.found_after_run
#print axioms Gnucap.MeasCmd.found_label
#print axioms Gnucap.MeasCmd.found_kept
#print axioms Gnucap.MeasCmd.measure_line
#print axioms Gnucap.MeasCmd.measure_max
#print axioms Gnucap.MeasCmd.measure_min
#print axioms Gnucap.MeasCmd.measure_cross
#print axioms Gnucap.MeasCmd.measure_slope
#print axioms Gnucap.MeasCmd.measure_integral
#print axioms Gnucap.MeasCmd.measure_average
#print axioms Gnucap.MeasCmd.measure_rms_excess
#print axioms Gnucap.MeasCmd.measure_at_between
#print axioms Gnucap.MeasCmd.measure_at_point
#print axioms Gnucap.MeasCmd.measure_at_above
#print axioms Gnucap.MeasCmd.measure_at_below
#print axioms Gnucap.MeasCmd.after_probe_wrong
#print axioms Gnucap.MeasCmd.early_wrong
#print axioms Gnucap.MeasCmd.null_wrong
#print axioms Gnucap.MeasCmd.purge_wrong
#print axioms Gnucap.MeasCmd.unquoted_wrong
#print axioms Gnucap.Mos.level5_current
#print axioms Gnucap.Mos.level5_slopes
#print axioms Gnucap.Mos.hermite_ends
#print axioms Gnucap.Mos.vgeff5
#print axioms Gnucap.Mos.vg_path
#print axioms Gnucap.Mos.law_meets_sat
#print axioms Gnucap.Mos.level5_device
#print axioms Gnucap.Mos.eval5_some
#print axioms Gnucap.Mos.level5_jump
#print axioms Gnucap.Mos.level5_limits
#print axioms Gnucap.Mos.level5_no_vdd
#print axioms Gnucap.Mos.level5_stops
#print axioms Gnucap.MosProc.process
#print axioms Gnucap.MosProc.again
#print axioms Gnucap.MosProc.follows
#print axioms Gnucap.MosProc.size_law
#print axioms Gnucap.MosProc.size_mirror
#print axioms Gnucap.MosProc.sticks
#print axioms Gnucap.MosProc.gain_stale
#print axioms Gnucap.MosProc.threshold_stale
#print axioms Gnucap.MosProc.oxide_lost
#print axioms Gnucap.MosProc.sheet_told_wrong
#print axioms Gnucap.MosProc.default_length
#print axioms Gnucap.MosProc.length_negative
#print axioms Gnucap.MosProc.mobility_temp_wrong
#print axioms Gnucap.BjtBase.Props.card_law
#print axioms Gnucap.BjtBase.Props.within
#print axioms Gnucap.BjtBase.Props.conducts
#print axioms Gnucap.BjtBase.Props.falls
#print axioms Gnucap.BjtBase.Props.parallel
#print axioms Gnucap.BjtBase.Props.zero_bias
#print axioms Gnucap.BjtBase.Props.half_way
#print axioms Gnucap.BjtBase.Props.ebers_moll
#print axioms Gnucap.BjtBase.Props.half_way_device
#print axioms Gnucap.BjtBase.Props.side_by_side
#print axioms Gnucap.BjtBase.Props.negative
#print axioms Gnucap.BjtBase.Props.negative_reached
#print axioms Gnucap.BjtBase.Props.minimum_alone
#print axioms Gnucap.BjtBase.Props.over
#print axioms Gnucap.BjtBase.Props.over_reached
#print axioms Gnucap.BsimSize.Props.sdp_law
#print axioms Gnucap.BsimSize.Props.sdp_big
#print axioms Gnucap.BsimSize.Props.eff_law
#print axioms Gnucap.BsimSize.Props.eff_exists
#print axioms Gnucap.BsimSize.Props.four_law
#print axioms Gnucap.BsimSize.Props.five_law
#print axioms Gnucap.BsimSize.Props.wide
#print axioms Gnucap.BsimSize.Props.gain_at_bulk
#print axioms Gnucap.BsimSize.Props.gain_order
#print axioms Gnucap.BsimSize.Props.gain_disordered
#print axioms Gnucap.BsimSize.Props.no_bulk
#print axioms Gnucap.BsimSize.Props.no_oxide
#print axioms Gnucap.BsimSize.Props.narrow
#print axioms Gnucap.BsimSize.Props.overlap_drawn
#print axioms Gnucap.BsimSize.Props.no_potential
#print axioms Gnucap.Logf.Props.defined
#print axioms Gnucap.Logf.Props.copied
#print axioms Gnucap.Logf.Props.copied_pool
#print axioms Gnucap.Logf.Props.all_or_nothing
#print axioms Gnucap.Logf.Props.log_file
#print axioms Gnucap.Logf.Props.out_file
#print axioms Gnucap.Logf.Props.columns_partial
#print axioms Gnucap.Logf.Props.stale_column
#print axioms Gnucap.Logf.Props.warning_alone
#print axioms Gnucap.Logf.Props.place_lost
#print axioms Gnucap.Logf.Props.replay_closes
#print axioms Gnucap.PolyG.Props.synced
#print axioms Gnucap.PolyG.Props.load_law
#print axioms Gnucap.PolyG.Props.modes_agree
#print axioms Gnucap.PolyG.Props.amps_partial
#print axioms Gnucap.PolyG.Props.amps_error
#print axioms Gnucap.PolyG.Props.approach
#print axioms Gnucap.PolyG.Props.converged_partial
#print axioms Gnucap.PolyG.Props.unload_partial
#print axioms Gnucap.PolyG.Props.first_no
#print axioms Gnucap.PolyG.Props.bypass_keeps
#print axioms Gnucap.PolyG.Props.amps_wrong
#print axioms Gnucap.PolyG.Props.early
#print axioms Gnucap.PolyG.Props.rest_left
#print axioms Gnucap.Timer.Props.sim_time
#print axioms Gnucap.Timer.Props.sim_parts
#print axioms Gnucap.Timer.Props.overhead_nonneg
#print axioms Gnucap.Timer.Props.never_aborts_partial
#print axioms Gnucap.Timer.Props.get_time
#print axioms Gnucap.Timer.Props.get_off_partial
#print axioms Gnucap.Timer.Props.aborts
#print axioms Gnucap.Timer.Props.get_left
#print axioms Gnucap.Timer.Props.last_nested
#print axioms Gnucap.Timer.Props.acct_last
#print axioms Gnucap.Timer.Props.thrown_lost
#print axioms Gnucap.DcLife.Props.session_partial
#print axioms Gnucap.DcLife.Props.one_partial
#print axioms Gnucap.DcLife.Props.empty_stash
#print axioms Gnucap.DcLife.Props.reverts
#print axioms Gnucap.DcLife.Props.dangles
#print axioms Gnucap.DcLife.Props.param_reverts
#print axioms Gnucap.DcLife.Props.lingers
#print axioms Gnucap.DcLife.Props.no_level
#print axioms Gnucap.DcLife.Props.twice
#print axioms Gnucap.DcLife.Props.eval_fails
#print axioms Gnucap.ModelLine.Props.card_partial
#print axioms Gnucap.ModelLine.Props.given_partial
#print axioms Gnucap.ModelLine.Props.logic_partial
#print axioms Gnucap.ModelLine.Props.value_cut
#print axioms Gnucap.ModelLine.Props.logic_cut
#print axioms Gnucap.ModelLine.Props.unnamed_null
#print axioms Gnucap.Solve.homotopy_restores_partial
#print axioms Gnucap.Solve.homotopy_bounded
#print axioms Gnucap.Solve.homotopy_throw_leaves_options
#print axioms Gnucap.Load.final_solve_keeps_homotopy_gmin
#print axioms Gnucap.ModelType.Props.again
#print axioms Gnucap.ModelType.Props.level_name
#print axioms Gnucap.ModelType.Props.builtin_again
#print axioms Gnucap.ModelType.Props.mos_level
#print axioms Gnucap.ModelType.Props.mos_plain
#print axioms Gnucap.ModelType.Props.bjt_level
#print axioms Gnucap.ModelType.Props.hidden
#print axioms Gnucap.ModelType.Props.case_ignored
#print axioms Gnucap.ModelType.Props.case_kept
#print axioms Gnucap.ModelType.Props.level_plus
#print axioms Gnucap.ModelType.Props.level_minus
#print axioms Gnucap.ModelType.Props.level_text
#print axioms Gnucap.ModelType.Props.diode_level
#print axioms Gnucap.ModelType.Props.glued_wrong
#print axioms Gnucap.Sim.nodemap_dense
#print axioms Gnucap.Sim.nodemap_stable
#print axioms Gnucap.Sim.nodemap_same_iff
#print axioms Gnucap.Sim.nodemap_lookup
#print axioms Gnucap.Sim.mapNodes_spec
#print axioms Gnucap.Sim.mapNodes_bijective
#print axioms Gnucap.Sim.user_number_inverse
#print axioms Gnucap.Sim.setLimit_spec
#print axioms Gnucap.Sim.setLimit_idempotent
#print axioms Gnucap.Sim.limits_grow
#print axioms Gnucap.Sim.restore_last_kept
#print axioms Gnucap.Trans.accepted_times_increase
#print axioms Gnucap.Trans.next_never_late_partial
#print axioms Gnucap.Trans.events_not_stepped_over_partial
#print axioms Gnucap.Trans.strobe_lost
#print axioms Gnucap.Trans.event_lost
#print axioms Gnucap.Trans.strobe_lost_shrink
#print axioms Gnucap.Trans.sweep_terminates_partial
#print axioms Gnucap.Trans.step_at_least_dtmin
#print axioms Gnucap.Trans.step_control_spins
#print axioms Gnucap.Trans.small_dtmax_crashes
#print axioms Gnucap.Trans.strobes_exact_partial
#print axioms Gnucap.Trans.eventTime_spec
#print axioms Gnucap.Trans.queue_run
#print axioms Gnucap.Trans.pop_earliest
#print axioms Gnucap.Integ.review_is_min
#print axioms Gnucap.Integ.review_order_independent
#print axioms Gnucap.Integ.hist_run
#print axioms Gnucap.Integ.hist_decreasing
#print axioms Gnucap.Integ.differentiate_linear
#print axioms Gnucap.Integ.differentiate_trap_quadratic
#print axioms Gnucap.Integ.differentiate_gear_quadratic_partial
#print axioms Gnucap.Integ.differentiate_gear_error
#print axioms Gnucap.Integ.differentiate_gear_wrong
#print axioms Gnucap.Integ.differentiate_other
#print axioms Gnucap.Integ.companion_is_derivative
#print axioms Gnucap.Integ.capacitor_companion
#print axioms Gnucap.Integ.method_select_spec
#print axioms Gnucap.Integ.first_step_euler
#print axioms Gnucap.Integ.derivatives_interpolant
#print axioms Gnucap.Integ.derivatives_polynomial
#print axioms Gnucap.Integ.truncError_pos
#print axioms Gnucap.Integ.checkAndConvert_future
#print axioms Gnucap.Integ.checkAndConvert_never
#print axioms Gnucap.Integ.truncError_polynomial
#print axioms Gnucap.Integ.truncError_meets_tolerance
#print axioms Gnucap.Source.pulse_bounds
#print axioms Gnucap.Source.pulse_periodic
#print axioms Gnucap.Source.pulse_shape
#print axioms Gnucap.Source.pulse_shape_square
#print axioms Gnucap.Source.precalc_pos
#print axioms Gnucap.Source.pulse_event_future
#print axioms Gnucap.Source.pulse_straight_partial
#print axioms Gnucap.Source.pulse_near_corner_missed
#print axioms Gnucap.Source.pulse_wrap_missed
#print axioms Gnucap.Interp.pwl_table_check
#print axioms Gnucap.Interp.pwl_source_value_partial
#print axioms Gnucap.Interp.pwl_device_value_partial
#print axioms Gnucap.Interp.pwl_review_next_corner_partial
#print axioms Gnucap.Interp.pwl_linear_until_event_partial
#print axioms Gnucap.Interp.pwl_review_before_first
#print axioms Gnucap.Interp.pwl_second_analysis_doubles
#print axioms Gnucap.Interp.pwl_second_analysis_ub
#print axioms Gnucap.Interp.pwl_one_point_second_analysis_throws
#print axioms Gnucap.Interp.pwl_final_step_throws
#print axioms Gnucap.Interp.pwl_near_corner_missed
#print axioms Gnucap.Interp.interpolate_between
#print axioms Gnucap.Interp.interpolate_above
#print axioms Gnucap.Interp.interpolate_below
#print axioms Gnucap.Interp.interpolate_last
#print axioms Gnucap.Interp.interpolate_at_point
#print axioms Gnucap.Interp.interpolate_polyline
#print axioms Gnucap.Interp.interpolate_continuous
#print axioms Gnucap.Spline.at_knot
#print axioms Gnucap.Spline.order1
#print axioms Gnucap.Spline.order1_ends
#print axioms Gnucap.Spline.order2
#print axioms Gnucap.Spline.order2_ends
#print axioms Gnucap.Spline.order3_partial
#print axioms Gnucap.Spline.joins1
#print axioms Gnucap.Spline.joins2
#print axioms Gnucap.Spline.joins3
#print axioms Gnucap.Spline.djoins2
#print axioms Gnucap.Spline.djoins3
#print axioms Gnucap.Spline.ddjoins3
#print axioms Gnucap.Spline.ddends3
#print axioms Gnucap.Spline.glue
#print axioms Gnucap.Spline.glue_cont
#print axioms Gnucap.Spline.two_points_wrong
#print axioms Gnucap.Spline.one_point_ub
#print axioms Gnucap.Spline.construct_accepts
#print axioms Gnucap.Interp.delay_line_partial
#print axioms Gnucap.Interp.reflection
#print axioms Gnucap.Interp.line_begins_with_zero
#print axioms Gnucap.Interp.empty_wave_throws
#print axioms Gnucap.Interp.repeated_push_throws
#print axioms Gnucap.Source.sin_bounds
#print axioms Gnucap.Source.sin_extreme
#print axioms Gnucap.Source.sin_peak_partial
#print axioms Gnucap.Source.sin_zero_partial
#print axioms Gnucap.Source.sin_both_partial
#print axioms Gnucap.Source.sin_peak_wrong
#print axioms Gnucap.Integ.poly_roundtrip
#print axioms Gnucap.Integ.poly_ops
#print axioms Gnucap.Integ.poly_mul_slope
#print axioms Gnucap.Integ.poly_mul_wrong
#print axioms Gnucap.Integ.poly_mul_partial
#print axioms Gnucap.Sweep.dc_linear
#print axioms Gnucap.Sweep.dc_linear_exact
#print axioms Gnucap.Sweep.dc_loop
#print axioms Gnucap.Sweep.dc_loop_exact
#print axioms Gnucap.Sweep.dc_reverse_partial
#print axioms Gnucap.Sweep.dc_reverse_misses_stop
#print axioms Gnucap.Sweep.dc_reverse_loop_one_point
#print axioms Gnucap.Sweep.dc_wrong_direction
#print axioms Gnucap.Sweep.dc_no_step
#print axioms Gnucap.Sweep.dc_log
#print axioms Gnucap.Sweep.dc_log_from_zero_endless
#print axioms Gnucap.Sweep.dc_log_to_zero_endless
#print axioms Gnucap.Sweep.dc_lin_points_wrong
#print axioms Gnucap.Sweep.dc_nested
#print axioms Gnucap.Sweep.mem_cross
#print axioms Gnucap.Sweep.length_cross
#print axioms Gnucap.Sweep.dc_restores_partial
#print axioms Gnucap.Sweep.dc_same_element_twice_wrong
#print axioms Gnucap.Sweep.dc_stale_parameter
#print axioms Gnucap.Sweep.ac_linear
#print axioms Gnucap.Sweep.acLast_grid
#print axioms Gnucap.Sweep.ac_points_partial
#print axioms Gnucap.Sweep.ac_single
#print axioms Gnucap.Sweep.ac_points_one_wrong
#print axioms Gnucap.Sweep.ac_overshoots
#print axioms Gnucap.Sweep.ac_log_partial
#print axioms Gnucap.Sweep.ac_decade
#print axioms Gnucap.Sweep.ac_log_to_zero_endless
#print axioms Gnucap.Sweep.ac_log_degenerate
#print axioms Gnucap.Measure.mem_window
#print axioms Gnucap.Measure.max_correct
#print axioms Gnucap.Measure.min_correct
#print axioms Gnucap.Measure.cross_correct
#print axioms Gnucap.Measure.cross_on_line
#print axioms Gnucap.Measure.integral_correct
#print axioms Gnucap.Measure.average_correct
#print axioms Gnucap.Measure.slew_correct
#print axioms Gnucap.Measure.average_small_window
#print axioms Gnucap.Measure.rms_excess
#print axioms Gnucap.Measure.rms_wrong
#print axioms Gnucap.Measure.slew_flat_top_missed
#print axioms Gnucap.Measure.slew_last_wrong
#print axioms Gnucap.Expr.parse_text
#print axioms Gnucap.Expr.parse_all
#print axioms Gnucap.Expr.parse_three
#print axioms Gnucap.Expr.parse_shape
#print axioms Gnucap.Expr.text_unique
#print axioms Gnucap.Expr.rpn_injective
#print axioms Gnucap.Expr.blank_sign_wrong
#print axioms Gnucap.Expr.backslash_operator_wrong
#print axioms Gnucap.Expr.operator_eats_comma
#print axioms Gnucap.Expr.angle_eats_comma
#print axioms Gnucap.Expr.dump_disp
#print axioms Gnucap.Expr.dump_parse_partial
#print axioms Gnucap.Expr.dump_tern_wrong
#print axioms Gnucap.Expr.reduce_value
#print axioms Gnucap.Expr.reduce_complete
#print axioms Gnucap.Expr.reduce_completion_partial
#print axioms Gnucap.Expr.reduce_twice_partial
#print axioms Gnucap.Expr.reduce_rpn
#print axioms Gnucap.Expr.den_fun
#print axioms Gnucap.Expr.redN_succ
#print axioms Gnucap.Expr.unary_residual
#print axioms Gnucap.Expr.self_reference
#print axioms Gnucap.Expr.unary_copy_wrong
#print axioms Gnucap.Expr.regroup_overflow_wrong
#print axioms Gnucap.Expr.swap_class_wrong
#print axioms Gnucap.Expr.typed_partial_wrong
#print axioms Gnucap.Expr.string_parameter_wrong
#print axioms Gnucap.Expr.unknown_operator_wrong
#print axioms Gnucap.Expr.abs_string_wrong
#print axioms Gnucap.Base.binop_arith_partial
#print axioms Gnucap.Base.binop_div_vint
#print axioms Gnucap.Base.unop_arith
#print axioms Gnucap.Base.mod_int_real_wrong
#print axioms Gnucap.Base.mod_zero_ub
#print axioms Gnucap.Base.add_overflow_ub
#print axioms Gnucap.Base.vint_sign_wrong
#print axioms Gnucap.Base.vint_sum_order_wrong
#print axioms Gnucap.Base.log_base_wrong
#print axioms Gnucap.Base.binop_not_vreal
#print axioms Gnucap.Param.deepLookup_spec
#print axioms Gnucap.Param.deepLookup_none
#print axioms Gnucap.Param.setParam_lookup
#print axioms Gnucap.Param.setText_plain
#print axioms Gnucap.Param.eVal_text
#print axioms Gnucap.Param.eVal_fixed
#print axioms Gnucap.Param.eVal_default
#print axioms Gnucap.Param.eVal_unknown
#print axioms Gnucap.Param.eVal_counter
#print axioms Gnucap.Param.eVal_more
#print axioms Gnucap.Param.after_good_partial
#print axioms Gnucap.Param.failures_break_next
#print axioms Gnucap.Param.circle_no_result
#print axioms Gnucap.Param.circle_no_value
#print axioms Gnucap.Param.evalCopy_find
#print axioms Gnucap.Param.evalCopy_arg
#print axioms Gnucap.Param.evalCopy_den
#print axioms Gnucap.Param.evalCopy_not_given
#print axioms Gnucap.Param.recursion_leak_wrong
#print axioms Gnucap.Param.nested_default_wrong
#print axioms Gnucap.Param.outer_text_sees_inner
#print axioms Gnucap.Param.string_argument_lost
#print axioms Gnucap.Param.argument_class_lost
#print axioms Gnucap.Param.case_switch_wrong
#print axioms Gnucap.Scan.keyword_accepts
#print axioms Gnucap.Scan.umatch_single
#print axioms Gnucap.Scan.umatch_first_partial
#print axioms Gnucap.Scan.umatch_blank_alternative_wrong
#print axioms Gnucap.Scan.umatch_unclosed_ub
#print axioms Gnucap.Wmatch.wmatch_sound
#print axioms Gnucap.Wmatch.wmatch_complete_partial
#print axioms Gnucap.Wmatch.wmatch_trailing_star
#print axioms Gnucap.Wmatch.trailing_star_wrong
#print axioms Gnucap.Wmatch.star_in_subject_wrong
#print axioms Gnucap.Num.ctof_numeral
#print axioms Gnucap.Num.ctof_not_number
#print axioms Gnucap.Num.ctoi_numeral
#print axioms Gnucap.Num.ctof_sign_wrong
#print axioms Gnucap.Num.ctof_comma_wrong
#print axioms Gnucap.Num.ctof_exponent_ub
#print axioms Gnucap.Num.ctof_meter_wrong
#print axioms Gnucap.Num.ctoi_sign_wrong
#print axioms Gnucap.Num.ftos_roundtrip_partial
#print axioms Gnucap.Num.ftos_zero
#print axioms Gnucap.Num.ftos_unterminated
#print axioms Gnucap.Num.ftos_overrun
#print axioms Gnucap.Num.ftos_one_digit_less
#print axioms Gnucap.Lines.getlines_logical_partial
#print axioms Gnucap.Lines.getlines_end
#print axioms Gnucap.Lines.logical_rest
#print axioms Gnucap.Lines.readAll_logicals_partial
#print axioms Gnucap.Lines.long_line_split
#print axioms Gnucap.Dispatch.keys_spec
#print axioms Gnucap.Dispatch.install_finds
#print axioms Gnucap.Dispatch.install_keeps
#print axioms Gnucap.Dispatch.install_reachable_partial
#print axioms Gnucap.Dispatch.empty_name_wrong
#print axioms Gnucap.Dispatch.lookup_neutral
#print axioms Gnucap.Dispatch.lookup_answer
#print axioms Gnucap.Dispatch.uninstall_exact
#print axioms Gnucap.Dispatch.history_found
#print axioms Gnucap.Dispatch.history_reachable_partial
#print axioms Gnucap.Dispatch.history_only
#print axioms Gnucap.Probe.step_ok
#print axioms Gnucap.Probe.run_ok
#print axioms Gnucap.Probe.gone_no_probe
#print axioms Gnucap.Probe.assign_self_wrong
#print axioms Gnucap.Ref.step_ok
#print axioms Gnucap.Ref.run_ok
#print axioms Gnucap.Ref.no_leak
#print axioms Gnucap.Ref.sweep_roundtrip
#print axioms Gnucap.Ref.sweepSteps_id
#print axioms Gnucap.Ref.addTo_ok
#print axioms Gnucap.Ref.assignAttr_partial
#print axioms Gnucap.Ref.assign_shared_wrong
#print axioms Gnucap.Ref.assign_self_wrong
#print axioms Gnucap.Ref.sweep_twice_wrong
#print axioms Gnucap.Ref.expand_leaks
#print axioms Gnucap.Ref.own_part_undefined
#print axioms Gnucap.Logic.gate_settles
#print axioms Gnucap.Logic.gate_order
#print axioms Gnucap.Logic.gate_still
#print axioms Gnucap.Logic.gate_accept_future
#print axioms Gnucap.Logic.gate_present_partial
#print axioms Gnucap.Logic.gate_present_wrong
#print axioms Gnucap.Logic.and_gate_spurious_event
#print axioms Gnucap.Logic.event_on_time_partial
#print axioms Gnucap.Logic.rejected_restores_partial
#print axioms Gnucap.Logic.step_accepted
#print axioms Gnucap.Logic.overshoot_delays_event
#print axioms Gnucap.Logic.analog_roundtrip_partial
#print axioms Gnucap.Logic.analog_roundtrip_default
#print axioms Gnucap.Logic.analog_roundtrip_wrong
#print axioms Gnucap.Logic.analog_within
#print axioms Gnucap.Logic.analog_edge
#print axioms Gnucap.Limit.vgs_between
#print axioms Gnucap.Limit.vgs_fixed
#print axioms Gnucap.Limit.vgs_no_false_stop
#print axioms Gnucap.Limit.vgs_move_bounded
#print axioms Gnucap.Limit.vgs_transparent
#print axioms Gnucap.Limit.vds_between_partial
#print axioms Gnucap.Limit.vds_fixed_partial
#print axioms Gnucap.Limit.vds_no_false_stop_partial
#print axioms Gnucap.Limit.vds_moves_converged
#print axioms Gnucap.Limit.vds_stuck
#print axioms Gnucap.Limit.pnj_fixed
#print axioms Gnucap.Limit.pnj_transparent
#print axioms Gnucap.Limit.pnj_up
#print axioms Gnucap.Limit.pnj_down
#print axioms Gnucap.Limit.pnj_overshoots
#print axioms Gnucap.Limit.pnj_no_false_stop
#print axioms Gnucap.Fft.fft_correct
#print axioms Gnucap.Fft.fft_there_and_back
#print axioms Gnucap.Fft.fft_returns_iff
#print axioms Gnucap.Fft.fft_three_hangs
#print axioms Gnucap.Switch.transient_state
#print axioms Gnucap.Switch.transient_state_vt_vh
#print axioms Gnucap.Switch.thresholds_given
#print axioms Gnucap.Switch.dc_state
#print axioms Gnucap.Switch.static_converged
#print axioms Gnucap.Switch.conductance_matches
#print axioms Gnucap.Switch.change_is_loaded
#print axioms Gnucap.Switch.decided_run
#print axioms Gnucap.Switch.crossing_announced
#print axioms Gnucap.Switch.no_crossing_future
#print axioms Gnucap.Switch.accepted_crossing
#print axioms Gnucap.Switch.rejected_refines
#print axioms Gnucap.Switch.threshold_differs
#print axioms Gnucap.Switch.negative_hysteresis_wrong
#print axioms Gnucap.TranSet.setup_times
#print axioms Gnucap.TranSet.setup_steps_partial
#print axioms Gnucap.TranSet.three_spice
#print axioms Gnucap.TranSet.three_logical
#print axioms Gnucap.TranSet.two_spice
#print axioms Gnucap.TranSet.two_logical
#print axioms Gnucap.TranSet.one_stop
#print axioms Gnucap.TranSet.again_continues
#print axioms Gnucap.TranSet.three_ambiguous
#print axioms Gnucap.TranSet.strobe_longer_than_run
#print axioms Gnucap.TranSet.dtmin_above_dtmax
#print axioms Gnucap.TranSet.again_forever
#print axioms Gnucap.Expr.parse_total
#print axioms Gnucap.Expr.parse_fuel
#print axioms Gnucap.Expr.parse_progress
#print axioms Gnucap.Fft.fourier_correct
#print axioms Gnucap.Fft.relative_correct
#print axioms Gnucap.Fft.points_spec
#print axioms Gnucap.Fft.stepnum_nearest
#print axioms Gnucap.Fft.half_sampling_wrong
#print axioms Gnucap.Elem.dev_tr
#print axioms Gnucap.Elem.dev_ac
#print axioms Gnucap.Elem.card_tr
#print axioms Gnucap.Elem.card_ac
#print axioms Gnucap.Elem.tr_writes_inside
#print axioms Gnucap.Elem.ac_writes_inside
#print axioms Gnucap.Elem.stamp_elsewhere
#print axioms Gnucap.Elem.circuit_iteration_solves
#print axioms Gnucap.Elem.ac_loaded
#print axioms Gnucap.Elem.acSolve_solves
#print axioms Gnucap.Elem.portImpedance_spec
#print axioms Gnucap.Elem.ac_port_impedance
#print axioms Gnucap.Elem.solves_unique
#print axioms Gnucap.Elem.z_parallel_own
#print axioms Gnucap.Elem.vccs_impedance_wrong
#print axioms Gnucap.Coil.rel_step
#print axioms Gnucap.Coil.rel_run
#print axioms Gnucap.Coil.mutual_refines
#print axioms Gnucap.Coil.winding_line
#print axioms Gnucap.Coil.coil_row
#print axioms Gnucap.Coil.coil_terminal_row
#print axioms Gnucap.Coil.mutual_row
#print axioms Gnucap.Coil.coupled_coil_equation
#print axioms Gnucap.Coil.coupled_ac
#print axioms Gnucap.Coil.bypass_keeps_old_flux
#print axioms Gnucap.Tangent.plain_begin
#print axioms Gnucap.Tangent.res_line
#print axioms Gnucap.Tangent.res_slope
#print axioms Gnucap.Tangent.adm_line
#print axioms Gnucap.Tangent.vcvs_line
#print axioms Gnucap.Tangent.vs_line
#print axioms Gnucap.Tangent.cs_line
#print axioms Gnucap.Tangent.cccs_line
#print axioms Gnucap.Tangent.ccvs_line
#print axioms Gnucap.Tangent.vcg_line
#print axioms Gnucap.Tangent.vcr_line
#print axioms Gnucap.Tangent.damped_line
#print axioms Gnucap.Tangent.loads_kinds
#print axioms Gnucap.Tangent.element_row
#print axioms Gnucap.Tangent.newton_tangent
#print axioms Gnucap.Tangent.probed_line
#print axioms Gnucap.Tangent.plain_sweep
#print axioms Gnucap.Tangent.cccs_sweep
#print axioms Gnucap.Tangent.ccvs_sweep_partial
#print axioms Gnucap.Tangent.cccs_ac
#print axioms Gnucap.Tangent.ccvs_ac
#print axioms Gnucap.Tangent.cccs_ac_gain
#print axioms Gnucap.Tangent.ccvs_ac_without_op
#print axioms Gnucap.Tangent.ccvs_sweep_stale
#print axioms Gnucap.Tangent.ccvs_inode_collapses
#print axioms Gnucap.Tangent.cccs_inode_sweep_stale
#print axioms Gnucap.Behav.poly_sum
#print axioms Gnucap.Behav.poly_report
#print axioms Gnucap.Behav.lim_value
#print axioms Gnucap.Behav.lim_report
#print axioms Gnucap.Behav.posy_report
#print axioms Gnucap.Behav.posy_eval_report
#print axioms Gnucap.Behav.tanh_report
#print axioms Gnucap.Behav.tanh_cut
#print axioms Gnucap.Behav.modified_report
#print axioms Gnucap.Behav.modified_tangent
#print axioms Gnucap.Behav.ioffset_line
#print axioms Gnucap.Behav.ioffset_lost
#print axioms Gnucap.Behav.fit_ignores_ioffset
#print axioms Gnucap.Behav.source_value
#print axioms Gnucap.Behav.source_tdv
#print axioms Gnucap.Behav.current_source_tdv
#print axioms Gnucap.Behav.admittance_tdv
#print axioms Gnucap.Behav.ac_drift
#print axioms Gnucap.Behav.ac_slope
#print axioms Gnucap.Behav.exp_value
#print axioms Gnucap.Behav.exp_before
#print axioms Gnucap.Behav.exp_hangs
#print axioms Gnucap.Behav.exp_continuous
#print axioms Gnucap.Behav.sffm_range
#print axioms Gnucap.Behav.ac_final
#print axioms Gnucap.Behav.ac_final_no_bandwidth
#print axioms Gnucap.Behav.ac_bandwidth_drops_imaginary
#print axioms Gnucap.Behav.ac_long_delay
#print axioms Gnucap.Behav.poly_without_coefficients
#print axioms Gnucap.Behav.posy_constant_at_zero
#print axioms Gnucap.Behav.posy_slope_at_zero
#print axioms Gnucap.Cond.rules_spec
#print axioms Gnucap.Cond.read_given
#print axioms Gnucap.Cond.selection
#print axioms Gnucap.Cond.all_served
#print axioms Gnucap.Cond.spice_source
#print axioms Gnucap.Cond.single_element
#print axioms Gnucap.Cond.single_source
#print axioms Gnucap.Cond.print_parse_partial
#print axioms Gnucap.Cond.plain_value_lost
#print axioms Gnucap.Cond.gate_in_source
#print axioms Gnucap.Subckt.elaborate_flat
#print axioms Gnucap.Subckt.elaborate_rows
#print axioms Gnucap.Subckt.elaborate_depth
#print axioms Gnucap.Subckt.elaborate_cyclic
#print axioms Gnucap.Subckt.elaborate_ok
#print axioms Gnucap.Subckt.rinit_first
#print axioms Gnucap.Subckt.rinit_again_partial
#print axioms Gnucap.Subckt.header_skip
#print axioms Gnucap.Subckt.skip_overrun
#print axioms Gnucap.Subckt.skip_joins
#print axioms Gnucap.Subckt.skipped_port_shorts
#print axioms Gnucap.Subckt.skipped_port_overrun
#print axioms Gnucap.Subckt.again_collides
#print axioms Gnucap.Subckt.model_node_name
#print axioms Gnucap.Subckt.again_coil
#print axioms Gnucap.Names.addBranches_spec
#print axioms Gnucap.Names.one_dot
#print axioms Gnucap.Names.printed_name_probed
#print axioms Gnucap.Names.findBranch_spec
#print axioms Gnucap.Names.modify_plain
#print axioms Gnucap.Names.inner_nodes_lost
#print axioms Gnucap.Names.delete_printed
#print axioms Gnucap.Names.delete_pattern
#print axioms Gnucap.Names.delete_not_in_devices
#print axioms Gnucap.Names.delete_safe_partial
#print axioms Gnucap.Names.mixed_order_found
#print axioms Gnucap.Names.found_twice
#print axioms Gnucap.Names.printed_name_not_found
#print axioms Gnucap.Names.modify_only_first_instance
#print axioms Gnucap.Names.modify_too_deep
#print axioms Gnucap.Names.definition_found
#print axioms Gnucap.Names.delete_in_model_crashes
#print axioms Gnucap.Stor.euler_balance
#print axioms Gnucap.Stor.trap_balance
#print axioms Gnucap.Stor.gear_balance
#print axioms Gnucap.Stor.capacitor_euler
#print axioms Gnucap.Stor.capacitor_trap
#print axioms Gnucap.Stor.capacitor_ac
#print axioms Gnucap.Stor.step_charge
#print axioms Gnucap.Stor.cap_line
#print axioms Gnucap.Stor.ind_line
#print axioms Gnucap.Stor.inductor_step
#print axioms Gnucap.Stor.static_line
#print axioms Gnucap.Stor.dc_flat
#print axioms Gnucap.Stor.loaded_follows
#print axioms Gnucap.Stor.rate_tangent
#print axioms Gnucap.Stor.value_report
#print axioms Gnucap.Stor.vccap_charge
#print axioms Gnucap.Stor.vccap_probe_off
#print axioms Gnucap.Stor.vccap_function_lost
#print axioms Gnucap.Stor.vccap_ac_at_output
#print axioms Gnucap.Stor.tcap_function_lost
#print axioms Gnucap.Tline.wave_out
#print axioms Gnucap.Tline.characteristics
#print axioms Gnucap.Tline.launch_close
#print axioms Gnucap.Tline.matched
#print axioms Gnucap.Tline.load_full
#print axioms Gnucap.Tline.load_incremental
#print axioms Gnucap.Tline.not_queued
#print axioms Gnucap.Tline.acLength_spec
#print axioms Gnucap.Tline.angle_ok
#print axioms Gnucap.Tline.angle_close
#print axioms Gnucap.Tline.ac_telegraph
#print axioms Gnucap.Tline.ac_load_rows
#print axioms Gnucap.Tline.ac_lossless
#print axioms Gnucap.Tline.ac_matched
#print axioms Gnucap.Tline.from_lc
#print axioms Gnucap.Tline.from_frequency
#print axioms Gnucap.Tline.wave_out_throws
#print axioms Gnucap.Tline.first_step_at_delay
#print axioms Gnucap.Tline.long_step_asymmetric
#print axioms Gnucap.Tline.static_open_end
#print axioms Gnucap.Tline.no_delay_throws
#print axioms Gnucap.Diode.reverse_exact
#print axioms Gnucap.Diode.forward_tangent
#print axioms Gnucap.Diode.forward_next
#print axioms Gnucap.Diode.forward_fixed
#print axioms Gnucap.Diode.held_converges
#print axioms Gnucap.Diode.held_slope
#print axioms Gnucap.Diode.parallel_wrong
#print axioms Gnucap.Diode.parallel_stops
#print axioms Gnucap.Diode.low_exact
#print axioms Gnucap.Diode.high_exact
#print axioms Gnucap.Diode.spice_exact
#print axioms Gnucap.Diode.limited_exact
#print axioms Gnucap.Diode.law_strictMono
#print axioms Gnucap.Diode.limit_short
#print axioms Gnucap.Diode.limit_never
#print axioms Gnucap.Diode.no_breakdown
#print axioms Gnucap.Diode.no_breakdown_usual
#print axioms Gnucap.Diode.satCurrent_nominal
#print axioms Gnucap.Diode.satCurrent_mono
#print axioms Gnucap.Diode.junction_smooth
#print axioms Gnucap.Diode.junction_pos_mono
#print axioms Gnucap.Diode.charge_close
#print axioms Gnucap.Diode.cap_charge
#print axioms Gnucap.Diode.charge_drifts
#print axioms Gnucap.Mos.eval_eq
#print axioms Gnucap.Mos.eval_slopes
#print axioms Gnucap.Mos.vth_nominal
#print axioms Gnucap.Mos.eval_passive
#print axioms Gnucap.Mos.vgs_reaches
#print axioms Gnucap.Mos.vds_reaches
#print axioms Gnucap.Mos.settled_fixed
#print axioms Gnucap.Mos.settles
#print axioms Gnucap.Mos.settled_flow
#print axioms Gnucap.Mos.F_swap
#print axioms Gnucap.Mos.F_mirror
#print axioms Gnucap.Mos.device_tangent
#print axioms Gnucap.Mos.eval_von
#print axioms Gnucap.Mos.device_current
#print axioms Gnucap.Mos.bulk_forward
#print axioms Gnucap.Mos.body_slope_wrong
#print axioms Gnucap.Mos.sub_n
#print axioms Gnucap.Mos.sub_p
#print axioms Gnucap.Mos.sub_p_witness
#print axioms Gnucap.Mos.sub_7
#print axioms Gnucap.Mos.into_sum
#print axioms Gnucap.Mos.probe_dsg
#print axioms Gnucap.Mos.probe_bulk_wrong
#print axioms Gnucap.Bjt.half_on
#print axioms Gnucap.Bjt.half_off
#print axioms Gnucap.Bjt.charge_slopes
#print axioms Gnucap.Bjt.slopes
#print axioms Gnucap.Bjt.pnj_reaches
#print axioms Gnucap.Bjt.settles
#print axioms Gnucap.Bjt.rest_flow
#print axioms Gnucap.Bjt.mirror
#print axioms Gnucap.Bjt.terminals
#print axioms Gnucap.Bjt.forward_gain
#print axioms Gnucap.Bjt.reverse_gain
#print axioms Gnucap.Bjt.cce_slope_wrong
#print axioms Gnucap.Bjt.spec_passive
#print axioms Gnucap.Bjt.delivers
#print axioms Gnucap.Bjt.never_bypassed
#print axioms Gnucap.Bjt.tdp_nominal
#print axioms Gnucap.Bjt.tdp_is_mono
#print axioms Gnucap.Bjt.tdp_steps
#print axioms Gnucap.Bjt.tdp_pot
#print axioms Gnucap.Bjt.tdp_pot_steps
#print axioms Gnucap.Bjt.depletion_slope
#print axioms Gnucap.Bjt.substrate_slope
#print axioms Gnucap.Bjt.transit_slopes
#print axioms Gnucap.Bjt.transit_exact
#print axioms Gnucap.Bjt.itf_wrong
#print axioms Gnucap.Bjt.chargeBE_slopes
#print axioms Gnucap.Bjt.transit_neg
#print axioms Gnucap.Bjt.chargeBC_slopes
#print axioms Gnucap.Bjt.fpoly_flow
#print axioms Gnucap.Bjt.fpoly_line
#print axioms Gnucap.Bjt.fpoly_static
#print axioms Gnucap.Meyer.ddif_pos
#print axioms Gnucap.Meyer.bounds
#print axioms Gnucap.Meyer.bias_ok
#print axioms Gnucap.Meyer.ends
#print axioms Gnucap.Meyer.terminals
#print axioms Gnucap.Meyer.meyer_eq
#print axioms Gnucap.Meyer.meyer_continuous
#print axioms Gnucap.Meyer.cgb_continuous
#print axioms Gnucap.Meyer.reversal
#print axioms Gnucap.Meyer.charges_const
#print axioms Gnucap.Meyer.charges_linear
#print axioms Gnucap.Meyer.reversal_jumps
#print axioms Gnucap.Meyer.reversal_bulk
#print axioms Gnucap.Meyer.onset_jumps
#print axioms Gnucap.Meyer.threshold_jumps
#print axioms Gnucap.Meyer.charge_lost
#print axioms Gnucap.Fault.unfault_restores
#print axioms Gnucap.Fault.faults_leave_nothing
#print axioms Gnucap.Fault.run_sees_faults
#print axioms Gnucap.Fault.run_spec
#print axioms Gnucap.Fault.sweep_leaves_nothing
#print axioms Gnucap.Fault.sweep_values
#print axioms Gnucap.Fault.sweep_covers
#print axioms Gnucap.Fault.sweep_log
#print axioms Gnucap.Fault.sweep_log_zero
#print axioms Gnucap.Fault.faultLine_partial
#print axioms Gnucap.Fault.faultLine_long
#print axioms Gnucap.Fault.instance_fault
#print axioms Gnucap.Fault.deleted_fault
#print axioms Gnucap.Fault.not_an_element
#print axioms Gnucap.Spice.count_pairs
#print axioms Gnucap.Spice.count_end
#print axioms Gnucap.Spice.count_bracket
#print axioms Gnucap.Spice.count_paren
#print axioms Gnucap.Spice.count_guess
#print axioms Gnucap.Spice.count_ends
#print axioms Gnucap.Spice.count_inside
#print axioms Gnucap.Spice.list_read
#print axioms Gnucap.Spice.quoted_pairs
#print axioms Gnucap.Spice.quoted_escape
#print axioms Gnucap.Spice.braces_read
#print axioms Gnucap.Spice.semicolon_hangs
#print axioms Gnucap.Spice.expression_split
#print axioms Gnucap.Spice.sysparam_kept
#print axioms Gnucap.Spice.sysparam_renamed
#print axioms Gnucap.Spice.module_params_lost
#print axioms Gnucap.Opt.name_selects
#print axioms Gnucap.Opt.no_name_clears
#print axioms Gnucap.Opt.loop_ends
#print axioms Gnucap.Opt.settled_kept
#print axioms Gnucap.Opt.initial_settled
#print axioms Gnucap.Opt.print_inside
#print axioms Gnucap.Opt.print_read_partial
#print axioms Gnucap.Opt.limits_lost
#print axioms Gnucap.Opt.zero_flags_lost
#print axioms Gnucap.Opt.comment_read
#print axioms Gnucap.Opt.comment_sets
#print axioms Gnucap.Opt.slash_end_ub
#print axioms Gnucap.Opt.flag_value
#print axioms Gnucap.Opt.toInt_cuts
#print axioms Gnucap.Opt.int_value
#print axioms Gnucap.Opt.lang_value
#print axioms Gnucap.XProbe.name_reads
#print axioms Gnucap.XProbe.node_volts
#print axioms Gnucap.XProbe.denoise_near
#print axioms Gnucap.XProbe.denoise_noise
#print axioms Gnucap.XProbe.power_split
#print axioms Gnucap.XProbe.sub_power_partial
#print axioms Gnucap.XProbe.sub_power_wrong
#print axioms Gnucap.XProbe.switch_reads_current
#print axioms Gnucap.XProbe.switch_blind
#print axioms Gnucap.XProbe.node_reads_partial
#print axioms Gnucap.XProbe.count_runs_on
#print axioms Gnucap.XProbe.ac_reads
#print axioms Gnucap.XProbe.ac_polar
#print axioms Gnucap.XProbe.phase_range
#print axioms Gnucap.XProbe.db_back
#print axioms Gnucap.XProbe.power_db
#print axioms Gnucap.XProbe.power_db_lost
#print axioms Gnucap.XProbe.r_is_inverse
#print axioms Gnucap.Vlog.attrs_read
#print axioms Gnucap.Vlog.attrs_groups
#print axioms Gnucap.Vlog.id_read
#print axioms Gnucap.Vlog.params_read
#print axioms Gnucap.Vlog.ports_read
#print axioms Gnucap.Vlog.list_read
#print axioms Gnucap.Vlog.type_found_partial
#print axioms Gnucap.Vlog.type_star
#print axioms Gnucap.Vlog.digit_name_changed
#print axioms Gnucap.Vlog.escape_dropped
#print axioms Gnucap.Vlog.escape_unended
#print axioms Gnucap.Vlog.ordered_read
#print axioms Gnucap.Vlog.underscore_lost
#print axioms Gnucap.Vlog.header_read
#print axioms Gnucap.Vlog.module_ports_partial
#print axioms Gnucap.Vlog.module_overrun
#print axioms Gnucap.Vlog.paramset_read_partial
#print axioms Gnucap.Vlog.paramset_cut
#print axioms Gnucap.Spectre.scan_finds
#print axioms Gnucap.Spectre.args_end
#print axioms Gnucap.Spectre.list_read
#print axioms Gnucap.Spectre.ports_bounds
#print axioms Gnucap.Spectre.type_found_partial
#print axioms Gnucap.Spectre.type_bracket
#print axioms Gnucap.Spectre.bare_read
#print axioms Gnucap.Spectre.bare_lost
#print axioms Gnucap.Spectre.bare_hangs
#print axioms Gnucap.Spectre.head_read
#print axioms Gnucap.Spectre.refused_stays
#print axioms Gnucap.Spectre.bare_ports_lost
#print axioms Gnucap.Spectre.model_read
#print axioms Gnucap.Spectre.paren_cut
#print axioms Gnucap.Spectre.blank_cut
#print axioms Gnucap.Spectre.underscore_type
#print axioms Gnucap.Spectre.search_ends
#print axioms Gnucap.Spectre.label_full
#print axioms Gnucap.Out.column_kept
#print axioms Gnucap.Out.laid_out
#print axioms Gnucap.Out.width_kept
#print axioms Gnucap.Out.fits_unbroken
#print axioms Gnucap.Out.short_unbroken
#print axioms Gnucap.Out.tab_reaches
#print axioms Gnucap.Out.at_lost
#print axioms Gnucap.Out.pack_other
#print axioms Gnucap.Out.broken_read
#print axioms Gnucap.Out.words_read
#print axioms Gnucap.Out.long_split
#print axioms Gnucap.Out.handle_known
#print axioms Gnucap.Out.handle_new
#print axioms Gnucap.Out.handle_full
#print axioms Gnucap.Out.table_kept
#print axioms Gnucap.Out.redirected
#print axioms Gnucap.Out.closed_written
#print axioms Gnucap.Out.redirected_nowhere
#print axioms Gnucap.Out.argument_stays
#print axioms Gnucap.Out.kept
#print axioms Gnucap.Out.next_command
#print axioms Gnucap.Out.files_closed_partial
#print axioms Gnucap.Out.closed_twice
#print axioms Gnucap.Table.digits_range
#print axioms Gnucap.Table.same_columns
#print axioms Gnucap.Table.row_read
#print axioms Gnucap.Table.row_line
#print axioms Gnucap.Table.row_broken
#print axioms Gnucap.Num.ftos_width
#print axioms Gnucap.Num.ftos_visible
#print axioms Gnucap.Table.run_together
#print axioms Gnucap.Table.long_shifts
#print axioms Gnucap.Table.label_overflows
#print axioms Gnucap.Plot.scale_range
#print axioms Gnucap.Plot.ticks_at
#print axioms Gnucap.Plot.grid
#print axioms Gnucap.Plot.narrow_outside
#print axioms Gnucap.Plot.point_range
#print axioms Gnucap.Plot.point_near
#print axioms Gnucap.Plot.point_mono
#print axioms Gnucap.Plot.point_beyond_partial
#print axioms Gnucap.Plot.point_far
#print axioms Gnucap.Plot.point_tick
#print axioms Gnucap.Plot.drawn
#print axioms Gnucap.Plot.read_off
#print axioms Gnucap.Plot.not_drawn
#print axioms Gnucap.Plot.third_lost
#print axioms Gnucap.Plot.cut_wrong
#print axioms Gnucap.Plot.labels_apart
#print axioms Gnucap.Plot.labels_centred
#print axioms Gnucap.Plot.scale_line
#print axioms Gnucap.Plot.scale_broken
#print axioms Gnucap.Cmd.short_runs
#print axioms Gnucap.Cmd.short_unique
#print axioms Gnucap.Cmd.long_runs
#print axioms Gnucap.Cmd.find_booted
#print axioms Gnucap.Cmd.name_runs
#print axioms Gnucap.Cmd.unknown
#print axioms Gnucap.Cmd.mark_runs
#print axioms Gnucap.Cmd.comment_partial
#print axioms Gnucap.Cmd.indented_comment_wrong
#print axioms Gnucap.Cmd.indented_taken
#print axioms Gnucap.Cmd.hidden_name
#print axioms Gnucap.Mult.first_product
#print axioms Gnucap.Mult.runs_product_partial
#print axioms Gnucap.Mult.stale_inside
#print axioms Gnucap.Mult.sweep_keeps
#print axioms Gnucap.Mult.stale_witness
#print axioms Gnucap.Mult.copies_load
#print axioms Gnucap.Mult.copies_solve
#print axioms Gnucap.Mult.order_element
#print axioms Gnucap.Mult.order_device
#print axioms Gnucap.Mult.order_common
#print axioms Gnucap.Mult.order_base
#print axioms Gnucap.Mult.order_never
#print axioms Gnucap.Mult.mfactor_name
#print axioms Gnucap.Mult.m_name
#print axioms Gnucap.Mult.m_subckt
#print axioms Gnucap.Mult.sys_index
#print axioms Gnucap.PrbCmd.probe_line
#print axioms Gnucap.PrbCmd.add_item
#print axioms Gnucap.PrbCmd.remove_item
#print axioms Gnucap.PrbCmd.loop_items
#print axioms Gnucap.PrbCmd.kind_named
#print axioms Gnucap.PrbCmd.kind_none
#print axioms Gnucap.PrbCmd.short_unique
#print axioms Gnucap.PrbCmd.clear_one
#print axioms Gnucap.PrbCmd.clear_all
#print axioms Gnucap.PrbCmd.system_item
#print axioms Gnucap.PrbCmd.nodes_item
#print axioms Gnucap.PrbCmd.loop_ends
#print axioms Gnucap.PrbCmd.loop_adds
#print axioms Gnucap.PrbCmd.loop_removes
#print axioms Gnucap.PrbCmd.others_kept
#print axioms Gnucap.PrbCmd.printed_name_removes
#print axioms Gnucap.PrbCmd.part_removed
#print axioms Gnucap.PrbCmd.system_removed
#print axioms Gnucap.PrbCmd.sticky_endless
#print axioms Gnucap.PrbCmd.line_endless
#print axioms Gnucap.PrbCmd.zero_name_wrong
#print axioms Gnucap.PrbCmd.missing_name_stops
#print axioms Gnucap.PrbCmd.missing_name_probes
#print axioms Gnucap.PrbCmd.remove_list_wrong
#print axioms Gnucap.PrbCmd.inner_nodes_alike
#print axioms Gnucap.PrbCmd.comment_ub
#print axioms Gnucap.Gen.before
#print axioms Gnucap.Gen.first_rise
#print axioms Gnucap.Gen.shape
#print axioms Gnucap.Gen.shape_on
#print axioms Gnucap.Gen.periodic
#print axioms Gnucap.Gen.bounded
#print axioms Gnucap.Gen.continuous_wave
#print axioms Gnucap.Gen.no_number
#print axioms Gnucap.Gen.on_drops
#print axioms Gnucap.Gen.long_rise
#print axioms Gnucap.Gen.command_line
#print axioms Gnucap.Gen.command_ends
#print axioms Gnucap.Gen.loop_nonneg
#print axioms Gnucap.Gen.command_ok
#print axioms Gnucap.Gen.initial_nonneg
#print axioms Gnucap.Gen.unknown_stops
#print axioms Gnucap.Find.looking_out
#print axioms Gnucap.Find.looking_out_none
#print axioms Gnucap.Find.instance_of
#print axioms Gnucap.Find.instance_unknown
#print axioms Gnucap.Find.lexical_partial
#print axioms Gnucap.Find.captured
#print axioms Gnucap.Find.reading_skips
#print axioms Gnucap.Find.reading_skips_witness
#print axioms Gnucap.Find.bins_end
#print axioms Gnucap.Find.offers_unique
#print axioms Gnucap.Find.model_found
#print axioms Gnucap.Find.model_mismatch
#print axioms Gnucap.Find.model_none
#print axioms Gnucap.Find.no_bins
#print axioms Gnucap.Find.model_lexical_partial
#print axioms Gnucap.Find.model_captured
#print axioms Gnucap.Find.in_copy
#print axioms Gnucap.Find.device_hides
#print axioms Gnucap.Find.limits_meant
#print axioms Gnucap.Find.mos_bin
#print axioms Gnucap.Find.gap
#print axioms Gnucap.Find.wrong_message
#print axioms Gnucap.Semi.capacitor_value
#print axioms Gnucap.Semi.capacitor_only
#print axioms Gnucap.Semi.resistor_value
#print axioms Gnucap.Semi.resistor_only
#print axioms Gnucap.Semi.resistor_plain
#print axioms Gnucap.Semi.line_value_unused
#print axioms Gnucap.Semi.no_length
#print axioms Gnucap.Semi.nominal
#print axioms Gnucap.Semi.series
#print axioms Gnucap.Semi.capacitor_mono
#print axioms Gnucap.AnaCmd.options_ends
#print axioms Gnucap.AnaCmd.ac_line
#print axioms Gnucap.AnaCmd.op_line
#print axioms Gnucap.AnaCmd.dc_line
#print axioms Gnucap.AnaCmd.free_left
#print axioms Gnucap.AnaCmd.ac_step_anywhere
#print axioms Gnucap.AnaCmd.ac_decade_text
#print axioms Gnucap.AnaCmd.ac_keeps
#print axioms Gnucap.AnaCmd.ac_plus_wrong
#print axioms Gnucap.AnaCmd.na_cuts
#print axioms Gnucap.AnaCmd.dc_captured_wrong
#print axioms Gnucap.AnaCmd.dc_unknown_wrong
#print axioms Gnucap.AnaCmd.dc_stop_wrong
#print axioms Gnucap.AnaCmd.op_temperature_wrong
#print axioms Gnucap.AnaCmd.numbers_expression
#print axioms Gnucap.AnaCmd.numbers_expressions
#print axioms Gnucap.AnaCmd.paren_wrong
#print axioms Gnucap.AnaCmd.word_alone
#print axioms Gnucap.AnaCmd.dc_again
#print axioms Gnucap.AnaCmd.dc_card
#print axioms Gnucap.AnaCmd.dc_numbers
#print axioms Gnucap.AnaCmd.dc_times
#print axioms Gnucap.Mos.level6_current
#print axioms Gnucap.Mos.level6_slopes
#print axioms Gnucap.Mos.level6_sigma_wrong
#print axioms Gnucap.Mos.level6_threshold
#print axioms Gnucap.Mos.level6_corner
#print axioms Gnucap.Mos.level6_bulk_wrong
#print axioms Gnucap.Mos.level6_passive
#print axioms Gnucap.Mos.level6_turns_down
#print axioms Gnucap.Mos.level6_device
#print axioms Gnucap.Mos.level6_nominal
#print axioms Gnucap.Mos.level6_temp
#print axioms Gnucap.Mos.level6_temp_wrong
#print axioms Gnucap.Mos.level1_temp
#print axioms Gnucap.Mos.vto_process
#print axioms Gnucap.Mos.level3_current
#print axioms Gnucap.Mos.level3_path
#print axioms Gnucap.Mos.level3_slopes
#print axioms Gnucap.Mos.level3_slopes_plain
#print axioms Gnucap.Mos.level3_theta_wrong
#print axioms Gnucap.Mos.level3_eta_wrong
#print axioms Gnucap.Mos.level3_sub_wrong
#print axioms Gnucap.Mos.level3_onset
#print axioms Gnucap.Mos.level3_vmax_current
#print axioms Gnucap.Mos.level3_vmax_slopes
#print axioms Gnucap.Mos.level3_vmax_wrong
#print axioms Gnucap.Mos.level3_vdsat_wrong
#print axioms Gnucap.Mos.level3_nan
#print axioms Gnucap.Mos.level3_passive
#print axioms Gnucap.Mos.level3_device
#print axioms Gnucap.Mos.level3_forward
#print axioms Gnucap.Mos.level3_forward_slopes
#print axioms Gnucap.Mos.level3_forward_wrong
#print axioms Gnucap.Mos.level3_vmax_short
#print axioms Gnucap.Mos.level4_current
#print axioms Gnucap.Mos.drain_greatest
#print axioms Gnucap.Mos.level4_slopes
#print axioms Gnucap.Mos.level4_gds_low
#print axioms Gnucap.Mos.level4_gds_wrong
#print axioms Gnucap.Mos.level4_gmb_wrong
#print axioms Gnucap.Mos.level4_nan
#print axioms Gnucap.Mos.level4_device
#print axioms Gnucap.TranCmd.tran_line
#print axioms Gnucap.TranCmd.tran_gives
#print axioms Gnucap.TranCmd.tran_session
#print axioms Gnucap.TranCmd.options_ends
#print axioms Gnucap.TranCmd.tran_signed_wrong
#print axioms Gnucap.TranCmd.tran_fifth
#print axioms Gnucap.TranCmd.fourier_line
#print axioms Gnucap.TranCmd.fourier_backwards
#print axioms Gnucap.TranCmd.fourier_times_ignored
#print axioms Gnucap.SpiceWrap.spice_device
#print axioms Gnucap.SpiceWrap.spice_ac
#print axioms Gnucap.SpiceWrap.spice_states
#print axioms Gnucap.SpiceWrap.spice_history
#print axioms Gnucap.SpiceWrap.spice_integrate
#print axioms Gnucap.SpiceWrap.spice_converged
#print axioms Gnucap.SpiceWrap.spice_queued
#print axioms Gnucap.SpiceWrap.spice_skipped
#print axioms Gnucap.SpiceWrap.spice_real
#print axioms Gnucap.SpiceWrap.spice_int_partial
#print axioms Gnucap.SpiceWrap.spice_unload_partial
#print axioms Gnucap.SpiceWrap.spice_float_wrong
#print axioms Gnucap.SpiceWrap.spice_float_beyond_wrong
#print axioms Gnucap.SpiceWrap.spice_joined_wrong
#print axioms Gnucap.SpiceWrap.spice_setup_changed_wrong
#print axioms Gnucap.SpiceWrap.spice_pz_wrong
#print axioms Gnucap.SpiceWrap.spice_unload_wrong
#print axioms Gnucap.SpiceWrap.spice_gear_wrong
#print axioms Gnucap.SpiceWrap.spice_int_wrong
#print axioms Gnucap.SpiceWrap.spice_flag_wrong
#print axioms Gnucap.Files.means_runs
#print axioms Gnucap.Files.file_read
#print axioms Gnucap.Files.in_place
#print axioms Gnucap.Files.mode_kept
#print axioms Gnucap.Files.runs_unique
#print axioms Gnucap.Files.missing_section_wrong
#print axioms Gnucap.Files.include_in_subckt_wrong
#print axioms Gnucap.Files.in_subckt
#print axioms Gnucap.Files.subckt_file_wrong
#print axioms Gnucap.Files.indented_eom_wrong
#print axioms Gnucap.Files.glued_wrong
#print axioms Gnucap.Files.shadow_wrong
#print axioms Gnucap.Files.letter_b_wrong
#print axioms Gnucap.Files.empty_file_wrong
#print axioms Gnucap.Files.endl_of_another_wrong
#print axioms Gnucap.Files.inc_other_wrong
#print axioms Gnucap.Files.clears_anyway
#print axioms Gnucap.Files.double_mark_wrong
#print axioms Gnucap.Files.include_dir_wrong
#print axioms Gnucap.Files.more_warned
#print axioms Gnucap.Files.inc_nested_wrong
#print axioms Gnucap.Sess.line_runs
#print axioms Gnucap.Sess.mode_kept
#print axioms Gnucap.Sess.dir_kept
#print axioms Gnucap.Sess.typed_runs
#print axioms Gnucap.Sess.typed_total
#print axioms Gnucap.Sess.args_run
#print axioms Gnucap.Sess.reads_total
#print axioms Gnucap.Sess.reads_unique
#print axioms Gnucap.Sess.session_runs
#print axioms Gnucap.Sess.session_total
#print axioms Gnucap.Sess.code_zero_wrong
#print axioms Gnucap.Sess.startup_wrong
#print axioms Gnucap.Sess.empty_file_ends_wrong
#print axioms Gnucap.Sess.next_file_wrong
#print axioms Gnucap.Sess.interrupt_wrong
#print axioms Gnucap.Sess.interrupt_get
#print axioms Gnucap.Sess.interrupt_run_wrong
#print axioms Gnucap.Sess.interrupt_line
#print axioms Gnucap.Sess.interrupt_code_wrong
#print axioms Gnucap.Plug.found_first
#print axioms Gnucap.Plug.found_none
#print axioms Gnucap.Plug.last_empty_wrong
#print axioms Gnucap.Plug.counted
#print axioms Gnucap.Plug.loaded_iff
#print axioms Gnucap.Plug.listed_right
#print axioms Gnucap.Plug.all_gone
#print axioms Gnucap.Plug.attach_detach
#print axioms Gnucap.Plug.attach_told
#print axioms Gnucap.Plug.circuit_keeps
#print axioms Gnucap.Plug.plugins_mem
#print axioms Gnucap.Plug.plugins_sorted
#print axioms Gnucap.Plug.dir_attached
#print axioms Gnucap.Plug.name_found
#print axioms Gnucap.Plug.path_found
#print axioms Gnucap.Plug.replace_wrong
#print axioms Gnucap.Plug.two_names_wrong
#print axioms Gnucap.Plug.removed_wrong
#print axioms Gnucap.Plug.dir_detach_wrong
#print axioms Gnucap.Mos.level2_current
#print axioms Gnucap.Mos.level2_gm
#print axioms Gnucap.Mos.level2_gds
#print axioms Gnucap.Mos.level2_gmb
#print axioms Gnucap.Mos.level2_weak_gm
#print axioms Gnucap.Mos.level2_weak_gds
#print axioms Gnucap.Mos.level2_weak_gmb
#print axioms Gnucap.Mos.level2_weak_wrong
#print axioms Gnucap.Mos.level2_narrow_wrong
#print axioms Gnucap.Mos.level2_short_wrong
#print axioms Gnucap.Mos.level2_passive
#print axioms Gnucap.Mos.drift_greatest
#print axioms Gnucap.Mos.level2_device
#print axioms Gnucap.Mos.level2_end
#print axioms Gnucap.Mos.quart_law
#print axioms Gnucap.Mos.pick_least
#print axioms Gnucap.Mos.level2_vmax_end_partial
#print axioms Gnucap.Mos.level2_vmax_current_partial
#print axioms Gnucap.Mos.level2_vmax_ignored
#print axioms Gnucap.Mos.level2_vmax_linear_wrong
#print axioms Gnucap.Mos.level2_nan
#print axioms Gnucap.ListCmd.names_listed
#print axioms Gnucap.ListCmd.names_all
#print axioms Gnucap.ListCmd.all_listed
#print axioms Gnucap.ListCmd.range_listed
#print axioms Gnucap.ListCmd.rest_listed
#print axioms Gnucap.ListCmd.start_listed
#print axioms Gnucap.ListCmd.range_inside
#print axioms Gnucap.ListCmd.hits_end
#print axioms Gnucap.ListCmd.args_end
#print axioms Gnucap.ListCmd.unknown_silent
#print axioms Gnucap.ListCmd.range_same_refused
#print axioms Gnucap.ListCmd.dash_later
#print axioms Gnucap.ListCmd.dash_in_name
#print axioms Gnucap.ListCmd.range_mixed
#print axioms Gnucap.ListCmd.inside_first_only
#print axioms Gnucap.ParCmd.param_sets
#print axioms Gnucap.ParCmd.param_real
#print axioms Gnucap.ParCmd.param_number
#print axioms Gnucap.ParCmd.param_expression
#print axioms Gnucap.ParCmd.param_others
#print axioms Gnucap.ParCmd.command_ends
#print axioms Gnucap.ParCmd.type_prefix_wrong
#print axioms Gnucap.ParCmd.missing_value_wrong
#print axioms Gnucap.ParCmd.na_prefix_wrong
