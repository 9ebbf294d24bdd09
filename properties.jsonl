{"id": "C01", "title": "Full LU factorisation and substitution solve the loaded system", "statement": "After any matrix has been loaded into a BSMATRIX and lu_decomp has run without meeting a zero pivot, fbsub(x,b) returns an x with A*x = b exactly (in exact arithmetic), for both the substitution that works in place and the three argument form, including the case where b has leading zeros and where the output aliases the intermediate array.", "quantifier": "every matrix size, every sparsity profile produced by iwant, every load of values, every right hand side", "why_tests_cant": "the bump-and-spike loops have boundary cases for every combination of low nodes; tests cover a handful of circuits only", "anchors": ["include/m_matrix.h: BSMATRIX_DATA::fbsub", "include/m_matrix_solver.h: LU_COPY::lu_decomp, subtract_dot_product", "apps/s__solve.cc: SIM::solve_equations"]}
{"id": "C02", "title": "Partial re-factorisation equals full factorisation", "statement": "If a full lu_decomp was done once, then after any history of value loads (each of which marks the touched rows changed) and partial lu_decomp(true) calls, the stored factors equal those a full lu_decomp(false) of the current matrix would store.", "quantifier": "every history of point loads interleaved with partial decompositions, every profile and size", "why_tests_cant": "a missed change propagation only shows for particular orders of touched nodes and particular profiles", "anchors": ["include/m_matrix_solver.h: LU_COPY::lu_decomp, set_changed", "include/m_matrix.h: load_point, load_symmetric"]}
{"id": "C03", "title": "Transposed substitution solves the transposed system", "statement": "fbsubt(v) turns the right hand side v into the solution of A^T x = v for the factored A (used by noise/adjoint style AC solving), for every profile with non zero pivots.", "quantifier": "every size, profile, matrix and right hand side", "why_tests_cant": "a wrong index order is invisible on symmetric matrices, which are what passive test circuits give", "anchors": ["include/m_matrix.h: BSMATRIX_DATA::fbsubt"]}
{"id": "C04", "title": "Copying and in-place LU agree", "statement": "LU_INPLACE (used for AC) leaves in the matrix storage the same numbers that LU_COPY (used for DC and transient) stores in its separate factor matrix.", "quantifier": "every size, profile and loaded matrix", "why_tests_cant": "the in-place version overwrites data it still reads; a wrong order of updates only matters for some profiles", "anchors": ["include/m_matrix_solver.h: LU_INPLACE::lu_decomp, LU_COPY::lu_decomp"]}
{"id": "C05", "title": "Sparse storage never aliases and never leaves the allocation", "statement": "Distinct matrix positions inside the profile are stored in distinct cells of the allocated block, every access made by the load functions for reserved positions is inside the block, and reading a position outside the profile through s() gives 0.", "quantifier": "every sequence of iwant calls, every pair of positions", "why_tests_cant": "pointer arithmetic off the diagonal pointer is right or wrong per profile; an alias corrupts silently", "anchors": ["include/m_matrix.h: allocate, d, u, l, m, s, iwant"]}
{"id": "C06", "title": "Sparsity reservation covers what was asked and is order independent", "statement": "After any sequence of iwant(n1,n2) calls every requested pair of positive nodes (both triangles) is inside the profile, ground and unconnected nodes are ignored, and the final profile does not depend on the order or repetition of the calls.", "quantifier": "every list of node pairs and every permutation of it", "why_tests_cant": "the order in which devices ask is arbitrary", "anchors": ["include/m_matrix.h: BSMATRIX_DATA::iwant, init"]}
{"id": "C07", "title": "Stamps add exactly the documented contributions", "statement": "load_symmetric, load_asymmetric, load_couple, load_point and load_diagonal_point add to the matrix exactly the contribution of the two- or four-terminal element they stand for, with ground rows and columns dropped, whatever mixture of the terminals is grounded or equal.", "quantifier": "every node assignment (ground included, coincident terminals included) and every value", "why_tests_cant": "the functions branch on which terminals are ground; combinations are easily missed", "anchors": ["include/m_matrix.h: load_point, load_diagonal_point, load_couple, load_symmetric, load_asymmetric"]}
{"id": "C08", "title": "Incremental loading keeps the matrix equal to the sum of the element contributions", "statement": "Under incremental loading (incmode) each element adds only the change of its contribution.  After any history of iterations, damped or not, accepted or not, the matrix equals the sum of every element's currently recorded contribution, as if it had been cleared and loaded afresh.", "quantifier": "every history of full and incremental loads, every damping factor, every sequence of element values", "why_tests_cant": "an error would accumulate over iterations and time steps and depends on the whole history", "anchors": ["include/e_elemnt.h: ELEMENT::dampdiff, tr_load_passive, tr_load_active, tr_load_source", "include/l_denoise.h: dn_diff", "apps/s__solve.cc: clear_arrays, load_matrix"]}
{"id": "C09", "title": "Incremental mode is never trusted on a cleared matrix", "statement": "Whenever the working matrix was cleared in an iteration, that same iteration loads every element completely and factors completely; whenever it was not cleared, only differences are loaded.  The tri-state incremental flag can never make clear, load and factor disagree, whatever sequence of 'mark bad', option changes and iterations occurs.", "quantifier": "every sequence of solver iterations, option settings and external 'bad' marks", "why_tests_cant": "the flag is tri-state and is read as a boolean at three places; a disagreement needs a particular history", "anchors": ["apps/s__solve.cc: set_flags, clear_arrays, load_matrix, solve_equations", "include/u_sim_data.h: is_inc_mode, set_inc_mode_bad"]}
{"id": "C10", "title": "A reported convergence really was confirmed", "statement": "SIM::solve reports success only if the device evaluation reported convergence, unlimited, in itermin+1 consecutive iterations at the end of the loop, and it always stops after at least one and at most limit+1 iterations, reporting failure only when the limit is exceeded.", "quantifier": "every outcome sequence of the device evaluations and every option value", "why_tests_cant": "the counter logic depends on the sequence of evaluation outcomes", "anchors": ["apps/s__solve.cc: SIM::solve, evaluate_models", "include/u_sim_data.h: exceeds_iteration_limit"]}
{"id": "C11", "title": "Source/gmin stepping restores the user's options", "statement": "solve_with_homotopy leaves OPT::gmin and OPT::itermin as they were, whatever happens inside, tries a plain solve first, and its answer is that of a final solve made under the user's own options.", "quantifier": "every sequence of outcomes of the inner solves, every option value", "why_tests_cant": "depends on the sequence of successes and failures inside the loop", "anchors": ["apps/s__solve.cc: SIM::solve_with_homotopy"]}
{"id": "C12", "title": "Node names map to dense, stable, distinct numbers", "statement": "For every sequence of new_node/lookup calls on a NODE_MAP the numbers handed out are 0 (ground) to how_many() without gaps, two names get the same number iff they are the same name, a name keeps its number for ever, and a lookup of an unknown name gives none and adds nothing.", "quantifier": "every history of node creations and lookups", "why_tests_cant": "an interference needs a specific call history", "anchors": ["lib/u_nodemap.cc: NODE_MAP::new_node, operator[]"]}
{"id": "C13", "title": "Node ordering is a bijection fixing ground", "statement": "Whatever the order option, the map from user node number to internal number is a permutation of 0..n that maps ground to ground, and the back-annotation set_user_number is its inverse.", "quantifier": "every number of nodes and every order option", "why_tests_cant": "must hold for all n; a collision would merge two nodes silently", "anchors": ["lib/u_sim_data.cc: order_reverse, order_forward, order_auto, alloc_hold_vectors"]}
{"id": "C14", "title": "Voltage limits always contain the solution and only grow", "statement": "After set_limit() every node voltage v satisfies vmin <= v-.4 and v+.4 <= vmax, the limits never shrink, a second call changes nothing, and clear_limit restores the option values.", "quantifier": "every vector of node voltages and every previous limit", "why_tests_cant": "must hold for all vectors and histories", "anchors": ["lib/u_sim_data.cc: set_limit, clear_limit"]}
{"id": "C15", "title": "Keeping and restoring an operating point loses nothing", "statement": "restore_voltages after keep_voltages gives back every node voltage exactly, whatever happened to the working vectors in between, unless time is frozen, in which case the previously kept point is given back.", "quantifier": "every history of analyses between keep and restore", "why_tests_cant": "depends on the history of analyses", "anchors": ["lib/u_sim_data.cc: keep_voltages, restore_voltages, zero_voltages"]}
{"id": "C16", "title": "Accepted transient time points strictly increase", "statement": "In a transient analysis that does not abort, every accepted time is later than the previously accepted one, by at least the minimum step, whatever sequence of convergence failures, truncation error verdicts, device events and user break points occurs.", "quantifier": "every schedule of rejections, events and truncation-error requests", "why_tests_cant": "the step selector is a chain of about ten rules; the failing combination need not occur in a test circuit", "anchors": ["apps/s_tr_swp.cc: TRANSIENT::next, review, accept, reject, sweep"]}
{"id": "C17", "title": "No scheduled event and no user time point is stepped over", "statement": "The next time point chosen by the transient step control is never later than the next pending event in the queue nor than the next time the user asked for output.", "quantifier": "every queue content, every step history", "why_tests_cant": "needs the exact combination of growth limits, convergence limits and event times", "anchors": ["apps/s_tr_swp.cc: TRANSIENT::next"]}
{"id": "C18", "title": "The step control refuses instead of spinning", "statement": "A step is never smaller than the minimum step; when a rejection would force one, the analysis reports failure instead of repeating the same step, so a finite simulated time takes a finite number of steps.", "quantifier": "every sequence of rejections and requests", "why_tests_cant": "non-termination only appears for particular request sequences", "anchors": ["apps/s_tr_swp.cc: TRANSIENT::next, review"]}
{"id": "C19", "title": "Strobe times are hit exactly, in order and up to the end", "statement": "The user-visible output times of a transient sweep are start, start+step, start+2*step, ... in order, none missing, none repeated, until the stop time.", "quantifier": "every start, step and stop, every internal step pattern in between", "why_tests_cant": "off-by-one at the end and skipped strobes depend on the ratio of numbers", "anchors": ["apps/s_tr_swp.cc: TRANSIENT::sweep, first, next"]}
{"id": "C20", "title": "The event queue is ordered and events are not lost", "statement": "new_event files every request that is in the future; events come out in time order; a request is rounded to the simulator's tick by at most one tick and never into the past.", "quantifier": "every sequence of event requests and removals", "why_tests_cant": "ordering and rounding depend on the history of requests", "anchors": ["include/u_sim_data.h: SIM_DATA::new_event", "apps/s_tr_swp.cc: next"]}
{"id": "C21", "title": "The combined step request is the minimum over all devices", "statement": "The review result of a card list is component-wise the earliest time any card asked for, independent of the order of the cards and of nesting.", "quantifier": "every list (and nesting) of cards and every request", "why_tests_cant": "all lists", "anchors": ["lib/e_cardlist.cc: CARD_LIST::tr_review", "include/u_time_pair.h: TIME_PAIR::min"]}
{"id": "C22", "title": "Element time history stays ordered through accept and reject", "statement": "Through any sequence of advances and regressions an element's recorded times remain strictly decreasing towards the past, the newest being the current time; a rejected step is replaced, not kept.", "quantifier": "every schedule of advances and step rejections", "why_tests_cant": "depends on interleavings of rejections", "anchors": ["lib/e_elemnt.cc: ELEMENT::tr_advance, tr_regress", "lib/e_storag.cc"]}
{"id": "C23", "title": "Integration formulas are exact to their order", "statement": "For a charge that is a linear function of time every integration method returns its exact derivative; the trapezoid rule is exact for quadratic charges if the previous current was exact; the second order (gear) formula is exact for quadratic charges.", "quantifier": "every polynomial of the stated degree and every pair of step sizes", "why_tests_cant": "must hold for all step sizes, in particular unequal ones", "anchors": ["lib/e_storag.cc: STORAGE::differentiate"]}
{"id": "C24", "title": "The companion conductance is the derivative of the companion current", "statement": "tr_c_to_g turns a capacitance into the conductance that is exactly the derivative of the current computed by differentiate with respect to the present charge, and the linearised companion reproduces the current at the point of linearisation, so Newton iteration sees a consistent Jacobian.", "quantifier": "every method, step history and operating point", "why_tests_cant": "an inconsistent Jacobian only slows or stalls convergence for certain methods and steps", "anchors": ["lib/e_storag.cc: tr_c_to_g, differentiate", "apps/d_cap.cc: DEV_CAPACITANCE::do_tr", "include/m_cpoly.h"]}
{"id": "C25", "title": "Integration method choice follows the 'only' and 'local' precedence", "statement": "The integration method used by an element is: its own one if that is an 'only' method, otherwise the global one if that is an 'only' method, otherwise its own one if given, otherwise the global one; in the first dynamic step the safe method (Euler) replaces it.", "quantifier": "all pairs of global and local method settings and all step counts", "why_tests_cant": "81 table entries, each of which is a separate claim", "anchors": ["lib/e_storag.cc: method_select, STORAGE::tr_begin, differentiate"]}
{"id": "C26", "title": "Divided differences are derivatives of the interpolating polynomial", "statement": "derivatives() turns a table of k+1 values into the scaled divided differences; for samples of a polynomial of degree at most k the highest entry is its k-th derivative, whatever the (distinct) time points.", "quantifier": "every polynomial, every set of distinct times", "why_tests_cant": "all spacings", "anchors": ["include/m_divdiff.h: derivatives", "lib/e_elemnt.cc: tr_review_trunc_error"]}
{"id": "C27", "title": "Truncation error control never asks for a step into the past", "statement": "The time an element asks for after a truncation error check is always later than its previous accepted time, and is 'never' when the step is good enough.", "quantifier": "every error estimate, tolerance and step history", "why_tests_cant": "all numeric values, including the pathological", "anchors": ["lib/e_elemnt.cc: tr_review_trunc_error, tr_review_check_and_convert"]}
{"id": "C28", "title": "Pulse source: shape, bounds and announced corners", "statement": "A pulse source always lies between its initial and pulsed value, equals the documented trapezoid in every period, is periodic, and between one evaluation and the time it announces as its next event it is a straight line, so no corner is stepped over.", "quantifier": "every time and every non-negative rise, fall, width, period and delay", "why_tests_cant": "all parameter combinations and times", "anchors": ["apps/bm_pulse.cc: EVAL_BM_PULSE::tr_eval, tr_review"]}
{"id": "C29", "title": "Piecewise linear source: values, continuity and announced corners", "statement": "A PWL source takes exactly the given values at the given times, is linear in between and constant or extrapolated outside, rejects unsorted tables, and between an evaluation and the event it announces it is a straight line.", "quantifier": "every table and every time", "why_tests_cant": "all tables, including times before the first point and single point tables", "anchors": ["apps/bm_pwl.cc: tr_eval, tr_review, precalc_last", "include/m_interp.h: interpolate"]}
{"id": "C30", "title": "Interpolation passes through its points and is continuous", "statement": "interpolate() over a sorted table returns the table value at a table point, returns value and slope of the connecting line in between, is continuous, and uses the requested end slopes outside.", "quantifier": "every sorted table (any length), every abscissa", "why_tests_cant": "all tables; end cases and one-point tables are special", "anchors": ["include/m_interp.h: interpolate"]}
{"id": "C31", "title": "Spline tables interpolate and are smooth", "statement": "A spline of order 1, 2 or 3 passes through every table point; order 2 has a continuous first derivative, order 3 continuous first and second derivatives, and the end conditions (given slope or natural) hold.", "quantifier": "every strictly increasing table of any length and every end condition", "why_tests_cant": "the tridiagonal solve has a first, an inner and a last row per table length", "anchors": ["lib/m_spline.cc: construct_order_1, construct_order_2, construct_order_3, at"]}
{"id": "C32", "title": "A delay line reproduces its input shifted by the delay", "statement": "After any sequence of pushes at increasing times a WAVE's output at time t is the piecewise linear interpolation of the pushed input at t minus the delay, it is 0 before anything was pushed, and the reflection equals twice the terminal voltage minus the arriving wave.", "quantifier": "every history of pushes and every query time", "why_tests_cant": "depends on history", "anchors": ["include/m_wave.h: WAVE::push, v_out, v_reflect, initialize"]}
{"id": "C33", "title": "Sinusoidal source announces its extremes", "statement": "With 'peak' (or 'zero') requested, a sine source announces as next event the next extreme (zero crossing) of its own waveform, so sampling at the announced times catches every extreme.", "quantifier": "every time, frequency and delay", "why_tests_cant": "all values; wrong only when the delay is not a multiple of the quarter period", "anchors": ["apps/bm_sin.cc: EVAL_BM_SIN::tr_review, tr_eval"]}
{"id": "C34", "title": "Slope/intercept conversions are mutually inverse", "statement": "Converting a linearisation between value-at-operating-point form (FPOLY1) and value-at-zero form (CPOLY1) and back gives the same linearisation; scaling and negating commute with evaluation, and so do sums and products of linearisations taken at the same operating point.", "quantifier": "every value, slope and operating point", "why_tests_cant": "algebraic identity over all values", "anchors": ["include/m_cpoly.h: FPOLY1, CPOLY1"]}
{"id": "C35", "title": "DC sweep visits exactly the requested points", "statement": "A linear DC sweep visits start, start+step, ... up to stop (within the documented tolerance) in order and then ends; nested sweeps visit the full cross product with the inner sweep fastest; reverse visits the same points in the opposite order; afterwards the swept element has its old value.", "quantifier": "every start, stop, step, nesting and direction", "why_tests_cant": "end point handling depends on ratios", "anchors": ["apps/s_dc.cc: DCOP::first, next, sweep_recursive, fix_args, finish"]}
{"id": "C36", "title": "AC sweep visits exactly the requested frequencies", "statement": "A linear AC sweep visits start, start+step, ... up to stop, a point-count sweep visits exactly that many points from start to stop, and a multiplicative sweep visits start*k^i up to stop; every sweep ends.", "quantifier": "every start, stop and step", "why_tests_cant": "end point handling depends on ratios", "anchors": ["apps/s_ac.cc: AC::setup, first, next, sweep"]}
{"id": "C37", "title": "Waveform measurements mean what they say", "statement": "max/min return the extreme recorded value inside the window (first or last occurrence as asked), integral is the exact integral of the piecewise linear waveform over the recorded points in the window, average is integral over duration, and cross returns a time at which the piecewise linear waveform really takes the threshold in the asked direction.", "quantifier": "every recorded waveform, window and threshold", "why_tests_cant": "all waveforms, including constant, empty and single-point ones", "anchors": ["apps/measure_max.cc", "apps/measure_min.cc", "apps/measure_integral.cc", "apps/measure_average.cc", "apps/measure_cross.cc"]}
{"id": "C38", "title": "Expression parsing respects precedence and associativity", "statement": "The expression reader turns every token sequence of the infix grammar into the evaluation order given by the usual precedence and left associativity, so the value of the parsed expression is that of the conventionally parenthesised input.", "quantifier": "every expression tree of any depth", "why_tests_cant": "all expressions", "anchors": ["lib/m_expression_in.cc", "include/m_expression.h"]}
{"id": "C39", "title": "Printing an expression and reading it back preserves its meaning", "statement": "Dumping a parsed expression and parsing the dump again gives an expression with the same value in every environment.", "quantifier": "every expression and environment", "why_tests_cant": "parenthesisation errors appear only for particular operator nestings", "anchors": ["lib/m_expression_dump.cc", "lib/m_expression_in.cc"]}
{"id": "C40", "title": "Constant folding does not change the value of an expression", "statement": "Reducing an expression against a scope (partially or fully known names) gives an expression with the same value in every completion of the environment; a fully known expression reduces to that constant.", "quantifier": "every expression, every partial scope, every completion", "why_tests_cant": "the rewriting rules interact; every nesting must be sound", "anchors": ["lib/m_expression_reduce.cc"]}
{"id": "C41", "title": "Numeric operators on mixed types follow arithmetic", "statement": "For numeric constants a op b gives the mathematical result with a on the left and b on the right, independent of whether each was written as integer or real.", "quantifier": "all pairs of numeric constants and all operators", "why_tests_cant": "operand order mistakes only show for non-commutative operators on mixed types", "anchors": ["include/m_base.h: Integer, Float"]}
{"id": "C42", "title": "Parameter lookup follows the scope chain", "statement": "A parameter is looked up in the innermost scope that gives it a value, then outwards; copying a scope's values into a child evaluates each in the parent's scope; a name found nowhere falls back to the default; evaluation of a cyclic definition ends with an error and does not disturb later evaluations.", "quantifier": "every scope chain, every set of definitions, every sequence of evaluations", "why_tests_cant": "depends on nesting, shadowing and on the history of failed evaluations", "anchors": ["lib/u_parameter.cc: PARAM_LIST::deep_lookup, eval_copy", "include/u_parameter.h: PARAMETER::e_val_, PARAM_INSTANCE::e_val"]}
{"id": "C43", "title": "Keyword matching accepts exactly the documented abbreviations", "statement": "umatch accepts a keyword pattern iff the input starts with at least its mandatory part, continues with any prefix of the optional part and then ends or separates; alternatives are tried in order; on failure nothing is consumed.", "quantifier": "every pattern and every input text", "why_tests_cant": "all inputs, leading blanks and alternatives included", "anchors": ["lib/ap_match.cc: CS::umatch"]}
{"id": "C44", "title": "Wildcard matching follows the documented pattern language", "statement": "wmatch(s,p) is true iff s is an instance of p where ? stands for one character and * for any string, independent of position.", "quantifier": "every subject and every pattern", "why_tests_cant": "all pairs of strings", "anchors": ["lib/l_wmatch.cc: wmatch"]}
{"id": "C45", "title": "Number scanning gives the mathematical value", "statement": "ctof on the text of a decimal number with optional sign, fraction, exponent and scale letter returns that number times the letter's factor, consumes exactly that text, and leaves the cursor in place if there is no number.", "quantifier": "every numeral", "why_tests_cant": "all numerals", "anchors": ["lib/ap_convert.cc: CS::ctof"]}
{"id": "C46", "title": "Number printing and scanning are inverse up to the asked digits", "statement": "ftos(x,..,len,fmt) followed by ctof gives back a number that differs from x by at most half a unit in the last asked digit, the letter suffixes mean the same both ways, and the output never overruns its buffer.", "quantifier": "every number in the printable range, every length and format", "why_tests_cant": "carry and suffix boundaries are hit by isolated values only", "anchors": ["lib/l_ftos.cc: ftos", "lib/ap_convert.cc: CS::ctof"]}
{"id": "C47", "title": "Continuation lines are joined and comments kept apart", "statement": "getlines joins exactly the lines that follow with a continuation mark (or whose predecessor ends with the continuation character) into one logical line, in order, and the next call starts at the first line that does not belong to it.", "quantifier": "every sequence of physical lines", "why_tests_cant": "all line sequences, end of file included", "anchors": ["lib/ap_construct.cc: getlines"]}
{"id": "C48", "title": "The plugin registry neither loses nor mixes up entries", "statement": "After install under a name (or list of alternative names) the lookup of each name gives that plugin; earlier plugins under that name stay reachable under their stash name; names never installed give nothing; uninstall removes exactly that plugin.", "quantifier": "every history of install, uninstall and lookup", "why_tests_cant": "depends on history", "anchors": ["lib/l_dispatcher.cc", "include/l_dispatcher.h"]}
{"id": "C49", "title": "Shared objects are counted exactly", "statement": "The count kept by probed objects equals the number of live probes pointing at them, and the share count of attached model data equals the number of attachments, through any sequence of copies, assignments and destructions; no object is released while in use and none is leaked.", "quantifier": "every sequence of copy, assign and destroy, self assignment included", "why_tests_cant": "all histories", "anchors": ["lib/u_probe.cc", "include/u_attrib.h", "lib/e_compon.cc: COMMON_COMPONENT::attach_common, detach_common"]}
{"id": "C50", "title": "Gate outputs are the Boolean function of the inputs", "statement": "For any number of inputs in any order, the settled value of an AND/NAND/OR/NOR/XOR/INV gate is the Boolean function of the settled input values; an unknown input yields unknown unless the other inputs decide; inputs that do not change give an output that does not change.", "quantifier": "every number and order of inputs, every value", "why_tests_cant": "the fold over five-valued tables must be right for all widths", "anchors": ["lib/e_logicval.cc", "include/e_logicval.h", "apps/d_logic.cc: logic_eval"]}
{"id": "C51", "title": "Digital node state machine", "statement": "A digital event scheduled with a delay becomes the node's value exactly at its time, a rejected step restores the previous state, and converting a logic value to a voltage and back gives the same logic value.", "quantifier": "every event schedule with accepts and rejects", "why_tests_cant": "depends on interleavings of events and step rejections", "anchors": ["lib/e_logicnode.cc: set_event, propagate, unpropagate, to_logic, to_analog"]}
{"id": "C52", "title": "Junction and gate voltage limiting keeps the fixed point and bounds the move", "statement": "The limiting functions leave a converged (unchanged) voltage alone, never move in the wrong direction, and bound the move, so that limiting cannot create a false solution.", "quantifier": "every pair of old and new voltages and every threshold", "why_tests_cant": "branches by region; all values", "anchors": ["include/u_limit.h: fet_limit_vds, fet_limit_vgs, pnj_limit"]}
{"id": "C53", "title": "FFT computes the discrete Fourier transform", "statement": "For a power-of-two length the fft routine returns the discrete Fourier transform of its input (scaled by 1/n forward, unscaled inverse), so inverse after forward is the identity.", "quantifier": "every power-of-two length and every input vector", "why_tests_cant": "index permutation errors depend on the length", "anchors": ["lib/m_fft.cc: fft"]}
{"id": "C54", "title": "Voltage controlled switch has hysteresis and announces its switching", "statement": "A switch is on above its on threshold, off below its off threshold and keeps its previous state in between, for every input history, and a step that crosses a threshold is refined to the crossing.", "quantifier": "every input history", "why_tests_cant": "memory effect: depends on history", "anchors": ["apps/d_switch.cc: SWITCH_BASE::do_tr, tr_review"]}
{"id": "C55", "title": "Transient command arguments are understood in any legal order", "statement": "The interpretation of the numeric arguments of the transient command (stop, step, start in their legal orders) always yields start <= stop, a positive strobe no longer than the run and 0 < dtmin <= dtmax <= the run, or an error.", "quantifier": "every list of zero to three numeric arguments, every previous run state", "why_tests_cant": "branching on comparisons of the arguments; all orders", "anchors": ["apps/s_tr_set.cc: TRANSIENT::setup"]}
{"id": "C56", "title": "Reading an expression always ends", "statement": "The expression reader ends on every text, well formed or not, with a token list or an exception, after at most a number of nested calls proportional to the length of the text; a successful read has consumed at least one character.", "quantifier": "every text", "why_tests_cant": "all texts: a reading function that succeeds without moving the cursor would recurse for ever", "anchors": ["lib/m_expression_in.cc"]}
{"id": "C57", "title": "Fourier analysis prints the harmonics of the waveform", "statement": "For a periodic waveform without components above the stop frequency the fourier command prints, at the multiples of the step frequency, the mean value, the amplitude and the phase of each harmonic; the relative columns are these divided by the largest harmonic; the number of samples is a power of two above twice the number of harmonics.", "quantifier": "every frequency step, range, number of harmonics, amplitudes and phases", "why_tests_cant": "the number of points, the scaling of the constant term and aliasing depend on the ratio of stop and step frequency", "anchors": ["apps/s_fo.cc: final, foprint, find_max, stepnum, to_pow_of_2, setup", "lib/m_fft.cc: fft"]}
{"id": "C58", "title": "Every place an element loads into was reserved for it", "statement": "Whatever devices a circuit holds, in whatever nesting of subcircuits and gates, each matrix cell a device adds to in a DC, transient or AC analysis lies inside the profile built from what the devices asked for beforehand, and inside the storage allocated for that profile; no other cell changes. So the equations solved in each iteration are those of all the devices, with nothing lost.", "quantifier": "every circuit, every nesting, every numbering of the nodes", "why_tests_cant": "a missing reservation shows only for node numberings for which no other device covers the cell; then memory next to the matrix is overwritten or a term is dropped", "anchors": ["lib/e_elemnt.cc: *_iwant_matrix_*", "include/e_elemnt.h: tr_load_*, ac_load_*", "lib/e_cardlist.cc: tr_iwant_matrix, ac_iwant_matrix", "apps/d_*.cc: tr_load, ac_load, tr_iwant_matrix, ac_iwant_matrix", "apps/d_coil.cc", "lib/d_logic.cc"]}
{"id": "C59", "title": "The AC solution solves the complex nodal equations", "statement": "At each frequency the voltages AC analysis leaves behind satisfy exactly the nodal equations formed from what all the devices load: the sum of the admittances times the voltages equals the sum of the sources, whatever the matrix and the vector contained before; only a pivot that is exactly zero is replaced by the minimum pivot.", "quantifier": "every circuit, every complex admittance and source, every previous content of the matrix", "why_tests_cant": "depends on clearing, on the reservation for each device and on the elimination order all at once, for every circuit", "anchors": ["apps/s_ac.cc:234-252 AC::solve", "lib/e_elemnt.cc", "include/m_matrix_solver.h"]}
{"id": "C60", "title": "The impedance probe reports the impedance of the circuit at the port", "statement": "Z(element) is the voltage one ampere produces across the terminals of the element in the linearized circuit with the element's own admittance taken away, and Zraw the one with it left in, in real and in complex arithmetic, for every circuit whose matrix is not singular.", "quantifier": "every circuit, every pair of nodes, every admittance", "why_tests_cant": "an identity between the solutions of two different circuits, for all circuits", "anchors": ["include/e_aux.h: port_impedance", "lib/e_elemnt.cc: tr_probe_num, ac_probe_ext", "lib/e_node.cc: tr_probe_num, ac_probe_ext"]}
{"id": "C61", "title": "Coupled inductors satisfy the coupled equations", "statement": "In transient analysis the voltage across a coil with any number of couplings is the derivative of its own flux plus, for each coupling, the derivative of the mutual inductance times the current of the other coil, each derivative taken with the integration formula from the currents of the present and the past accepted steps; in AC analysis v1 = jw (L1 i1 + M i2). This holds after any sequence of steps, shortened steps, DC points and continued runs.", "quantifier": "every sequence of calls, every method, every coupling, every number of couplings per coil", "why_tests_cant": "the element keeps three flux histories, one of the difference of the currents and one for each current, and loads their combination; that they stay consistent is an invariant over all sequences", "anchors": ["apps/d_coil.cc", "lib/e_storag.cc: differentiate, tr_needs_eval"]}
{"id": "C62", "title": "Elements load the tangent of their law, and the present value", "statement": "At every evaluation of a resistor, admittance, VCCS, VCVS, voltage or current source, VCG, VCR, CCCS or CCVS, the current put into the rows of its two output nodes is its law linearised at the point of evaluation (to first order if the function reports its true derivative), with the sensed current of a current controlled source taken from the line of the sensed element. An element with a plain value loads, at every point of a DC sweep, the law of the value the swept parameters give it at that point.", "quantifier": "every law, every point, every sweep, every number of iterations, every damping, every state left by earlier points", "why_tests_cant": "a wrong linear part still converges on most circuits, only slower or not at all, and a value that is not refreshed shows only in a sweep of a parameter that this kind of element uses", "anchors": ["apps/d_res.cc", "apps/d_admit.cc", "apps/d_vcvs.cc", "apps/d_vs.cc", "apps/d_cs.cc", "apps/d_vcg.cc", "apps/d_vcr.cc", "apps/d_cccs.cc", "apps/d_ccvs.cc", "include/e_elemnt.h"]}
{"id": "C63", "title": "Behavioural functions report their value, their slope and their modifiers", "statement": "POLY, POSY and TANH leave in the element the value and the derivative of scale*(1+tc1*dT+tc2*dT^2)*f(x+ioffset)+ooffset, so that the element loads the tangent of this function; functions of time give sources that value and admittances that conductance; EXP is the initial value plus one pulse for every period that has begun, and never jumps; in AC every frequency sees the slope at the operating point, with a pole at bandwidth, turned by phase and delayed by delay.", "quantifier": "every list of coefficients, every table, every input, every setting of the modifiers, every time, every number of frequencies", "why_tests_cant": "the slope only steers convergence and AC, so a wrong one at a special point shows as a rare failure; the modifiers combine with every function and every kind of element", "anchors": ["lib/bm.cc", "include/bm.h", "apps/bm_poly.cc", "apps/bm_posy.cc", "apps/bm_tanh.cc", "apps/bm_fit.cc", "apps/bm_exp.cc", "apps/bm_sffm.cc"]}
{"id": "C64", "title": "Each analysis uses the function meant for it", "statement": "Of the clauses that follow an element's nodes, each analysis uses the one with its own keyword, the last if there are several; an analysis without one takes, in order, DC, unconditional, TRAN (for OP), unconditional, OP, TRAN (for DC), unconditional, DC, OP (for TRAN, and FOURIER as TRAN), and for AC the unconditional one, in a source only if it is meant for AC too; else zero. In a source a plain number without keyword is the DC value if none came before. Writing the element out and reading it again selects the same functions.", "quantifier": "every list of clauses in every order, sources and other elements", "why_tests_cant": "the clauses can be combined and ordered in unboundedly many ways, and a wrong choice is a plausible result of another analysis", "anchors": ["lib/bm_cond.cc", "include/mode.h"]}
{"id": "C65", "title": "Expanding subcircuits gives the flat circuit", "statement": "When no definition contains itself, every instance is of a known definition and connects all its ports, the circuit is expanded, and then two terminals of devices, anywhere in the hierarchy, share an unknown of the equations exactly when they are on the same net of the flat circuit: ground is 0 everywhere, a port is what the instance connects there, any other name inside is a net of that instance alone, and each node a device makes is a net of its own. The unknowns are exactly the nets. If the flat circuit does not exist there is an error and memory is not overrun. Expanding again gives the same numbers.", "quantifier": "every set of definitions with proper headers, every circuit, every nesting, every matrix ordering", "why_tests_cant": "nesting and the pattern of connections are unbounded; two nets merged or split by renumbering change the results only where voltages differ", "anchors": ["lib/e_cardlist.cc", "lib/e_node.cc", "apps/d_subckt.cc", "apps/lang_spice.cc", "lib/e_compon.cc", "lib/u_sim_data.cc"]}
{"id": "C66", "title": "Names lead to the parts they are printed for", "statement": "A name with dots given to a probe command finds exactly the nodes and parts it names, read from the outside in or from the inside out, wildcards included. The name printed for a part leads back to it, for probes, list, modify, fault, dc and delete. A command that changes parts changes those the name leads to, each once, and no others; no name makes a command run into a null pointer.", "quantifier": "every circuit with any nesting, every name with any number of dots and wildcards, either case setting", "why_tests_cant": "circuits and names are unbounded; a part changed in addition, or missed in the second instance, goes unnoticed unless that part is looked at", "anchors": ["lib/u_prblst.cc", "lib/findbr.cc", "lib/e_card.cc", "apps/c_modify.cc", "apps/c_delete.cc"]}
{"id": "C67", "title": "Capacitors and inductors account for all charge and flux", "statement": "Over a transient, however many steps are rejected and whatever their sizes, the current of a capacitor summed over the steps by the rule of the method is exactly the charge at the end less the charge in DC, the charge being the capacitance times the voltage or the function given; each line loaded passes through the rate at the last voltage with the derivative as its slope; an inductor is the same for flux and voltage. In DC a capacitor is open and an inductor a short circuit. In AC the capacitance is the slope at the DC voltage. The same holds for capacitors with a control voltage, and the current shown by a probe is the one loaded.", "quantifier": "every sequence of steps, attempts and iterations, every function, every method", "why_tests_cant": "charge lost in rejected steps shows only as slow drift over long runs; the number and pattern of rejections is unbounded", "anchors": ["apps/d_cap.cc", "apps/d_coil.cc", "lib/e_storag.cc", "lib/e_elemnt.cc", "lib/bm.cc"]}
{"id": "C68", "title": "A transmission line delays waves and loses nothing", "statement": "In a transient what each port of a transmission line sees (v - z0 i) is what the other port sent (v + z0 i) a delay earlier, however the steps are chosen and whichever are rejected; with z0 at its end it is a pure delay and sends nothing back. In AC its ports are related as in the telegraph equations of a lossless line at the frequency (but for a millionth of a quarter wave at resonance), and it takes no average power. Inductance and capacitance, or frequency and wavelengths, give the delay and impedance they stand for.", "quantifier": "every sequence of attempted steps and port voltages, every frequency, delay, impedance, multiplier and connection of nodes", "why_tests_cant": "reflections pile up over unboundedly many steps of arbitrary sizes, with interpolation between them; the wave left by a rejected step would show only in rare runs", "anchors": ["apps/d_trln.cc", "include/m_wave.h", "include/m_interp.h"]}
{"id": "C69", "title": "A diode follows its characteristic", "statement": "The line a diode loads is the tangent of its characteristic, and where iteration comes to rest the current is that of the characteristic at the voltage there: the exponential law of the junction plus the conductances asked for, and breakdown beyond bv. At a held voltage iteration comes to rest from any state. The characteristics used inside mosfets are smooth where their parts meet. The junction capacitance is positive, smooth and rising, the charge moved is that of the capacitance, and a closed run of voltages moves none. The saturation current is is at the nominal temperature and rises with temperature.", "quantifier": "every positive saturation current and thermal voltage, every voltage, every state left by earlier iterations, every run of voltages, all settings of flags but where named", "why_tests_cant": "voltages, states and the number of iterations are unbounded; a wrong resting point looks like a plausible operating point", "anchors": ["apps/d_diode.model", "apps/d_admit.cc"]}
{"id": "C70", "title": "A mosfet comes to rest at the current of its equations", "statement": "With the node voltages held, a mosfet comes to rest after finitely many iterations whatever state it was in, in either direction and polarity, and stays. At rest the current from drain to source is that of the square law (level 1) at the node voltages, what is loaded is its tangent, drain and source can be exchanged, a p channel device is the mirror image, and the channel never delivers power. The current reported is the one that flows; the substrate current flows from the end that works as drain; the currents reported for the terminals add up to zero.", "quantifier": "every node voltage, every state before, either polarity and direction, drain and gate joined or not, all parameters of level 1", "why_tests_cant": "limiting and reversal depend on the whole past of an iteration; slopes matter on borders of regions that no finite set of points hits", "anchors": ["apps/d_mos.model", "apps/d_mos1.model", "apps/d_mos7.model", "apps/d_mos8.model", "apps/d_poly_g.cc", "include/u_limit.h"]}
{"id": "C71", "title": "A bipolar transistor follows Gummel and Poon", "statement": "With the node voltages held a bipolar transistor comes to rest after finitely many iterations whatever state it was in. At rest the currents at its terminals are those of Gummel and Poon: the transport current between collector and emitter, the base currents from base to emitter and collector; they are what is reported and add up to zero; what is loaded are the tangents; pnp is the mirror image of npn; the current gains are bf and br; the device never delivers power. Its charges have the capacitances loaded as slopes, for both voltages, and the element that holds them loads their rate of change. Its values at a temperature are those given if that is the nominal one, and do not depend on which temperature was chosen as nominal.", "quantifier": "every node voltage, every state before, both polarities, all parameters incl. Early voltages and roll off, every method of integration", "why_tests_cant": "slopes, passivity and the gain hold for a continuum of voltages and parameters; the tests in the repository compare with outputs recorded from the program itself", "anchors": ["apps/d_bjt.model", "apps/d_poly_g.cc", "apps/d_poly_cap.cc", "include/u_limit.h", "lib/e_storag.cc"]}
{"id": "C72", "title": "Gate capacitances of a mosfet are those of Meyer, bounded, and move continuously", "statement": "The capacitances of the gate to source, drain and bulk are never negative, together no more than that of the gate (beside the overlaps), with no division by zero. Above threshold source and drain have Meyer's parts whether saturated or not: two thirds and nothing saturated, half each with no voltage along the channel. They are continuous in all voltages, also where the device reverses and where it turns on. The charge belongs to the voltages: it returns when they return.", "quantifier": "every bias with vds not negative, vdsat positive exactly above threshold and bulk not forward; every gate capacitance and phi; every sequence of steps", "why_tests_cant": "bounds and continuity are over a continuum; the jumps are at single voltages no table of outputs hits", "anchors": ["apps/d_mos.model"]}
{"id": "C73", "title": "Faults and sweeps leave the circuit as it was", "statement": "Whatever faults, changes and analyses were done in between, unfault gives every element faulted back the value and the attached function it had before its first fault, and leaves all others alone. While faulted an analysis sees the last value given. A sweep runs as often as asked for with values evenly spaced (or in proportion) from the first to the last given, and leaves the circuit as it was. All this is well defined for every card a name can lead to.", "quantifier": "every circuit with instances of subcircuits, every sequence of fault, modify, run, delete, unfault; every number of steps and range", "why_tests_cant": "the interplay of identity of cards, expansion and a stack over arbitrary command sequences; what goes wrong is a write to freed memory, which a test may not notice", "anchors": ["apps/c_modify.cc", "apps/c_sweep.cc", "include/u_cardst.h", "lib/e_card.cc", "lib/u_sim_data.cc"]}
{"id": "C74", "title": "A SPICE line is taken apart as written and its listing reads back", "statement": "On an instance line the nodes are told from the type and the parameters: with parentheses, with name=value behind, with a bracket behind, or to the end of the line, however the words are separated. Reading ends on every line. What is listed for an instance, read again, gives the same label, nodes, type and parameters with the same values, and the listing of a subcircuit keeps what was said about its parameters.", "quantifier": "every label, node list, type and parameter list of any length; every spacing with blanks and commas; every line", "why_tests_cant": "the guess depends on the number of words, the limits of the device and what follows, in all combinations; endless loops and lost text show up only on lines a test happens to have", "anchors": ["apps/lang_spice.cc", "lib/ap_skip.cc", "lib/ap_convert.cc", "include/ap.h", "lib/e_compon.cc"]}
{"id": "C75", "title": "Options are set as named, stay in range, end, and read back as printed", "statement": "Every name of an option, in full or shortened as its key allows, gets to that option and no other, in either case mode. Reading an options command ends on every text. After every command the limits of convergence fit the tolerance, enumerations are in their range and what must not be negative is not, so printing reads no name outside of its table. What the options command prints gives back the same options when read, and comments on the line set nothing.", "quantifier": "every entry of the table and every shortening of its name; every text; every state; every printed form of numbers that reads as its value", "why_tests_cant": "99 entries are tried in order with overlapping shortened names, so each name can be taken by any entry before it; the invariant and the end are about all texts", "anchors": ["lib/u_opt2.cc", "lib/u_opt1.cc", "include/u_opt.h", "lib/ap_get.cc", "lib/ap_error.cc", "lib/ap_skip.cc", "lib/u_lang.cc"]}
{"id": "C76", "title": "Probes read the quantity they name", "statement": "Every name of a reading of an element, capacitor, inductor, mutual inductor, meter, subcircuit or node, in full or shortened as its key allows, reads that quantity, in either case mode. v and a number is the voltage at that pin. In AC a letter behind the name picks magnitude, phase, real or imaginary part and db the decibels, and these fit together. Power is dissipated less sourced, the power of a subcircuit is the sum over its parts, and a current controlled switch sees the current. Rounding moves a reading by half of floor at most. Every reading ends.", "quantifier": "every name in every table and every shortening, both case modes; every state of the element; every complex value and every mode of phase; every sequence of steps of the switch", "why_tests_cant": "names overlap along chains of tables, and letters of modifiers are letters of names too; the rest is about all values and all sequences", "anchors": ["lib/e_base.cc", "lib/u_xprobe.cc", "include/m_phase.h", "lib/e_elemnt.cc", "lib/e_compon.cc", "lib/e_node.cc", "lib/e_logicnode.cc", "lib/d_subckt.cc", "apps/d_switch.cc", "apps/d_cap.cc", "apps/d_coil.cc", "apps/d_meter.cc", "lib/e_storag.cc"]}
{"id": "C77", "title": "What is listed in Verilog is read again as it was", "statement": "An instance, the header of a module or a paramset, as listed in Verilog, is read again with the same attributes, type, label, parameters and ports in the same order, and nothing is left over. Names that Verilog cannot write as they are stand behind a backslash and a blank ends them; reading gives the name back. The type by which the line is dispatched is the type the instance is read with. Ports given by order go to the ports in that order. Every line ends in a definite result, whatever is missing in it.", "quantifier": "every instance, header and paramset whose names and values can stand on a line (attributes of any text, nested parentheses in values, escaped names with any characters), both case modes, any number of parameters and ports", "why_tests_cant": "names, values and attributes nest and run into each other without bound, and the two functions that pass over attributes do it by different rules", "anchors": ["apps/lang_verilog.cc", "lib/ap_match.cc", "lib/ap_skip.cc", "lib/ap_convert.cc", "include/ap.h", "lib/d_subckt.cc"]}
{"id": "C78", "title": "What is listed in Spectre is read again as it was", "statement": "An instance, the header of a subcircuit or a model, as listed in Spectre, is read again with the same label, type, nodes in the same order and parameters, and nothing is left over. Nodes may be written without parentheses. The type by which the line is dispatched is the type the instance is read with. Whatever the line, the nodes set are no more than the device has and no fewer than it needs, and reading comes to an end. Ports of a subcircuit that are refused are no ports.", "quantifier": "every instance, header and model whose names and values can stand on a line, any number of nodes and parameters, any blanks and commas between the words of a line with nodes not in parentheses, both case modes", "why_tests_cant": "the reader guesses where the type stands from the equal signs behind it, words and blanks are not bounded, and a test shows one line where the guess is right", "anchors": ["apps/lang_spectre.cc", "lib/ap_match.cc", "lib/ap_skip.cc", "lib/ap_convert.cc", "include/ap.h", "lib/e_compon.cc"]}
{"id": "C79", "title": "What is written arrives, in its columns, broken where it can be read again, in the files asked for", "statement": "Everything that is written goes in order to each file it is meant for and to no other. The column counted for a file is the length of its last line. A line is broken only before a text that does not fit, with a continuation sign, and no line gets longer than the width unless one text alone is longer. A broken line read again has the same words. A tabulator leads to its column in every file. Redirection leads the output of a command to the file named and nowhere else. No two files share a place in the table of files.", "quantifier": "every sequence of characters, texts and tabulators written by any objects with any sets of files, every width, every table of files, every sequence of files attached", "why_tests_cant": "one object writes to many files at once, each with its own column; whether a line breaks depends on all that was written before; a test compares one output at one width", "anchors": ["include/io_.h", "lib/io_out.cc", "lib/io_contr.cc", "lib/io_getln.cc"]}
{"id": "C80", "title": "Printed tables keep their columns and can be read", "statement": "In the table an analysis prints, every value stands in the column its label heads, for all values, all formats and all numbers of probes. A row read number by number gives the values printed to the digits asked for but one. A row that fits in the width is one line; one that does not fit is broken so that the program, reading it again, sees the same words.", "quantifier": "every number of digits from 4 to 20, every list of labels and values in range, both formats, every width and state of the output", "why_tests_cant": "the width of a printed number depends on its exponent, its sign, rounding that carries, and the letters used for units; a test sees a few values", "anchors": ["apps/s__out.cc", "lib/io_out.cc", "lib/l_ftos.cc", "lib/u_opt2.cc"]}
{"id": "C81", "title": "A plot of characters shows the values where they are", "statement": "In a plot made of characters every value within its limits is drawn at the column nearest to its place on the scale, so that it can be read off to half a column; larger values are never drawn lower; values beyond the limits are drawn at the ends. Marks and their numbers stand at the places of the scale they name, numbers do not touch each other, lines fit in the width, and nothing is written outside the arrays.", "quantifier": "every width, number of divisions, pair of limits, value and probe list; any contents of the arrays before", "why_tests_cant": "rounding to columns depends on width, limits and divisions together; a test compares a few plots at one width", "anchors": ["lib/plot.cc", "lib/io_out.cc", "lib/l_ftos.cc"]}
{"id": "C82", "title": "A command line runs the command it names", "statement": "The first word of a command line chooses the command: every name a command was installed under, and every permitted shortening of it, runs that command and no other, in any case when cases do not matter, with prompts and the mark for hidden commands in front or not; the text behind the word is what the command gets; a comment runs nothing; a word that names nothing runs nothing.", "quantifier": "every first word, every text behind it, every registry (the names there are when the program starts for full names), both settings of case", "why_tests_cant": "the short names are a chain of overlapping patterns tried before the registry: a new pattern or name can take over any other, and tests use a few names only", "anchors": ["lib/c__cmd.cc", "include/md.h", "include/l_dispatcher.h", "lib/ap_match.cc"]}
{"id": "C83", "title": "Multiplicity counts: k of a component are k components in parallel", "statement": "The factor a component is loaded with is the product of its own multiplicity and those of everything that contains it, with the parameters in force, after any sequence of analyses, sweeps and changes of parameters. Loading with the factor k is the same as loading k equal elements, and a circuit with a subcircuit of multiplicity k has the solutions of the circuit with k copies of it in parallel. The parameters given by order go to the parameters of the device in that order, and $mfactor= and m= set the multiplicity.", "quantifier": "every tree of subcircuits and devices of any depth, every sequence of analyses and sweep points with any parameters, every component; every kind of load, full or incremental, damped or not; any nonlinear elements inside and outside; any number of arguments and parameters", "why_tests_cant": "the stored factor depends on the order of evaluation over the whole hierarchy and on earlier analyses; stale factors appear only when a parameter is changed between analyses inside the right kind of device", "anchors": ["lib/e_compon.cc", "include/e_compon.h", "include/e_elemnt.h", "lib/e_elemnt.cc", "lib/d_subckt.cc", "modelgen/mg_out_dev.cc", "lib/e_cardlist.cc", "lib/u_sim_data.cc", "apps/s_dc.cc", "apps/lang_verilog.cc", "apps/lang_spice.cc", "include/e_paramlist.h"]}
{"id": "C84", "title": "Probe commands: the list after print, plot or alarm is the one the line describes", "statement": "A line of print, plot, alarm or store names one analysis and then items like v(1,2) or i(R1)(0,5), each with or without a sign: the list of that analysis is first emptied if the first item has no sign, then every item is put at the end or taken off in the order written, with the limits given; the lists of the other analyses do not change. `clear` empties one list or all. A probe can be taken off by the name it is printed with. Every line comes to an end.", "quantifier": "every circuit, every earlier contents of the lists, every number of items and names of any length, either kind of letter case; for the end of the command: every text", "why_tests_cant": "the lines are unbounded lists of items with signs that carry over to later items, and the result depends on names in the circuit and on what the lists held before; an endless loop on some text cannot be excluded by trying texts", "anchors": ["apps/c_prbcmd.cc", "lib/u_prblst.cc", "lib/u_probe.cc", "lib/ap_error.cc", "lib/e_base.cc"]}
{"id": "C85", "title": "The generator has the pulse its parameters describe", "statement": "The generator has its initial value until the delay is over, goes in a straight line to the top of the first pulse within the rise time, and is then the offset plus the amplitude (times a sine if a frequency is given) times a level that rises from the minimum to the maximum in the rise time, stays for the width, and falls in the fall time, in every period anew; it stays between the levels and does not jump. The generator command sets the variables that are named, in full or shortened, and no others, ends, and leaves no negative times.", "quantifier": "every time, every combination of parameters; every line of names and numbers of any length, for the end of the command every text; every sequence of commands", "why_tests_cant": "the waveform is a function on the reals with corners at all multiples of the period, and the parameters are real numbers; a division of 0 by 0 occurs at single instants", "anchors": ["apps/c_genrat.cc", "apps/bm_generator.cc", "apps/s_tr_swp.cc", "lib/ap_get.cc", "include/ap.h"]}
{"id": "C86", "title": "A model name or subcircuit name stands for the nearest card of that name", "statement": "A device gets the model of that name in the nearest list around it: the plain name first, else of the bins name.1, name.2 and so on, without a gap, the lowest numbered one that fits the device; lists further out are asked only if a nearer one has nothing to offer. An instance is made from the nearest definition of that name. The search for bins ends. Something of that name that is not a model or not a definition is an error, nothing at all another; a plain model that does not fit gives a warning. What a subcircuit sees is what is around its definition.", "quantifier": "every circuit, nesting of instances of any depth, every name, every validity test of the models, any number of bins", "why_tests_cant": "names can be repeated at every level of a hierarchy of any depth and in any order, and the interplay of bins, plain names and levels has no finite list of cases", "anchors": ["lib/e_card.cc", "lib/e_compon.cc", "lib/e_cardlist.cc", "lib/d_subckt.cc", "lib/u_lang.cc", "apps/d_mos_base.model", "modelgen/mg_out_model.cc"]}
{"id": "C87", "title": "Semiconductor resistors and capacitors have the value of their rectangle", "statement": "A capacitor with a model of type c has the area capacitance times the area plus the rim capacitance times the rim of the rectangle of its length and width less the narrowing; a resistor with a model that has a sheet resistance has that times the number of squares; both times the temperature polynomial of the model. The width defaults to that of the model. Nothing left of the rectangle, or no length, is an error. A resistor whose model has no sheet resistance has the value on its line. A value on the line is used.", "quantifier": "all lengths, widths, temperatures and model parameters, given or not", "why_tests_cant": "the formula has nine real parameters, each of which may be missing, and the errors lie on surfaces in that space", "anchors": ["apps/bmm_semi.cc", "lib/e_compon.cc", "lib/e_model.cc"]}
{"id": "C88", "title": "A line for AC, OP or DC sets the sweep it says", "statement": "The numbers of a line for ac or op are start and stop, one number is both, a third one of ac is a linear step; words for steps, flags, temperatures and tracing, in any of their abbreviations, set what they are for and nothing else, and no in front of a flag turns it off. The step of ac may stand before or behind the numbers. A line for dc has up to four levels, each an element or a parameter by name, from, to and options, and each gets what stands behind its name. What is not said keeps what an earlier line said. Reading ends for every line.", "quantifier": "all lines made of such items, all numerals, all abbreviations, all earlier states, both settings of case; for the end, all texts", "why_tests_cant": "the words share beginnings with each other, with names of elements and with numbers, so that lines can be read in more than one way, and the state left by earlier lines counts", "anchors": ["apps/s_ac.cc", "apps/s_dc.cc", "include/u_parameter.h", "lib/ap_get.cc"]}
{"id": "C89", "title": "A mosfet of level 6 follows the law of the n-th power, and its slopes are those of its current", "statement": "At every voltage the current of level 6 is beta u^nc (1 + lambda vds) times a parabola that rises to one at the saturation voltage kv u^nv, with u the gate voltage above threshold. The slopes it hands to the solver are the derivatives of that current: off, on, in saturation or not, and across the borders. The channel never delivers power. In a circuit, from any state, the device comes to rest at this current, in either direction and for either channel. The threshold at a temperature is the one the process gives there.", "quantifier": "all parameters with kv and phi above zero, all voltages, all smooth paths of voltages, all states of a device, all temperatures", "why_tests_cant": "a wrong slope does not change the solution that is found, only how and whether it is found, and the AC results; parameters which matter are zero by default", "anchors": ["apps/d_mos6.model", "apps/d_mos123.model", "apps/d_mos1.model", "apps/d_mos.model", "include/l_denoise.h"]}
{"id": "C90", "title": "A mosfet of level 3 follows its semi-empirical law, and its slopes are those of its current", "statement": "At every voltage the current of level 3 is that of the law it is named for: a parabola of the drain voltage up to its top, with body effect of short and narrow channels, mobility that falls with gate voltage, static feedback of the drain on the threshold, velocity saturation, a channel that shortens in saturation but never to nothing, and an exponential below threshold. The slopes it hands to the solver are the derivatives of that current. Current never flows against the voltage. In a circuit, from any state, the device comes to rest at this current, in either direction and for either channel. No result is less than a number.", "quantifier": "all parameters with the bulk term positive, all voltages, all smooth paths of voltages, all states of a device", "why_tests_cant": "a wrong slope does not change the solution that is found, only how and whether it is found, and the AC results; each term that is wrong is off by default and needs several parameters and a region together to show", "anchors": ["apps/d_mos3.model", "apps/d_mos123.model", "apps/d_mos.model"]}
{"id": "C91", "title": "A mosfet of level 4 (BSIM1) follows its law, and its slopes are those of its current", "statement": "At every voltage the current of level 4 is that of its law: the gain at no drain voltage and that at the supply joined by a parabola and carried straight on, reduced by the gate field; a drain current that rises to its largest value with velocity saturation and stays there; body effect, and feedback of the drain on the threshold between none and all; below threshold an exponential that gives way to a limit. The slopes it hands to the solver are the derivatives of that current. In a circuit, from any state, the device comes to rest at this current, in either direction and for either channel. Every result is a number.", "quantifier": "all parameters with the surface potential, length and thermal voltage positive and body effect not negative, all voltages with the bulk at or below the source, all smooth paths of voltages, all states of a device", "why_tests_cant": "a wrong slope does not change the solution that is found, only how and whether it is found, and the AC results; a result that is not a number shows at exactly no drain voltage only, where every analysis starts", "anchors": ["apps/d_mos4.model", "apps/d_mos.model"]}
{"id": "C92", "title": "A line of the transient or Fourier command does what it says, from its text to the run", "statement": "Read from its text, a line of TRANSIENT with up to four numbers and any options (in any order, abbreviated or not, in either case) gives the run, or the error, that its numbers and options mean; what it leaves for the next line agrees, so this holds of any number of lines one after the other. A line of FOURIER gives one period of the step frequency, sampled at a power of two of points, enough for the stop frequency and not more than needed, or is refused when the step is zero. Reading ends for every text, without undefined behaviour for such lines.", "quantifier": "all numerals, all sequences of options with any of their spellings, all states left by earlier lines, all settings of case and units; for the end of reading all texts", "why_tests_cant": "the words are abbreviations tried in order, the numbers mean different things by count, size and history; only all combinations together show that no line is read as another one", "anchors": ["apps/s_tr_set.cc", "apps/s_fo.cc", "lib/u_parameter.cc", "lib/ap_get.cc"]}
{"id": "C93", "title": "A device model from Spice, wrapped, sees the circuit's voltages and its stamps reach the circuit, each once", "statement": "For every Spice device (any joins and nodes of its own in its setup, any stamps in its load) there is one seating of its node numbers in the circuit: terminals where they are connected, unconnected ones at ground if asked for, every other number at a node of its own. The device reads the voltages of these seats, and after any sequence of evaluations and loads, full or incremental, the circuit holds the rest and exactly what the device stamped last, at the seats, counted once. Its states go back in time step by step; its charges are integrated with the chosen method; it counts as converged, is loaded, and is skipped, only within the tolerances; parameters reach it.", "quantifier": "all devices (terminals, slots, setup sequences, stamps), all circuits and voltages, all sequences of loads, of time steps and step backs, all charges, tolerances and parameter values", "why_tests_cant": "a test runs one device with one netlist; numbering, sharing of numbers and what was loaded before combine without bound, and a misplaced stamp shows as a slightly wrong answer", "anchors": ["include/spice-wrapper.cc"]}
{"id": "C94", "title": "Reading a netlist: every line of every file is read once, in place, with the subcircuit and section it belongs to", "statement": "For every tree of files (includes, merges, library sections, subcircuits, nested without bound) in the Spice language: every line up to `.end` is read once and in order; an instance gets the subcircuit it is in as owner, a command works on it; a subcircuit ends at its own `.ends`; `.lib f s` reads exactly the sections s of f, and a section that is only defined is passed over; an included file at the top reads as if its lines were written there; an exception ends all reading at once; the run mode at the end is the one at the start; the outcome is unique.", "quantifier": "all lines, all trees of files, all devices and cards known by name, all actions of commands and devices (with any outcome), both cases of letters, all nestings", "why_tests_cant": "files include files that open subcircuits and sections; what a line means depends on its nesting, the cards already made and the names of commands; tests have one or two levels", "anchors": ["apps/lang_spice.cc", "lib/u_lang.cc", "lib/c_file.cc"]}
{"id": "C95", "title": "A session: every argument and every line typed is done once, in order, in the right run mode, whatever fails or is interrupted", "statement": "For all arguments, startup files and lines typed: each argument is read in one way and what it asks for is done in order, a failure of one does not stop the others; the program leaves if and only if the last thing asked for was a file or -b; each line typed is run in mode interactive, in a file read with < in mode script, with get or merge in mode preset (no analysis, quit and end are nothing), and the mode is put back however the file ends; the directory is put back; an interrupt gives up one line and nothing else; the circuit is cleared in the end; the exit code tells whether something failed.", "quantifier": "all lists of arguments, all trees of files and commands (with any outcome of each action), all lists of lines typed, interrupts at any point", "why_tests_cant": "failures, empty files and interrupts at any depth of nested files, followed by any later lines; tests run single scripts to their end", "anchors": ["main/main.cc", "apps/c_comand.cc", "apps/s__init.cc", "apps/lang_spice.cc", "lib/c_file.cc", "include/u_opt.h"]}
{"id": "C96", "title": "Plugins: found along the path, loaded exactly as long as they are attached, never taken from a circuit", "statement": "For all search paths, directories and sequences of attach, detach and detach_all (files and libraries may change in between, any of them may fail): a name is the file of the first directory of the path that has it; a library is loaded if and only if some name holds it; the list shows those names, each once and in order; detach undoes attach; detach_all without a circuit leaves nothing loaded; with a circuit no library is taken away; a directory attaches all its plugins in order; a failed command changes nothing.", "quantifier": "all paths, all systems of files and libraries (several names of one library), all sequences of commands, with and without circuit", "why_tests_cant": "counts of the loader and the list must agree after every history with failures, replacements and several names of one library", "anchors": ["lib/c_attach.cc", "lib/io_findf.cc", "include/io_dir.h"]}
{"id": "C97", "title": "Mosfet level 2: the current is that of the law, and the slopes given to the solver are those of the current", "statement": "For all parameters and bias points of a level 2 mosfet: the current is the integral of the channel charge up to where it vanishes (or to the drain), over the length left to the channel, times the mobility; below threshold it continues exponentially; it is never negative; transconductance, output conductance and the slope with bulk voltage are the derivatives of that current; once the bias settles the device carries it, whatever its state before. With vmax the channel ends where carriers reach that velocity.", "quantifier": "all parameters that can be (positive surface potential, length and depth), all bias points with the bulk not forward, all node voltages and all states before", "why_tests_cant": "the slopes only decide whether and how fast Newton converges; a wrong slope still converges on most circuits, and each region of the five-fold piecewise law has its own", "anchors": ["apps/d_mos2.model", "apps/d_mos.model"]}
{"id": "C98", "title": "list and save list the parts the line asks for", "statement": "Without arguments all parts are listed in order; a line of names lists all parts matching each name, once each, in order, name after name; x - y lists from the first part matching x to the first behind it matching y, x - to the end, - y from the start; a name that matches nothing is reported. Listing ends for every line and every circuit, and never leaves the lists.", "quantifier": "every circuit with any nesting, every line of names, wildcards, blanks and commas, either case setting", "why_tests_cant": "lines and circuits are unbounded; an argument left out without a word is only noticed by one who counts", "anchors": ["apps/c_list.cc", "lib/findbr.cc", "lib/ap_convert.cc"]}
{"id": "C99", "title": "param sets each name on its line to the value behind it", "statement": "A line of the command param, names with numbers, expressions in quotes or braces, or words behind equal signs, separated by blanks or commas, sets every name it gives to the last value given for it, in either case if case is ignored, and leaves every other name; real in front changes nothing; the line is read to its end and the command ends for every line. Afterwards the name, looked up from any scope inside, has that number, or the value of that expression where it is used.", "quantifier": "every list of parameters before, every line of names and values, every spacing, both cases, both modes of arithmetic, every scope inside", "why_tests_cant": "lines are unbounded; a name that loses its front or inherits its neighbour's value gives a number that looks right", "anchors": ["apps/c_param.cc", "include/u_parameter.h", "lib/u_parameter.cc", "lib/m_base_in.cc"]}
{"id": "C100", "title": "measure gives the value of the function called on what the last run recorded for the probe named", "statement": "After a run, the command measure with a name, a function, and in parentheses the label of a probe of that analysis, in quotes in front or behind the word probe, and words and values in any order, gives the value of that function for the last value given for each word, on exactly the rows the run recorded for that probe: for max and min the extreme value in the part asked for or its time, for cross the first or last crossing, for slope the difference of the values over the time between them, for integral and average the integral of the wave and its mean, for at the value or slope at the time given. An analysis that records replaces the waves; removing parts no probe looks at changes nothing.", "quantifier": "every history of probe commands, deletions and analyses, every list of probes, every number of rows, every command line of the form described, every spacing, both cases", "why_tests_cant": "a wave of another probe or of the run before gives a number that looks right; histories and lines are unbounded", "anchors": ["apps/c_measure.cc", "apps/measure_max.cc", "apps/measure_cross.cc", "apps/measure_slewrate.cc", "lib/e_base.cc", "apps/s__out.cc", "lib/u_prblst.cc", "apps/c_prbcmd.cc"]}
{"id": "C101", "title": "mosfet level 5 (BSIM2): current of the published law, and slopes that are its derivatives", "statement": "With the bulk in reverse, for every set of parameters and voltages inside a region of the law (weak inversion, the cubic, strong inversion; below or above the saturation voltage) and away from the limits and guards, the current, threshold and saturation voltage reported are those of the law, and the slopes with gate, drain and bulk voltage are the derivatives of the current reported, along every curve. The cubic has the values and slopes of its neighbours at both ends; the current below and above saturation agree where they meet. The device, with its nodes held, reaches this current from every state, in both directions. The current is continuous and flows for every voltage.", "quantifier": "every set of parameters, every voltage, every curve through the point, every state of the device before, both polarities and both directions", "why_tests_cant": "the three slopes are made by hand from some hundred intermediate slopes; a wrong one only slows or misleads the iteration for some parameters, and the current still looks right", "anchors": ["apps/d_mos5.model", "apps/d_mos.model"]}
{"id": "C102", "title": "mosfet levels 1, 2, 3, 6: electrical parameters follow from the process, in every analysis", "statement": "In every analysis, the oxide capacitance, gain, surface potential, body effect and threshold used are the values given on the model card, evaluated with the parameters of the moment, and where they are not given those which the textbook derives from the oxide, doping, gate material, surface states and temperature of the moment. Repeating an analysis changes nothing. Effective length and width, resistances and junction currents follow from the sizes on the line and the card, source and drain alike.", "quantifier": "every combination of given and missing values, both polarities, every gate material, every history of analyses and parameter values", "why_tests_cant": "the card is changed by each analysis; whether derived values are still right depends on the history of parameter changes in a session, not on one run", "anchors": ["apps/d_mos123.model", "apps/d_mos1.model", "apps/d_mos2.model", "apps/d_mos3.model", "apps/d_mos6.model", "apps/d_mos_base.model", "modelgen/mg_out_lib.cc", "include/u_parameter.h"]}
{"id": "C103", "title": "bipolar transistor: base resistance lies between RBM and RB and falls with the base current", "statement": "The resistance from the outer to the inner base is RB at zero bias, falls as base charge or base current rise, is half way between RB and RBM at a base current of IRB, and is never outside RBM..RB, so that it never gives power; a device of n times the area at n times the current is n devices in parallel. Saturation and leakage currents, Early voltages and corner currents are those of the card or their documented defaults.", "quantifier": "every card, every area, every bias, base charge and base current", "why_tests_cant": "bounds, monotony and sign of a transcendental function over all currents; a run samples a few", "anchors": ["apps/d_bjt.model", "modelgen/mg_out_lib.cc", "include/u_parameter.h"]}
{"id": "C104", "title": "mosfet levels 4 and 5: parameters at a size are nominal value plus length, width and product parts; a wider device is several in parallel", "statement": "For each size, every parameter is the nominal value plus the length, width and product parts over length, width and area in microns; gains follow from mobility, oxide and size in SI units; a card without width dependence makes a device n times as wide n devices in parallel; the gain at full drain voltage is nowhere in the bulk range below the gain at none; parameters stay inside the limits written in the model file; overlap capacitances belong to the effective size.", "quantifier": "every card, every size, every bulk voltage of the range, every combination of missing parts", "why_tests_cant": "identities and inequalities over all sizes and cards; the limits that do nothing show only for cards outside them", "anchors": ["include/u_sdp.h", "modelgen/mg_out_model.cc", "modelgen/mg_out_lib.cc", "apps/d_mos4.model", "apps/d_mos5.model", "apps/d_mos_base.model"]}
{"id": "C105", "title": "The files of log and > hold what was typed and printed while they were open", "statement": "A file opened by `log` holds every line typed from then until it is closed, once and in order. A file opened by `>` holds what is typed and all that is on the screen in that time. Files nest; the newest is closed first; output of a command redirected to its own file goes there and to no other. No file is written to after it is closed, or closed twice, whatever pointers the system gives. The column counted for a file is the column of its text. Commands of a log, read again, do the same again.", "quantifier": "every session of any length, every nesting of files, every behaviour of fopen that gives no pointer that is open", "why_tests_cant": "places in the table of files are never given back and pointers are given again: what goes wrong depends on all that was opened and closed before and on the allocator", "anchors": ["lib/c_file.cc", "include/io_.h", "lib/io_out.cc", "lib/ap_construct.cc", "lib/io_xopen.cc", "lib/io_contr.cc", "lib/io_error.cc"]}
{"id": "C106", "title": "An element with many ports loads what was evaluated, and reports the current it loads", "statement": "What the element by which transistors load their currents has in the matrix is, after any passes of the iteration, what it remembers to have loaded. A pass moves every amount to what was evaluated, the whole way without damping and otherwise the part that damping leaves, and incremental and full loading give the same. The current reported is the current of the equations. The element says it has converged only if what is in the matrix is near what is evaluated. Taken out, it leaves nothing.", "quantifier": "every number of ports, every list of passes with any damping, modes and bypasses, all values, any ordered field", "why_tests_cant": "the amounts are sums over all earlier passes, and errors appear only with damping on, bypass and incremental mode in particular orders", "anchors": ["apps/d_poly_g.cc", "include/e_elemnt.h", "include/e_compon.h", "apps/s__solve.cc", "include/u_sim_data.h"]}
{"id": "C107", "title": "The times shown by status and acct are the times spent", "statement": "The timer of a simulation command and that of all simulations measure from the start to the end of each, wherever it throws; each part of a simulation measures what is spent in it, and the overhead shown is never negative. The timer of `get` measures reading, without the commands read, and does not run between commands. No timer is started while it runs. `acct` shows for each command the time it took.", "quantifier": "every session of any length, files nested to any depth, everything thrown anywhere, every clock that does not run backwards", "why_tests_cant": "timers are global and survive commands; which are left running depends on where earlier commands threw, and no test compares times", "anchors": ["lib/l_timer.cc", "include/l_timer.h", "include/u_status.h", "lib/c__cmd.cc", "apps/s__init.cc", "apps/lang_spice.cc", "lib/c_file.cc", "apps/s_ac.cc", "apps/c_status.cc"]}
{"id": "C108", "title": "dc commands leave the circuit as the user made it", "statement": "After any sequence of dc commands, right or wrong, and changes by the user between them, every component has the value and every parameter the text the user last gave it, and no command touches what has been deleted.", "quantifier": "every session of any length: any levels of sweep, arguments wrong anywhere, components changed and deleted and parameters set between commands", "why_tests_cant": "the object of the command keeps what it swept from one command to the next; the harm shows in a later command about something else", "anchors": ["apps/s_dc.cc", "apps/s__init.cc", "include/u_cardst.h"]}
{"id": "C109", "title": "A model card listed in SPICE form is read again as it was", "statement": "Listing a .model card and reading the line gives the same label, type and parameters with their texts, in the same order; a parameter that was not given is not given after reading. No line crashes the reader.", "quantifier": "every card: any number of parameters, any names and texts, given or not; every line behind .model", "why_tests_cant": "tests list a few cards of a few kinds; which texts end a value early and what is lost behind them depends on every character", "anchors": ["apps/lang_spice.cc", "lib/d_logicmod.cc", "include/u_parameter.h", "modelgen/mg_out_model.cc"]}
{"id": "C110", "title": "The type and level of a .model line choose the card, and its listing chooses it again", "statement": "A .model line with a type and a level makes the card of that level, set as the type says; the type listed for a card, read again, makes the same kind of card set to the same.", "quantifier": "every registry of models with the keys the generator writes, every type, every level text, with case ignored or not; for the mosfets, bipolar transistors and diodes built in, every type and level", "why_tests_cant": "tests read the usual type and level of each model; names glued from type and level, levels written in other ways, and listings of cards made by other names are not tried", "anchors": ["apps/lang_spice.cc", "modelgen/mg_out_model.cc", "include/l_dispatcher.h", "lib/ap_convert.cc", "apps/d_mos1.model", "apps/d_mos8.model", "apps/d_mos_base.model"]}
