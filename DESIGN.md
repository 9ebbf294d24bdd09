# Verification of gnucap — design

Subject: gnucap at the commit pinned in `/repo` (C++).  The source is read as text only; nothing is compiled or run.
Deliverable: a Lean 4 model (`lean/Verif/*.lean`) of the parts of gnucap listed below with theorems about it.

## Trusted base

* Lean 4.33.0's kernel.
* Axioms: only Lean's own `propext`, `Classical.choice`, `Quot.sound` (whatever subset each theorem happens to use;
  `lean/Verif/Axioms.lean` prints the list for every claimed theorem).  No axioms of our own, no `sorry`,
  no `native_decide`, no `bv_decide`.
* The faithfulness of the model.  Every model definition cites the file and lines it transcribes; simplifications are
  named in the comment of the definition.  Nothing connects the model to the compiled program.

### Modelling conventions (apply to every module)

* `double` is modelled by exact arithmetic (`ℚ`, or any field / linearly ordered field).  Rounding, overflow, NaN and
  infinities of floating point are **not** modelled, except where a module says so.
* `int` is modelled by `ℕ`/`ℤ` unless the property is about overflow.
* An in-place update is a function returning the new state; a loop is a recursion or a fold, with the same order of updates.
* Undefined behaviour (out of bounds read, dereferencing `end()`, division by zero of integers) is a distinct outcome
  (`none` / `.ub`) of the model function, never a default value.
* `assert` is a precondition; calls that violate one are reported as defects, not assumed away.

## Plan per property

| id | what is modelled | how it is proved |
|----|------------------|------------------|
| C01 | profile `low`, factor array, `lu_decomp`, both `fbsub` loops over a field | loop invariants give the triangular equations; sums are rearranged to `A x = b` |
| C02 | `lu_decomp(true)` with the changed flags and `prop`; the five load functions with the flags they really set | uniqueness of the factor equations; invariant over load/decompose histories |
| C03 | `fbsubt` | loop invariants, as C01 |
| C04 | `LU_INPLACE` | same factor equations, uniqueness |
| C05 | `allocate`, `d/u/l/m/s` as cell indices | arithmetic on prefix sums |
| C06 | `iwant` | fold = minimum over requests |
| C07 | load functions | case analysis against a 0/±1 incidence specification |
| C08 | `dampdiff`, element load, history of iterations | telescoping invariant; drift from the denoiser is exhibited |
| C09 | flag machine `set_flags`/`clear_arrays`/`load_matrix`/`solve_equations` | invariant over event histories |
| C10 | `SIM::solve` loop with an oracle for device evaluation | induction on iterations |
| C11 | `solve_with_homotopy` | induction on loop |
| C12 | `NODE_MAP` | invariant over operation histories |
| C13 | `order_*`, `set_user_number` | arithmetic |
| C14 | `set_limit` | fold invariant |
| C15 | `keep/restore/zero_voltages` | refinement |
| C16–C19 | `TRANSIENT::first/next/review/accept/reject/sweep` with oracles for convergence, truncation error, events | invariants over schedules |
| C20 | `new_event`, priority queue | sortedness and rounding bounds |
| C21 | `tr_review` fold | order independence |
| C22 | `tr_advance`/`tr_regress` time arrays | invariant |
| C23, C24 | `differentiate`, `tr_c_to_g` | field algebra; gear with unequal steps refuted |
| C25 | 9×9 table | whole finite table against the rule |
| C26 | `derivatives` | divided differences of polynomials |
| C27 | `tr_review_check_and_convert` | ordered field |
| C28, C29, C33 | `tr_eval`/`tr_review` of PULSE, PWL, SIN | ordered field, floor |
| C30, C32 | `interpolate`, `WAVE` | list induction |
| C31 | `SPLINE` | tridiagonal recurrences |
| C34 | `FPOLY1`/`CPOLY1` | algebra |
| C35, C36 | sweep loops | induction |
| C37 | measure commands | list induction |
| C38–C41 | expression reader, dump, reduce, mixed arithmetic | structural induction |
| C42 | parameter scopes | induction over chain / histories |
| C43, C44, C47 | scanner, matcher, wildcard, line joiner | list induction against a declarative matcher |
| C45, C46 | `ctof`, `ftos` | arithmetic |
| C48 | dispatcher | invariant over histories |
| C49 | reference counts | invariant over histories |
| C50, C51 | logic tables, gates, digital nodes | finite tables lifted by induction over inputs |
| C52 | limiting functions | ordered field |
| C53 | FFT loops | DFT over a root of unity |
| C54 | switch | state machine |
| C55 | argument decision | ordered field case analysis |
| C56 | expression reader | fuel bound, progress of the cursor |
| C57 | FFT, Fourier rows | DFT of a sum of cosines, orthogonality |
| C58 | per device lists of requests and loads, nested circuit | every load is covered (induction on the nesting), place in the allocated storage, nothing else is written; discharges the reservation hypothesis of C08 |
| C59 | AC::solve | loaded = sum of the contributions, in place LU solves it |
| C60 | port_impedance | uniqueness by the determinant, rank one update (Sherman-Morrison) |
| C61 | DEV_MUTUAL_L, coil with current node | refinement to two plain windings (the relation holds for the part of the history that is used), rows of the equations |
| C62 | lines loaded by the resistive elements and sources | per class algebra, first order contact over the reals, invariant over sweeps, rows of the equations |
| C63 | `tr_eval`, `ac_eval` of the behavioural functions | derivatives over the reals, loops by induction, composition with C62 |
| C64 | `EVAL_BM_COND` parse and print | decision table over all subsets of clauses, induction over the list |
| C65 | `parse_module`, `map_subckt_nodes`, `expand`, repeated `init` | refinement to a recursively defined flat circuit, induction over nesting and lists; renumbering invariant by place in the hierarchy |
| C66 | `long_label`, `add_branches`, `findbranch`, the loop of modify and fault, `delete_one_name` | specification by words and places; induction over the length of the name; round trip of printed names |
| C67 | `do_tr`, `tr_advance`, `tr_regress` of capacitors and inductors | telescoping sums by induction over steps; each step by induction over attempts and iterations |
| C68 | transmission line: transient waves, loading, AC, parameters | invariant over attempts (waves = what was sent at accepted steps), interpolation lemmas of C30; trigonometric identities for AC |
| C69 | diode: characteristic, its line, iteration, capacitance, charge | tangent identities; the iteration is r -> r (1 - log r), monotone and bounded; derivatives at the joins; mean value theorem for charge |
| C70 | mosfet: level 1, device around it, substrate current, terminal probes | the square law as a difference of squares of positive parts, derivatives along paths; limiting moves at least half a volt or arrives, so finitely many iterations; case analysis of reversal |
| C71 | bipolar transistor: currents, slopes, limiting, charges, fpoly_cap | derivatives along paths of a separate Gummel-Poon specification; limiting moves at least vt or arrives; mirror and terminal sums by algebra |
| C72 | gate capacitances of the mosfet | algebra over an ordered field; formulas with max instead of cases for continuity; witnesses for the jumps |
| C73 | fault, unfault, modify, sweep | cards by identity, a stack; invariant over any command sequence, spec tracks one element; expansion frees and copies |
| C74 | SPICE instance lines: counting and reading ports, parameters, listing | texts as characters with arbitrary gaps; fuel loops; round trip; loop ends by length of the text |
| C75 | options command: names, reading, invariant, printing | the whole table of 99 entries checked against all writings of all names (finite), lifted to all texts behind them; fuel loop with end by length; invariant; round trip by steps |
| C76 | probes: names to quantities, AC modifiers, rounding, power, nodes | all names of all tables checked (finite) and lifted through umatch; algebra over ℚ and ℂ; invariant of the switch over all steps; recursion with fuel for nodes |
| C77 | Verilog: listing and reading of instances, module headers and paramsets | round trip by induction over parameters, ports, arguments and the text of attributes; witnesses for all texts of a kind where reading goes wrong |
| C78 | Spectre: listing and reading of instances, subcircuit headers and models | round trip by induction over nodes and parameters; bounds and ends for all texts; witnesses for all texts of a kind where reading goes wrong |
| C79 | output: columns, line breaking, tabulators, files and redirection | invariants by induction over operations; line breaking composed with the line reader (C47) to a round trip of words; the table of files as a list of places |
| C80 | printed tables: columns, reading the numbers, lines | the printed number as a buffer with an invariant (filled up to the field, then the end); composed with the reader of numbers (C46) and the output (C79) |
| C81 | plots made of characters: points, marks, numbers, lines | arrays as lists with bounds checked; loops by induction to a closed form; lines composed with the output (C79) |
| C82 | names and short names of commands | whole tables checked, patterns as segments lifted to all texts; registry by induction over the installations |
| C83 | multiplicity | state machine of expand / precalc_first over a tree, path by path, induction over the path and over the operations; loads through C08; parallel copies as sums of currents |
| C84 | probe commands | texts of items written by a small grammar; induction over the items, through the scanner of C43 and the numbers of C45; ends by the length of the text that is left |
| C85 | generator | trapezoid as one formula of minima and maxima; continuity by fract of Mathlib; command by the names of C75 |
| C86 | names of models and subcircuits | nearest list and first card as specification; induction over the chain of instances; pigeonhole for the end of the bins |
| C87 | semiconductor resistor and capacitor | field identities against a rectangle with area and rim |
| C88 | lines of AC, OP and DC | induction over items against a list of words; the loop by induction over its rounds |
| C89 | mosfet, level 6 | law of the n-th power with a positive part for the parabola, derivatives along paths; the device from C70; witnesses for sigma, corner, bulk and temperature |
| C90 | mosfet, level 3 | law with a positive part for the parabola and a bound for the shortening, derivatives along paths; the device from C70; witnesses for theta, eta, weak inversion, onset, vmax and xj |
| C91 | mosfet, level 4 | law with a largest value for saturation, derivatives along paths; the device from C70; witnesses for the drain slope, negative slopes and `vdd` |
| C92 | lines of TRANSIENT and FOURIER | induction over items as C88; a relation to the numbers of C55 kept from line to line; powers of two by strong induction |
| C93 | devices from Spice | a seating of numbers, kept by induction over setup; loops over slots with hit marks as sums over numbers in use; induction over loads; permutation of buffers; reachable times |
| C94 | reading files | a big-step meaning of trees of files, refined by a fuel reader; induction over the meaning; fuel monotone |
| C95 | sessions | a meaning without run mode in its state, refined by the code; induction over trees of files; after an interrupt: erasing quit, end and sweeps changes nothing |
| C96 | plugins | invariant over command histories: count of the loader = names holding the library; search path by induction over its items |
| C97 | mosfet level 2 | calculus along paths (each region a smooth function, regions meet smoothly), uniqueness of the end of the channel; device by the settling theorem of C88 |
| C98 | list and save | reading a line name by name; the search by `modify_plain` of C66; ranges by the first match; the number of cards left as the measure for ending |
| C99 | param | names read as words, values by `AnaCmd.parse`; `given` (the last value of a name) against the list of parameters; values by C42 |
| C100 | measure | the session as operations on lists, mode and waves; labels by C44; the line as items as in C99; values by C37 |
| C101 | mosfet level 5 | the law written from the published equations; a value with three slopes per stage of the code, and along every curve each stage follows the law; the region is open, so the slopes are those of the current reported |
| C102 | mosfet process parameters | the card is a state changed by each evaluation; a separate textbook function of what the card says at the moment; induction over the history of analyses |
| C103 | base resistance of the bipolar transistor | the share of the variable part as a function of the angle; Wilker's inequality for its slope; bounds of pi for the pole |
| C104 | size dependent parameters of levels 4 and 5 | relations between card, size and value in SI units; order of two lines from their ends |
| C105 | files of `log` and `>` | refinement by induction over sessions, for every allocator: masks and table against stacks of numbers |
| C106 | element with many ports | invariant by induction over passes: matrix against remembered values; laws of one pass from it |
| C107 | timers | mutual induction over commands and files, for every clock; invariant: the parts fit into the simulations |
| C108 | dc from one command to the next | induction over sessions; invariant: nothing is chosen between commands; the stash holds what was there for every level finished |
| C109 | .model lines: listing and reading | round trip by induction over the pairs, on the scanner of C74; what is lost, for every text behind |
| C110 | .model lines: type and level | first key of a value, first key of a name; digits of a number read and printed; whole table of names for the models built in |

## Modelled code, module by module

| module | code in /repo that is modelled | left out |
|--------|-------------------------------|----------|
| MatrixModel | m_matrix.h, m_matrix_solver.h: profile, cells, load functions, `lu_decomp` (full, partial, in place), `fbsub`, `fbsubt`, `iwant` | memory management, `dezero`, pivot messages other than the replaced value |
| LoadModel | e_elemnt.h loads, `dampdiff`, l_denoise.h; s__solve.cc `set_flags`, `clear_arrays`, `load_matrix`, `solve_equations` | the devices' evaluation (oracle) |
| SolveModel | s__solve.cc `solve`, `solve_with_homotopy` | devices (oracle), timers, printing |
| SimDataModel | u_nodemap.cc, u_sim_data.cc: node numbers, order, limits, kept voltages | vector allocation |
| IntegModel | m_cpoly.h, m_divdiff.h, e_storag.cc, e_elemnt.cc `tr_advance`/`tr_regress`/truncation error, u_time_pair.h, method table u_opt.h | rounding in `sqrt`/`pow` |
| TransModel | s_tr_swp.cc `sweep`, `first`, `next`, `review`, `accept`, `reject`; u_sim_data `new_event` and queue | device evaluation, output formatting |
| InterpModel | m_interp.h, m_wave.h, bm_pwl.cc, parts of d_trln.cc | AC of the transmission line |
| LogicModel | e_logicval.*, e_logicnode.cc, d_logic.cc gates | analog part of the gate subcircuit |
| LimitModel | u_limit.h | the callers |
| WmatchModel | l_wmatch.cc | |
| ScanModel | ap.h, ap_skip.cc, ap_match.cc, parts of ap_convert.cc | escapes in `umatch` patterns, locale dependent `isalpha` |
| LinesModel | ap_construct.cc `getlines`, l_trim.cc | interactive input (readline), comments |
| DispatchModel | l_dispatcher.cc/.h | the cast to the type of the dispatcher |
| SweepModel | s_dc.cc, s_ac.cc sweeps, stash and restore | solving at the points, parsing of the options |
| SourceModel | bm_pulse.cc and bm_sin.cc `tr_eval`, `tr_review` | `tr_final_adjust`, rounding of `fmod` and `floor` |
| TranSetModel | s_tr_set.cc `setup` | scanning and evaluating the argument expressions, output options |
| SplineModel | m_spline.cc constructors of order 0 to 3, `at` | `fixzero` beyond its exact value, rounding |
| MeasureModel | meas_max.cc, meas_min.cc, meas_cross.cc, meas_integral.cc, meas_average.cc, meas_rms.cc, meas_slewrate.cc `eval` | argument parsing, finding the wave by name; the square root of rms; values beyond BIGBIG |
| NumModel | ap_convert.cc `ctof`, `ctoi`, `ctou`; l_ftos.cc `ftos`; l_trim.cc `trim` | rounding of `double`, infinities and NaN, negative widths, the pool of 100 buffers (one buffer is modelled, with every write checked against its 40 characters) |
| BaseModel | m_base.h, m_base_vams.h, m_base_math.cc: operators of `Integer`, `Float`, `String`, `vInteger`, `vReal`, `vString`; m_expression_reduce.cc `Token_BINOP::op`, `Token_UNARY::op`; func_core.cc `log` (choice of base) | rounding, infinities and NaN of `double` (outcome `special`), the value NA, null strings |
| ExprModel | m_expression_in.cc (all), m_expression_dump.cc (all), m_base_in.cc `Name_String::parse`, `vString::parse`, ap_convert.cc `ctos` at `<`, ap_skip.cc `skip1b` | token memory; characters of the C++ `char` above 127 are values above 127; the 15 digits of a printed `Float` are a parameter; debug output |
| ReduceModel | m_expression_reduce.cc (all), u_function.cc `FUNCTION::eval`/`stack_op`, func_core.cc `abs`, `sqrt`, `log` (`stack_op`), m_base_in.cc `Integer::parse`, `Float::parse`, m_base.h/m_base_vams.h `assign` | what the functions compute (parameters of the model) and the way of their arguments through text; the constant NA; node and attribute memory; the `recursion` counter is a number of levels left |
| ParamModel | u_parameter.cc `deep_lookup`, `eval_copy`, `set` (text, number), `PARAM_INSTANCE::e_val`, `PARAM_ANY::e_val_`/`lookup_solve`; u_parameter.h `PARAMETER<T>::e_val_`, `lookup_solve`, `operator=`, `string`, `set_fixed`; e_cardlist.cc `attach_params` | `obsolete_parse`, `print`; `to_string` and the stripping of quotes are parameters; the value cached in a parameter; messages |
| FftModel | m_fft.cc `fft` (all loops, an endless loop is `none`); s_fo.cc `to_pow_of_2`, `stepnum`, `find_max`, `foprint` (numbers before formatting), `final` for one probe, `_timesteps`, `_tstrobe` | reading the command, the transient run that takes the samples, the width of `int`, dB and the choice of degrees |
| SwitchModel | d_switch.cc `SWITCH_BASE`: `precalc_last`, `tr_begin`, `dc_advance`, `tr_advance`, `tr_regress`, `do_tr`, `tr_review`; thresholds of `MODEL_SWITCH::precalc_first`; `TIME_PAIR::min_event`. `_ic` is a parameter of the model (the code has no way to set it). Not modelled: loading itself (see LoadModel), AC, parsing. |
| RefModel | `COMMON_COMPONENT` attach/detach (lib/e_compon.cc:53-107), the slots inside behavioural objects (lib/bm_cond.cc, apps/bm_model.cc), `ATTRIB_LIST` and `ATTRIB_LIST_p` (include/u_attrib.h); in RefUse the stash of the DC sweep (include/u_cardst.h, apps/s_dc.cc) and `COMPONENT::expand` | objects are numbers in a heap, contents are one value; a touched released object or a failed assert is `none` |
| ProbeModel | `PROBE` (lib/u_probe.cc:30-86), `PROBELIST` and `PROBE_LISTS::purge` (lib/u_prblst.cc:32-40, 56-122, 195-198), counts and destructor of `CKT_BASE` (include/e_base.h:39-76, lib/e_base.cc:43-54) | objects are numbers; `push_back`, `remove` and `erase` of the library by the copies, assignments and destructions they make; parsing of the probe commands (PrbCmdModel) and the end of the program (main/main.cc:311) are not modelled |
| ElemModel | what each element asks for and loads: `*_iwant_matrix_*` (lib/e_elemnt.cc:285-380) and the overrides in apps/d_*.cc and lib/d_logic.cc, cited per device; `AC::solve` (apps/s_ac.cc:234-252); `port_impedance` (include/e_aux.h:29-55) and its callers (lib/e_elemnt.cc:433, 453, 472) | the values loaded are inputs; devices generated by modelgen (diode, MOS, BJT) are not listed; a division by zero in `port_impedance` is excluded by hypothesis |
| CoilModel | apps/d_coil.cc: `DEV_MUTUAL_L` `tr_begin`, `dc_advance`, `tr_advance`, `do_tr_last`, `tr_load`, `ac_load`; `DEV_INDUCTANCE` with a current node `do_tr`, `tr_load`, `do_ac`, `ac_load`; `STORAGE::tr_needs_eval` for the coupling | the mutual inductance (a square root) and the currents are inputs of each evaluation; damping and incremental loading are in LoadModel; the coil without a current node is not here |
| TangentModel | apps/d_res.cc, d_admit.cc, d_vcvs.cc, d_vs.cc, d_cs.cc, d_vcg.cc, d_vcr.cc, d_cccs.cc, d_ccvs.cc (tr_begin, dc_advance, do_tr, do_tr_last, tr_load, do_ac), include/e_elemnt.h:196-355, 468-480 | voltage limiting, convergence flags and queues left out |
| BehavModel | lib/bm.cc, include/bm.h, `tr_eval` of bm_poly.cc, bm_posy.cc, bm_tanh.cc, bm_fit.cc, bmm_table.cc, bm_exp.cc, bm_sffm.cc | parsing and printing, `tr_review` of EXP and SFFM, rounding |
| CondModel | lib/bm_cond.cc parse, rules, print | scanning of keywords and functions; expand, deflate and precalc |
| SubcktModel | lang_spice.cc parse_ports and parse_module, e_compon.cc set_port_by_index, e_cardlist.cc map_subckt_nodes and expand, d_subckt.cc expand, e_node.cc new_node, new_model_node, map_subckt_node, u_sim_data.cc init | scanning of text, parameters, definitions inside definitions, devices other than by the nodes they make; stack exhaustion is a bound on nesting that is shown not to matter |
| NameModel | e_card.cc long_label, u_prblst.cc add_branches, findbr.cc, c_modify.cc:96-123, c_delete.cc | parsing of the name out of the command line (PrbCmdModel for probes), ranges in findbranch's callers, what is done with the part found |
| StorModel | d_cap.cc, d_coil.cc without current node, e_storag.cc, e_elemnt.cc tr_begin, tr_advance, tr_regress, bm.cc ac_eval before its modifiers | restore, bypass (`tr_needs_eval`), queues, limiting of voltages (given as the voltages seen) |
| TlineModel | d_trln.cc without parsing, m_wave.h, m_interp.h (InterpModel) | `r`, `g`, initial conditions (never used by the code either), probes, restore, rounding |
| DiodeModel | d_diode.model eval Yj and eval Cj, d_admit.cc:147-157 | series resistance, damping by _fulldamp, conv check, bypass, probes, default values, rounding |
| MosModel | d_mos.model do_tr, reverse_if_needed, Ids, Idb, Isb, terminal probes; d_mos1.model tr_eval and temperature; d_mos7.model:1440-1452, d_mos8.model:1561-1573 | equations of levels 2-8, defaults of level 1 from process parameters, damping flags, tr_needs_eval, charges, rounding |
| BjtModel | d_bjt.model tr_eval (currents, charges), do_tr, tr_needs_eval, temperature, terminal probes; d_poly_cap.cc do_tr, tr_load, ac_load | base resistance gx, initial step and uic, arg <= 0 under the root of the base charge, excess phase (disabled in the code), rounding |
| MeyerModel | d_mos.model eval Cgb, Cgd, Cgs (311-432) | static charge x*cap, saving of state, body effect in the threshold of `bias` |
| FaultModel | c_modify.cc, c_sweep.cc setup/doit/do_it, u_cardst.h; of e_card.cc renew_subckt, u_sim_data.cc init and uninit the part on identity of cards | search of names (NameModel), nested instances, reference counts of commons (SharedModel), temporary file, messages; whether a compound device is expanded is given |
| SpiceModel | lang_spice.cc count_ports, parse_ports (instances), parse_args, parse_instance, print_instance, print_ports, print_args, print_module; ap_skip.cc skip1b; ap_convert.cc ctos; e_compon.cc set_hsparam, param_name | what the device does with the pairs, obsolete callbacks, grounding of missing ports, errors of set_param_by_name, parsing of module headers (SubcktModel) |
| XProbeModel | e_base.cc probe_num, ac_probe_num; u_xprobe.cc; m_phase.h; tr_probe_num and ac_probe_ext of e_elemnt.cc; tr_probe_num of e_compon.cc, e_storag.cc, d_cap.cc, d_coil.cc, d_meter.cc, d_subckt.cc, e_node.cc, e_logicnode.cc; the probe in d_switch.cc | returned values of storage devices, meters and of nodes; semiconductor probes; names over 256 characters are undefined (the buffer in e_base.cc:113-114 overflows) |
| VlogModel | lang_verilog.cc:111-393, 428-450, 645-657, 676-703, 712-796, 823-860 (skip_attributes, parse_attributes, find_type_in_string, parse_args_*, parse_label, mangle, get_identifier, parse_ports, parse_paramset, header of parse_module, parse_instance, print_*); d_subckt.cc:148-154 | body of modules, `parameter` lines, grounding of ports not given, refusal of names in headers by order, current ports, the obsolete callback, warnings, get_line |
| SpectreModel | lang_spectre.cc:70-170, 211-232, 246-303, 312-391 (parse_type, parse_args, parse_label, parse_ports, parse_paramset, header of parse_module, parse_instance, find_type_in_string, print_*); e_compon.cc:473-486; ap_match.cc (scan) | bodies of subcircuits, parse_command, warnings, whether the device takes a parameter, the node table of the subcircuit beyond its names, get_line |
| OutModel | io_.h:31-78; io_out.cc:54-223; io_contr.cc:85-152 | flushing, cipher, numbers (C46); `form` and its buffer in TableModel |
| PlotModel | plot.cc:22-63, 107-249 | opening and closing of plots, log scales, infinity and NaN |
| CmdModel | c__cmd.cc:33-93; the names in every DISPATCHER<CMD>::INSTALL of lib and apps | time, trace, what is done behind a command, what commands do |
| MultModel | e_compon.cc:365-394, 556-583, 689-762 (set), e_compon.h:266-272, e_elemnt.h:158-165, e_elemnt.cc:92-107, d_subckt.cc:217-265, d_logic.cc:64, mg_out_dev.cc:290-368 (factors only), mg_out_common.cc:132-166, e_cardlist.cc:166-194, u_sim_data.cc:263-284 (factors only), s_dc.cc:467-483 (factors only), lang_verilog.cc:197-213, lang_spice.cc:429-439, e_paramlist.h:42 | values of expressions, scopes, attributes |
| PrbCmdModel | c_prbcmd.cc:37-120, u_prblst.cc:65-68, 75-98, 124-217, u_probe.cc:92-99, ap_error.cc:37-48, ap.h:194-202 | what is listed without items, messages, counts of probes (ProbeModel has them); what `add_branches` finds is NameModel |
| GenModel | c_genrat.cc:31-66, 88-123, ap_get.cc:65-81, ap.h:171-180 | the listing; real numbers with Mathlib's sine; a quotient with divisor 0 is an outcome of its own |
| FindModel | e_card.cc:91-189, e_compon.cc:874-934, e_cardlist.cc:40-57, 89-100, 507-519, d_subckt.cc:86-106, 217-237, u_lang.cc:45-62, e_base.cc:172-179, d_mos_base.model:39-48 | a card is its name, kind, validity test and, for a definition, its list; other contents, message texts, the dispatchers after the lists; lengths and widths are rationals already evaluated |
| SemiModel | bmm_semi.cc:31-35, 89-161, 281-303, 329-369, 444-455, 522-534, e_compon.cc:271-277, e_model.cc:101-105 | reading and listing of parameters; evaluated parameters only; ordered field |
| AnaCmdModel | s_ac.cc:114-168, s_dc.cc:240-335, 411-446, u_parameter.h:550-598, 628-653, 673-682, m_base_in.cc:47-59, ap_get.cc:30-45, 65-81 | findbranch, outset and the values of texts are given from outside; plots and output files not modelled |
| Mos6Model | d_mos6.model:97-104, 109-126, 135-198; l_denoise.h:42-47 | real arithmetic; other defaults from the process (phi, gamma, kc) not modelled |
| Mos3Model | d_mos3.model:134-458 | real arithmetic; defaults from the process not modelled, temperature as in level 6 |
| Mos4Model | d_mos4.model:145-384 | real arithmetic; sizes from the process not modelled; charges (386-546) are dead: `cmodel` is never 0 |
| TranCmdModel | s_tr_set.cc:36-172, 176-225, s_fo.cc:229-319, 349-357, u_parameter.cc:273-281 | the number of points is not limited by `int`; outset and the values of texts are given from outside; plots and output files not modelled |
| SpiceWrapModel | spice-wrapper.cc:196-218, 443-467, 507-538, 844, 880-984, 1022, 1113-1161, 1211-1340, 1463-1541, 1762-1855, e_elemnt.cc:246-271, e_compon.h:44-48 | the Spice device is any list of setup steps and stamps; damping at full step; an index outside the arrays is `none`; parameters that are strings or vectors not modelled |
| FilesModel | lang_spice.cc:110-117, 496-573, 614-677, 875-1036, u_lang.cc:45-124, c_file.cc:40-93, u_opt.h:177-191 | cards, devices and what commands do are parameters (`Cfg`); files do not change while they are read; physical lines already joined; fuel in place of unbounded recursion (a file that includes itself never ends) |
| SessModel | main.cc:133-142, 167-316, c_comand.cc:31-87, s__init.cc:30-73, u_opt.h:177-191, lang_spice.cc:875-1017, c_file.cc:40-93 | what commands do is a parameter; files are trees given; an interrupt is a point in the tree; longjmp leaves destructors undone (undefined in C++) |
| PlugModel | c_attach.cc:31-97, 100-126, 141-263, io_findf.cc:37-69 | files, directories and libraries are a parameter, which may change between commands; dlopen counts (dlopen(3)); words already scanned; `*path.end()` reads as '\\0' |
| Mos2Model | d_mos2.model:155-649 (sizes 109-153 are parameters) | reals; one evaluation; `didvds` through fixzero as in the code; a division of zero by zero (540) is `none`; temperature and size processing not modelled |
| ListModel | c_list.cc:33-108, findbr.cc:39-107 on a text | which places are listed; printing, title, run mode and precalc left out; names shorter than BUFLEN |
| ParCmdModel | c_param.cc:31-116, u_parameter.h:628-653 for Float and vReal | integer and string followed up to the type; messages and printing left out |
| MeasCmdModel | c_measure.cc:34-54, measure_max/min/cross/average/rms/integral/at/slewrate.cc, e_base.cc:156-170, s__out.cc (waves), u_prblst.cc:32-40, c_prbcmd.cc:47 (mode) | measure_eval.cc, the text of the value |
| Mos5Model | d_mos5.model:206-590 | charges (591-766); parameters as given (making of beta.. and code_post 153-203) |
| MosProcModel | d_mos123.model:32-111, d_mos1.model:40-92, d_mos2.model:41-121, 139-148, d_mos3.model:40-112, 118-127, d_mos6.model:40-108, d_mos_base.model:109-191, mg_out_lib.cc:26-142, mg_out_model.cc:292-310, u_parameter.h:97-184, 560-598 | texts have a value in every session; levels 2 and 3 are one; other parameters of a level (alpha, xd, ..) not modelled; real arithmetic |
| BjtBaseModel | d_bjt.model:72-73, 194-197, 226-276, 335-342, 354-365, 545-575 | texts have a value; i_s where not given (only listed) not modelled; real arithmetic; currents and base charge from BjtModel |
| BsimSizeModel | u_sdp.h:35-73, mg_out_model.cc:56-112, mg_out_lib.cc:51-60, 106-115, d_mos4.model:52-143, d_mos5.model:52-203, d_mos_base.model:149-174 | parameters that only go through SDP are generic; texts have a value; real arithmetic |
| LogfModel | c_file.cc:95-181, ap_construct.cc:147-225, io_.h:50-78, io_out.cc:192-221, io_xopen.cc:34-40, 105, io_contr.cc:85-152, io_error.cc:66-77 | a FILE* is a number; names, clobber, prompts, `\r`, cipher and pack, long lines (C79) left out; warnings always printed |
| PolyGModel | d_poly_g.cc:37-44, 146-164, 191-216, 229-270, e_elemnt.h:197-211, 259-279, 322-330, 368-378, e_compon.h:44-48, s__solve.cc:57-90, 204-213 | exact arithmetic, `dn_diff` is the difference (LoadModel); the matrix as the sum of amounts loaded; nodes and alternating current left out |
| TimerModel | l_timer.cc:43-101, 119-128, u_status.h:36-64, c__cmd.cc:33-106, lang_spice.cc:881-936, c_file.cc:42-88, s__init.cc:30-98, s_ac.cc:70-109, s_fo.cc:73-114, s_tr.cc:39-51, s_dc.cc:89-106, 160-190, 467-483, u_sim_data.cc:211-224 | exact arithmetic, any clock; of commands only phases, files and what is thrown; assertions on; `aux1..3`, `build`, `sweep` left out |
| DcLifeModel | s_dc.cc:89-106, 117-129, 193-238, 279-359, u_cardst.h:40-44, 58-66, s__init.cc:30-71 | a component is its value and common together, a parameter its text; solving, options and `_ctrl` left out; any level may throw while parsed or evaluated |
| ModelLineModel | lang_spice.cc:382-445, 476-486, 521-531, 685-691, 741-755, d_logicmod.cc:116-134, u_parameter.h:122-130, mg_out_model.cc:399-475 | texts begin behind `.model`; the level kluge and the dispatcher (C110), warnings, line breaks left out; what a card does with a pair left out |
| ModelTypeModel | lang_spice.cc:817-862, 387, l_dispatcher.h:87-99, mg_out_model.cc:24-57, 215-289, e_card.cc:248-255, ap_convert.cc:169-188, ap_skip.cc:35-41, keys of d_mos*.model, d_bjt.model, d_diode.model | types are whole words; the text behind `level=` is given; overflow left out; bytes above 126 count as blanks |
| TableModel, FtosWidth | s__out.cc:82-126; io_out.cc:79-90; io_.h:97-98; u_opt2.cc:203 | plots, stored waves, infinity and NaN |
| OptModel, OptNames | u_opt2.cc set_values, print; u_opt1.cc initial values; u_opt.h; ap_get.cc Get, Set, octal, with ap_convert.cc ctob, ctoo, ctoi; ap_error.cc check; ap_skip.cc skiparg; l_dispatcher.h:87-114 and u_lang.cc operator>> (exact name, then in lower case if cases do not matter) | form of printed numbers (parameter with a specification), warnings, set_verilog_math, expressions in place of numbers, what the options do |

Properties found to be **false of the code** are recorded here as the work proceeds, each with a theorem giving a concrete
witness and a `_partial` theorem for the part that is true.

## Defects found (properties false of the code)

| where | what happens | theorem |
|-------|--------------|---------|
| m_matrix.h `fbsubt` | size 0: writes element 1 of the vector | `Mat.fbsubt_size0` |
| e_elemnt.h / l_denoise.h `dampdiff`, loads | a change below `roundofftol` is recorded as loaded but not loaded; the circuit equations drift without bound | `Load.loading_drifts` |
| s__solve.cc `solve_with_homotopy` | the last solve still has the stepping gmin in the matrix; an exception leaves `itermin`/`gmin` changed | `Load.final_solve_keeps_homotopy_gmin`, `Solve.homotopy_throw_leaves_options` |
| s__solve.cc | a negative `itermin` accepts an iteration that was limited | `Solve.negative_itermin_accepts_limiting` |
| m_cpoly.h | product of two `FPOLY1` has a wrong slope | `Integ.poly_mul_wrong` |
| e_storag.cc `differentiate` | gear formula wrong for unequal steps | `Integ.differentiate_gear_wrong` |
| s_tr_swp.cc `next` | one tick steps that do not converge: endless 1,2,1,2 tick loop | `Trans.step_control_spins` |
| s_tr_swp.cc `next` | one tick failure at an output time or event: stepped over; all later output is lost | `Trans.strobe_lost`, `Trans.event_lost` |
| s_tr_swp.cc `next` | `trstepshrink` > 4: a rounded-to-zero step is trapped without relabelling; all later output is lost | `Trans.strobe_lost_shrink` |
| s_tr_swp.cc `next` | `dtmax` below half of `dtmin`: integer division by zero | `Trans.small_dtmax_crashes` |
| m_wave.h `initialize` / `v_out` | an empty WAVE ("filled with all 0") throws; two pushes at one time throw when asked there | `Interp.empty_wave_throws`, `Interp.repeated_push_throws` |
| bm_pwl.cc `precalc_last` | the table is appended again in every analysis: unsorted search (UB); one point tables throw | `Interp.pwl_second_analysis_doubles`, `pwl_second_analysis_ub`, `pwl_one_point_second_analysis_throws` |
| bm_pwl.cc `tr_review` | before the first table point: iterator before the beginning | `Interp.pwl_review_before_first` |
| bm_pwl.cc / m_interp.h | a step at the last time is accepted, announced and throws | `Interp.pwl_final_step_throws` |
| bm_pwl.cc `tr_review` | corners within `2*dtmin` are not announced | `Interp.pwl_near_corner_missed` |
| e_logicval.cc tables | the "old" bit of AND/OR/XOR of changing inputs is not the function of the old bits; an AND gate at 0 with one input rising and one falling schedules an event to 1 | `Logic.gate_present_wrong`, `Logic.and_gate_spurious_event` |
| e_logicnode.cc `unpropagate` | a rejected step past the event sets the event time to the rejected time: the event comes late | `Logic.overshoot_delays_event` |
| e_logicnode.cc `to_logic` | scales by `vmax-vmin` without subtracting `vmin`: the round trip fails for `vmin != 0` | `Logic.analog_roundtrip_wrong` |
| u_limit.h `fet_limit_vds` | below -0.5 V a converged voltage is moved to -0.5 V, and stays there | `Limit.vds_moves_converged`, `Limit.vds_stuck` |
| u_limit.h `pnj_limit` | going down from above `vcrit` the result may be below the asked voltage | `Limit.pnj_overshoots` |
| l_wmatch.cc | a trailing `*` does not match the empty string; `*` in the subject is mishandled; the documented `\` escape does not exist | `Wmatch.trailing_star_wrong`, `Wmatch.star_in_subject_wrong` |
| ap_match.cc `umatch` | with leading blanks only the first alternative can match | `Scan.umatch_blank_alternative_wrong` |
| ap_match.cc `umatch` | unclosed `{` in a pattern reads past its end | `Scan.umatch_unclosed_ub` |
| ap_construct.cc `getlines` | a line longer than the buffer is split into several | `Lines.long_line_split` |
| l_dispatcher.cc `install` | the empty name is not ignored; the old plugin under it is lost | `Dispatch.empty_name_wrong` |
| s_dc.cc `first` | `reverse` leaves out the point at stop; `reverse loop` visits only the start | `Sweep.dc_reverse_misses_stop`, `Sweep.dc_reverse_loop_one_point` |
| s_dc.cc `next` | a multiplying sweep from 0, or shrinking to 0, never ends | `Sweep.dc_log_from_zero_endless`, `Sweep.dc_log_to_zero_endless` |
| s_dc.cc `fix_args` | `lin n` takes the number of points for the step size | `Sweep.dc_lin_points_wrong` |
| s_dc.cc `finish` | an element swept on two levels keeps the first level's control | `Sweep.dc_same_element_twice_wrong` |
| s_dc.cc `setup` | after a parameter sweep, a generator sweep sweeps (and then resets) the old parameter | `Sweep.dc_stale_parameter` |
| s_ac.cc `next` | stop not on the grid: one frequency beyond stop; shrinking sweep to 0 never ends; `lin 1` gives 2 points | `Sweep.ac_overshoots`, `Sweep.ac_log_to_zero_endless`, `Sweep.ac_points_one_wrong` |
| bm_pulse.cc `tr_review` | a corner within two smallest steps is not announced; nor the end of a period shorter than the pulse | `Source.pulse_near_corner_missed`, `Source.pulse_wrap_missed` |
| bm_sin.cc `tr_review` | announced peaks and zeros ignore the delay: wrong unless the delay is a whole number of half periods | `Source.sin_peak_wrong` |
| s_tr_set.cc `setup` | after `tran step stop` a plain `tran` computes the old range from NOT_INPUT and runs forever | `TranSet.again_forever` |
| s_tr_set.cc `setup` | strobe period longer than the run, `dtmin > dtmax` accepted | `TranSet.strobe_longer_than_run`, `TranSet.dtmin_above_dtmax` |
| m_spline.cc `construct_order_3` | two points: the slope below the table is taken from an unset entry and is 0 | `Spline.two_points_wrong` |
| m_spline.cc constructors | one point: reads beyond the table | `Spline.one_point_ub` |
| meas_average.cc, meas_integral.cc | window with one point: 0/0; window beyond the end of the wave: dereferences `end()` | `Measure.average_small_window` |
| meas_rms.cc | trapezoid of the squares, not the rms of the piecewise linear waveform | `Measure.rms_excess`, `Measure.rms_wrong` |
| meas_slewrate.cc | stop value reached but not passed is not found; `last` is ignored when the edge is passed in one step | `Measure.slew_flat_top_missed`, `Measure.slew_last_wrong` |
| ap_convert.cc `ctof` | a lone sign or point is the number 0 and the word after it is eaten; a comma is eaten where no number is; exponents beyond `int` overflow; in spice units "me…" is 1e6 and "mi…" 25.4e-6 | `Num.ctof_sign_wrong`, `Num.ctof_comma_wrong`, `Num.ctof_exponent_ub`, `Num.ctof_meter_wrong` |
| ap_convert.cc `ctoi` | a lone sign is the integer 0 | `Num.ctoi_sign_wrong` |
| l_ftos.cc `ftos` | 34 digits (the clamp's limit): no terminating NUL, write beyond the buffer | `Num.ftos_unterminated`, `Num.ftos_overrun` |
| l_ftos.cc `ftos` | one digit less than asked with two digit exponents | `Num.ftos_one_digit_less` |
| m_base.h:351 `Float::r_modulo(Integer)` | operands swapped: `7 % 2.5` is 2.5 | `Base.mod_int_real_wrong` |
| m_base.h `Integer` | `7 % 0`, `2147483647 + 1` are undefined | `Base.mod_zero_ub`, `Base.add_overflow_ub` |
| m_base_vams.h `vInteger`, `vReal` | signs, `!` and sums lose or gain the Verilog class: `7/(-2)` is -3.5, `7/(!0+2)` is 2 but `7/(2+!0)` is 2.33, `log(10.*10.)` is natural | `Base.vint_sign_wrong`, `Base.vint_sum_order_wrong`, `Base.log_base_wrong` |
| m_expression_in.cc `factor`, ap_match.cc | a blank before `+` or `!` at the start of an expression is an error, before `-` it is not | `Expr.blank_sign_wrong` |
| m_expression_in.cc `exptail` | the pattern of the or operator also takes a backslash, giving an operator without meaning | `Expr.backslash_operator_wrong` |
| ap_match.cc `skipcom` | a comma after an operator, or after `<a>`, is eaten: `f(a+,b)` has one argument, `f(<a>,b)` is an error | `Expr.operator_eats_comma`, `Expr.angle_eats_comma` |
| m_expression_dump.cc:119-134 | a conditional is printed without parentheses around it: `(x?1:2)+3` prints as `((x)? (1):(2) + 3)`, which means `x?1:(2+3)` | `Expr.dump_tern_wrong` |
| m_expression.h:181 | the copy of a unary operator has no name: `-x` reduced before `x` is known is a null dereference afterwards | `Expr.unary_copy_wrong`, `Expr.unary_residual` |
| m_expression_reduce.cc:288-388 | `x+2147483647+1` overflows when it is reduced before `x` is known; in Verilog mode `7/(2+x)` becomes 2 instead of 7/3 | `Expr.regroup_overflow_wrong`, `Expr.swap_class_wrong` |
| m_expression_reduce.cc:195-238 | a parameter with a type is replaced by its text, unconverted, while that is not known; a string parameter holding a number is the number | `Expr.typed_partial_wrong`, `Expr.string_parameter_wrong` |
| m_expression_reduce.cc:33-82, func_core.cc:37-93 | the backslash operator is a null dereference; `abs` of a string loses its argument | `Expr.unknown_operator_wrong`, `Expr.abs_string_wrong` |
| u_parameter.cc:178-204 | the recursion counter is not put back when an evaluation throws: after 20 failures the next evaluation fails, whatever it is | `Param.failures_break_next`, `Param.recursion_leak_wrong` |
| u_parameter.h:526-537 | a text that names a parameter without value gives NA, the default is not used | `Param.nested_default_wrong` |
| u_parameter.h:325-343 | a string given to a parameter without type is dropped; a Verilog integer loses its class | `Param.string_argument_lost`, `Param.argument_class_lost` |
| u_parameter.cc:155-176 | names set while case counts are lost when the option changes | `Param.case_switch_wrong` |
| m_fft.cc:48-57 | for a length that is not a power of two the loop that puts the results in order never ends | `Fft.fft_returns_iff` |
| s_fo.cc:171-196 | with a stop frequency that is not a multiple of the step a line at half the sampling frequency can be printed, with twice its amplitude | `Fft.half_sampling_wrong` |
| d_switch.cc:474-480, 525-532 | the thresholds belong to the band in DC analysis and not in transient analysis: a control on the threshold (default `vh` = 0) leaves the switch off at the operating point and turns it on in the first step | `Switch.threshold_differs` |
| d_switch.cc:271-284, 565-601 | a negative `vh` is accepted; then events before the beginning of the step are announced and all steps longer than four minimum steps are thrown away | `Switch.negative_hysteresis_wrong` |
| lib/e_compon.cc:540-555 | `COMPONENT::expand` clones the shared data, and never releases the clone when `deflate` returns the function inside | `Ref.expand_leaks` |
| apps/s_dc.cc:345-351 | the same element swept in two nested loops: the control object made for the second is thrown away at once because it equals the one in control, and the first step writes to it after it is released | `Ref.sweep_twice_wrong` |
| include/u_attrib.h:157-173 | assigning an attribute list to itself loses the attributes; if the target shares its old list, an assertion fails | `Ref.assign_self_wrong`, `Ref.assign_shared_wrong` |
| lib/u_probe.cc:59-71 | assigning a probe to itself blanks it (no caller does it) | `Probe.assign_self_wrong` |
| lib/e_elemnt.cc:433, 453, 472 | the probe Z takes the gain of a controlled source for an admittance across its output and removes it | `Elem.vccs_impedance_wrong` |
| lib/e_storag.cc:112-121 with apps/d_coil.cc:64, 129 | a coupling is evaluated again only if the difference of the two currents moved; when both move alike the flux kept for the next step is old | `Coil.bypass_keeps_old_flux` |
| apps/d_ccvs.cc (no `dc_advance`) | in a DC sweep of a parameter its gain depends on, a plain CCVS keeps the gain of `tr_begin` at every point | `Tangent.ccvs_sweep_stale` |
| apps/d_cccs.cc:80 | `dc_advance` writes the new gain of a plain CCCS into `_m0.c0` instead of `_m0.c1`; it matters when a coupled coil is sensed | `Tangent.cccs_inode_sweep_stale` |
| apps/d_ccvs.cc:109 | `_m0 *= -_loss0` at every iteration; a plain CCVS sensing a coupled coil does not compute `_m0.c1` anew before that, so its gain is multiplied by -1/shortckt once per iteration | `Tangent.ccvs_inode_collapses` |
| apps/d_ccvs.cc:50 | `ac_begin` does not call `ELEMENT::ac_begin`: in AC without operating point the gain is the 0 it was constructed with | `Tangent.ccvs_ac_without_op` |
| bm.cc, bm.h `ioffset` with the elements | `_y[0].x` is left shifted while the element uses the line at the voltage: displaced by slope times `ioffset`; no effect on a linear function | `Behav.ioffset_line`, `Behav.ioffset_lost` |
| bm.cc:174-179 | every AC frequency shifts `_y[0].x` by `ioffset` again | `Behav.ac_drift` |
| bm.cc:75-90 | `ooffset` goes to `f0`, sources use `f1`: ignored by V and I sources | `Behav.source_value`, `Behav.source_tdv`, `Behav.current_source_tdv` |
| bm_fit.cc:165, bmm_table.cc:250 | `ioffset` (and `ic`) ignored | `Behav.fit_ignores_ioffset` |
| bm_posy.cc:158-163 | at 0 a constant term counts as 1 whatever its coefficient, and a linear term has no slope | `Behav.posy_constant_at_zero`, `Behav.posy_slope_at_zero` |
| bm_poly.cc:128 | no coefficients: `size()-1` wraps around, out of bounds | `Behav.poly_without_coefficients` |
| bm_exp.cc:143 | period 0 (or negative) loops forever | `Behav.exp_hangs` |
| bm.cc:94-98 | `bandwidth` on a complex gain drops its imaginary part | `Behav.ac_bandwidth_drops_imaginary` |
| bm_cond.cc:148-153, 263-284 | a source with a DC value and a plain number is written with the number first, and read back with it as the DC value, then overwritten | `Cond.plain_value_lost` |
| bm_cond.cc:188-190 | unchecked cast of a logic gate given as the function of a source | `Cond.gate_in_source` |
| lang_spice.cc:262-275, lang_verilog.cc:336-363, e_compon.cc:473-486 | a port refused at the end of a header (ground or repeated) stays counted: an inner node is tied to the instance's next terminal, or the node table is overrun | `Subckt.skip_joins`, `Subckt.skip_overrun` |
| mg_out_dev.cc:268-288, u_sim_data.cc:269-272 | on a second elaboration a device of the circuit keeps the number of its internal node while an instance before it gets the same number for a node inside | `Subckt.again_collides` |
| d_coil.cc:230-241 | a coil in a coupled pair makes its node again at each elaboration; the old number remains as an unknown with nothing connected | `Subckt.again_coil` |
| e_node.cc:198-203 | the name of an internal node of a device after an instance leads to the number of a node inside the instance | `Subckt.model_node_name` |
| u_prblst.cc:228-249 | a name with two or more dots finds mixtures of the two orders; a part found in both orders is listed twice | `Names.mixed_order_found`, `Names.found_twice` |
| findbr.cc:54-66 | list, modify, fault and dc do not find an inner part by the name printed for it | `Names.printed_name_not_found` |
| c_modify.cc:96-123, findbr.cc:92-103 | after a match inside an instance the search goes on in that list: other instances are missed, deeper parts with the same name changed | `Names.modify_only_first_instance`, `Names.modify_too_deep` |
| findbr.cc:80-90 | definitions of subcircuits are searched like instances | `Names.definition_found` |
| c_delete.cc:61-72 | a model as the container in delete: null pointer | `Names.delete_in_model_crashes` |
| e_cardlist.cc:40-57 | nodes inside instances are in no node map, so no name finds them | `Names.inner_nodes_lost` |
| d_cap.cc:89, bm.cc:75-84 | a transcapacitor with a function has a charge that never changes, so no current in a transient | `Stor.tcap_function_lost` |
| d_cap.cc:121, 189-199 | VCCAP with a function uses the output offset as its capacitance | `Stor.vccap_function_lost` |
| d_cap.cc:197, bm.cc:174-179 | in AC VCCAP evaluates its function at the output voltage | `Stor.vccap_ac_at_output` |
| d_cap.cc:127-129, e_elemnt.cc:369-374 | the current probe of VCCAP uses the control voltage with a line loaded at the output | `Stor.vccap_probe_off` |
| d_trln.cc:399-400, 508-509, m_interp.h:74-76 | a first step that lands exactly on the delay ends the simulation with an exception | `Tline.first_step_at_delay` |
| d_trln.cc:505-510 | with a step longer than the line the wave sent at IN depends on the wave sent at OUT at the same step, not the other way round | `Tline.long_step_asymmetric` |
| d_trln.cc:394-416 | in a static analysis the ends of a line are not connected: an open end is at 0 whatever the other is | `Tline.static_open_end` |
| d_trln.cc:399, m_interp.h:74-76 | a line of no delay is an exception in every analysis but AC | `Tline.no_delay_throws` |
| d_diode.model:314-337, d_admit.cc:152 | the current handed back includes gparallel (or gmin, flag 0200) but is taken for that of the junction next time: in forward bias iteration rests at too small a current | `Diode.parallel_wrong`, `Diode.parallel_stops` |
| d_diode.model:205 | limiting takes the last current for the last voltage: above the critical voltage a junction of a mosfet (or flag 0040) hands back too little current for ever | `Diode.limit_short`, `Diode.limit_never` |
| d_diode.model:266 | bv has no effect: the condition is inverted (and the usual model does not look at bv) | `Diode.no_breakdown`, `Diode.no_breakdown_usual` |
| d_diode.model:178-183 | charge of the junction capacitance depends on the way: back at the same voltage there is more | `Diode.charge_drifts` |
| d_mos.model:541 | with the bulk forward biased the device is evaluated at zero bulk voltage but loaded with its slope: more flows than is reported | `Mos.bulk_forward` |
| d_mos1.model:132 | the slope of the body effect in forward bias lacks a factor 1/phi (reached with mosflags 0040 on reversal) | `Mos.body_slope_wrong` |
| d_mos.model:561-569 | substrate current of p channel devices (levels 7, 8): the constant part is not multiplied by the polarity | `Mos.sub_p`, `Mos.sub_p_witness` |
| d_mos7.model:1440 | level 7 mistakes the direction: the substrate current does not flow, its slopes are loaded at the wrong end | `Mos.sub_7` |
| d_mos.model:146, 167 | bulk current and idstray have the junctions with the wrong sign: terminal currents do not add up | `Mos.probe_bulk_wrong` |
| d_bjt.model:539 | the current from collector to emitter has the base-collector current subtracted, which `Imu` carries already: collector current too small in saturation (12.53 instead of 13.23 times the base current in the recorded output of d_bjt-rtlinv.ckt), reverse gain br+1, power delivered | `Bjt.terminals`, `Bjt.reverse_gain`, `Bjt.delivers` |
| d_bjt.model:539-542 | and its slope is that of the transport current only: not the tangent | `Bjt.cce_slope_wrong` |
| d_bjt.model:592 | `arg2 *=` where `arg2 = argtf *` is meant: capacitance of the transit charge too big with itf and xtf | `Bjt.itf_wrong` |
| d_bjt.model:388, 398-399, 408-409 | the shift taken off the given junction potential is that of the actual temperature instead of the nominal one: potential and capacitance depend on the choice of `tnom` | `Bjt.tdp_pot_steps` |
| d_bjt.model:693 | substrate voltage compared with the opposite sign: no bypass unless it is zero | `Bjt.never_bypassed` |
| d_poly_cap.cc:166 | `set_converged()` after the checks: charges never hold back convergence; tr_review (line 65) never limits the step (marked BUG in the code) | noted, not modelled |
| d_mos.model:353, 402 | only the drain end is scaled down less than .1 V above threshold: capacitances of both ends are exchanged when the device reverses | `Meyer.reversal_jumps` |
| d_mos.model:346-351, 395-400 | with cmodel other than 3 and bulk bias the ends differ at vds = 0: jump on reversal | `Meyer.reversal_bulk` |
| d_mos.model:359, 408 | source part jumps by a sixth of the gate at vgst = -phi/2 | `Meyer.onset_jumps` |
| d_mos.model:361, 410 | source part jumps from 2/3 to 1/2 of the gate at threshold with vds = 0 | `Meyer.threshold_jumps` |
| d_mos.model:375-377, 424-426 | charge is integrated from a capacitance that depends on other voltages: not conserved over a cycle (known of Meyer's model) | `Meyer.charge_lost` |
| c_modify.cc:97-113, e_card.cc:211-214 | a part of an instance is changed after `uninit`; the next analysis makes it anew from the definition: change without effect, and `unfault` writes to freed memory | `Fault.instance_fault` |
| c_delete.cc:80, 91, c_modify.cc:157-160 | an element deleted while faulted stays on the stack: `unfault` writes to freed memory | `Fault.deleted_fault` |
| c_modify.cc:109, 49-50 | a card that is not an `ELEMENT` (diode, model, instance) is taken for one (`static_cast`) | `Fault.not_an_element` |
| c_sweep.cc:106 | `strncpy` pads with NUL: more than 36 characters of words before the arguments and the sweep changes nothing | `Fault.faultLine_long` |
| lang_spice.cc:135-175 | the loop does not move at `;`: a line with words followed by a comment hangs and fills memory | `Spice.semicolon_hangs` |
| u_parameter.h:145-159, lang_spice.cc:783-788 | the listing of an expression has no braces: with blanks in it the line reads back as another value and a parameter named like the operator | `Spice.expression_split` |
| e_compon.cc:689-716, 781-802 | places 4 to 7 of the system parameters are set under one name and listed under another: `$hflip` becomes `$angle`, `$angle` becomes `$sflip`, which cannot be read | `Spice.sysparam_renamed` |
| lang_spice.cc:693-708 | the listing of a subcircuit leaves out its parameters and defaults | `Spice.module_params_lost` |
| u_opt2.cc:270-272, 177-184 | iteration limits are printed as `itl@1=100`, which is not understood when read: saved options lose them | `Opt.limits_lost` |
| u_opt2.cc:304-309 | flags of diodes and mosfets are not printed when 0, so reading saved options does not clear them | `Opt.zero_flags_lost` |
| u_opt2.cc:185, ap_error.cc:37-48, ap_skip.cc:96-113 | at a comment one character and one word are skipped, the rest is read as options: `.options reltol=.01 ; was gmin=1` sets `gmin` to 1 | `Opt.comment_sets` |
| ap_error.cc:41, ap.h:148 | `//` at the end of a line moves behind the end of the text, and the next look is outside | `Opt.slash_end_ub` |
| d_switch.cc:522, 575, e_elemnt.cc:382 | a current controlled switch asks for `I`; where case matters that is unknown and reads NOT_VALID, and the switch never turns on | `XProbe.switch_blind` |
| d_subckt.cc:286, 294, 302 | the same for `P`, `PD`, `PS` of the parts: power of a subcircuit reads NOT_VALID times the number of parts | `XProbe.sub_power_wrong` |
| e_node.cc:122-124, e_logicnode.cc:57 | reading `count` of a node calls back and forth for ever | `XProbe.count_runs_on` |
| e_elemnt.cc:457-458, u_xprobe.cc:53 | `pdb` of everything that sources power reads -500 | `XProbe.power_db_lost` |
| lang_verilog.cc:111-116, 118-130 | attributes with `*` in them: the type is taken from the asterisk on, the instance is not found although its attributes are read rightly | `Vlog.type_star` |
| lang_verilog.cc:233-244, 268-283 | a node or port such as `1_2` is listed as `\1_2 ` and read as `\1_2`, another node | `Vlog.digit_name_changed` |
| lang_verilog.cc:262-265 | an escaped name not ended by a blank: the cursor is set behind the end of the text and `peek` reads there | `Vlog.escape_unended` |
| lang_verilog.cc:338 | ports by order end at a name that begins with an underscore; the ports left are grounded | `Vlog.underscore_lost` |
| d_subckt.cc:129, 148-154 | a header with more than 100 ports by name writes outside of `_port_name` | `Vlog.module_overrun` |
| lang_verilog.cc:163, 438-448, 733 | the value of a paramset is read as one word: an expression with parentheses is cut, the arguments behind it and `endparamset` are not read | `Vlog.paramset_cut` |
| lang_spectre.cc:136-139, 258-303 | nodes not in parentheses and no parameter: the first node is taken for the type, the device has no nodes | `Spectre.bare_lost` |
| lang_spectre.cc:141-161 | a `)`, `}` or `;` among nodes not in parentheses: no word is read and the cursor stays, an endless loop (of warnings once the nodes are full) | `Spectre.bare_hangs` |
| lang_spectre.cc:258-303 | a label with a bracket, without parameters: the type is taken from within the line at another place | `Spectre.type_bracket` |
| lang_spectre.cc:116-126; e_compon.cc:476-479 | the last port of a subcircuit is refused with "skipping", but it is set and counted already | `Spectre.refused_stays` |
| lang_spectre.cc:136-141, 228-231 | ports of a subcircuit not in parentheses: the type is looked for in the header, found at its start, so no port is read; no warning | `Spectre.bare_ports_lost` |
| lang_spectre.cc:84-86 | a value such as `(1+x)*2`: `*2` is taken for a parameter with the next parameter as value | `Spectre.paren_cut` |
| lang_spectre.cc:84-86 | a value with blanks is cut, the words behind it are set as a parameter | `Spectre.blank_cut` |
| lang_spectre.cc:113 | a node that begins with an underscore ends the nodes and is taken for the type | `Spectre.underscore_type` |
| io_out.cc:148 | a text with `@` at its end (a mark for a break) is written without it, also where the `@` is meant | `Out.at_lost` |
| io_out.cc:170, 181 | `old` is one static for all files: with `pack` a blank is left out because of a blank written to another file | `Out.pack_other` |
| u_opt1.cc:69; io_getln.cc | the width at the start is 9999 columns, the buffer of the reader 4095: an unbroken line between the two is read as two lines | `Out.long_split` |
| io_.h:50-70 | files closed keep their places; after 31 files a new one gets none | `Out.handle_full` |
| io_contr.cc:85-152 | `>` to a file that gets no place: the output of the command is lost, without a warning | `Out.redirected_nowhere` |
| io_contr.cc:135-146, 162 | `> a > b`: the first file is closed, its place stays in the set, output is written to the closed file | `Out.closed_written` |
| u_opt2.cc:203; l_ftos.cc:167-173 | with `numdgt` 3 a number with an exponent of two digits fills all 9 columns; a negative number behind it makes one word with it | `Table.run_together` |
| s__out.cc:94-104 | a label wider than its column shifts all headings behind it from their values | `Table.long_shifts` |
| io_out.cc:79-90 | `form` writes with `vsprintf` to a buffer of 4096 characters: a label that is longer is written behind its end | `Table.label_overflows` |
| io_contr.cc:156-169; main.cc:167-171 | `> a > b` where `b` can not be opened: `fn` still points to the first file, closed already, and is closed again at the end of the command | `Out.closed_twice` |
| plot.cc:22-25, 178-193 | with `outwidth` below 10 the scale is negative: the border is written before its array | `Plot.narrow_outside` |
| plot.cc:162-165, 211 | a value far beyond the limits: the column is converted to `int` before it is limited, undefined if it does not fit | `Plot.point_far` |
| plot.cc:136, 149, 247 | numbers cut to 8 characters: `12.345Meg` becomes `12.345M`, exponents are lost | `Plot.cut_wrong` |
| plot.cc:140-154 | the length of the label is not looked at: numbers that should begin before its end go to a new line | `Plot.scale_broken` |
| plot.cc:52-54, 172-177 | scales are drawn for all probes, values for the first two only | `Plot.third_lost` |
| c__cmd.cc:56 with ap_match.cc:65-74 | behind blanks, of the marks of comments only `'` is seen: an indented `"quit"` quits | `Cmd.indented_comment_wrong`, `Cmd.indented_taken` |
| mg_out_dev.cc (no precalc_first), e_subckt.h:47 | `$mfactor` changed between analyses: the elements inside diodes, transistors ... keep the old one | `Mult.stale_inside`, `Mult.stale_witness` |
| s_dc.cc:467-483 | a swept parameter has no effect on multiplicities | `Mult.sweep_keeps` |
| lang_verilog.cc:199 with e_compon.cc:746-751 | `#(2)` on a subcircuit or semiconductor sets `$mfactor`, and no argument by order reaches the parameter of its place | `Mult.order_device`, `Mult.order_never` |
| e_paramlist.h:42 with lang_spice.cc:431-436 | `m=2` on an X line is kept as a parameter `m` and does not multiply; wrong names are never reported | `Mult.m_subckt` |
| c_prbcmd.cc:103-117 with u_prblst.cc:130-193 | `print tran v(1)=2`, or `[` or `]`: the loop never ends | `PrbCmd.sticky_endless`, `PrbCmd.line_endless` |
| u_prblst.cc:147 | `v(05)`, `v(0a)`: taken as `v(0)`, a probe on the simulator; the rest is read as an item | `PrbCmd.zero_name_wrong` |
| u_prblst.cc:158-171 | `v(1,7,2)` without a node 7: `v(2)` is lost and a probe `7(2)` is made | `PrbCmd.missing_name_stops`, `PrbCmd.missing_name_probes` |
| u_prblst.cc:78-98 | `- v(1,2)` takes off `v(1)` only | `PrbCmd.remove_list_wrong` |
| e_base.cc:63-71 | nodes of the same name inside two instances have the same printed name: taking one off takes both | `PrbCmd.inner_nodes_alike` |
| ap_error.cc:41 | a comment inside limits: the cursor is put behind the end of the text | `PrbCmd.comment_ub` |
| c_genrat.cc:105-107 | rise time 0 in a periodic pulse: 0/0 at the beginning of every period but the first | `Gen.no_number` |
| c_genrat.cc:103-104 | rise longer than the period: the first rise is folded | `Gen.long_rise` |
| c_genrat.cc:108 | width 0 with a period: the level falls in no time at the end of the period | `Gen.on_drops` |
| e_card.cc:170-189, e_compon.cc:884 | names in a subcircuit are looked up around the instance, not around the definition: a subcircuit between with the same name captures them | `Find.captured`, `Find.model_captured` |
| e_card.cc:175-182, lang_spice.cc:865-872 | a definition inside a definition is read without sight of the outer one | `Find.reading_skips_witness` |
| e_compon.cc:887 | a device with the name of a model, before it in the list, hides it | `Find.device_hides` |
| e_compon.cc:883-915 | bins in a subcircuit, none matching: "can't find" instead of "no bins match" | `Find.wrong_message` |
| bmm_semi.cc:291, 341-345 | a value on the line is ignored by the capacitor, and by the resistor if the model has rsh | `Semi.line_value_unused`, `Semi.no_length` |
| s_ac.cc:142-144 | `ac 1 10 + 2`: `+` is a number without digits, the step is 0 and `2` is left | `AnaCmd.ac_plus_wrong` |
| m_base_in.cc:47-59 | a text that begins with NA is cut there | `AnaCmd.na_cuts` |
| s_dc.cc:290-332, 411-446 | the name of a second level is offered to the options of the first: `re`, `lo`, `c` are flags, their ranges steps | `AnaCmd.dc_captured_wrong` |
| s_dc.cc:290-332 | an unknown word behind a level is read as all further levels, with stale ranges | `AnaCmd.dc_unknown_wrong` |
| s_dc.cc:323-324 | `dc v1 5 dec 10`: the stop is the text dec, the step linear | `AnaCmd.dc_stop_wrong` |
| s_dc.cc:250, 275, 523 | `op temperature=50` is at the temperature of the options: the sweep overwrites it | `AnaCmd.op_temperature_wrong` |
| d_mos6.model:155, 180, 194 | `sigma` is left out of the threshold but not of the slope with drain voltage | `Mos.level6_sigma_wrong` |
| d_mos6.model:58, 159-162 | default power 1: corner at threshold | `Mos.level6_corner` |
| d_mos6.model:143-145, 169 | bulk more than 2 phi forward: current no longer moves with it, slope says it does | `Mos.level6_bulk_wrong` |
| d_mos6.model:115, d_mos2.model:143, d_mos3.model:122 | threshold of a p channel moves against the surface potential with temperature (level 1 right) | `Mos.level6_temp_wrong`, `Mos.level1_temp` |
| d_mos3.model:338 | slope with bulk voltage leaves out its influence on mobility | `Mos.level3_theta_wrong` |
| d_mos3.model:426-430 | in saturation the slope with drain voltage by static feedback is passed through the slope of `vdsat` | `Mos.level3_eta_wrong` |
| d_mos3.model:452 | weak inversion in saturation: a term is added to the transconductance on which the current does not depend | `Mos.level3_sub_wrong` |
| d_mos3.model:402-403 | shortening starts as a root: transconductance falls below any bound past the onset of saturation | `Mos.level3_onset` |
| d_mos3.model:351-356, 431-433 | `vmax` without doping: the current is flat in saturation, the conductance is not zero | `Mos.level3_vmax_wrong` |
| d_mos3.model:288-289 | slope of `vdsat` made with the `vdsat` already changed | `Mos.level3_vdsat_wrong` |
| d_mos3.model:201 | bulk forward, narrow channel: the slope of the threshold keeps the value it has without | `Mos.level3_forward_wrong` |
| d_mos3.model:182 | `xj` without `nsub`: zero over zero, slopes not numbers | `Mos.level3_nan` |
| d_mos4.model:362-369 | weak inversion: slope with drain voltage made with the wrong denominator and the wrong sign of the threshold term | `Mos.level4_gds_wrong` |
| d_mos4.model:380-383 | a negative slope is reported as zero while the current keeps it | `Mos.level4_gmb_wrong` |
| d_mos4.model:247-256 | `vdd` defaults to zero and is divided by at no drain voltage | `Mos.level4_nan` |
| s_tr_set.cc:47 | numbers with a sign are not arguments: `tran -5 30` goes on as `tran` would | `TranCmd.tran_signed_wrong` |
| s_fo.cc:286-303 | `fourier 0 10 -2`: a run backwards is not refused | `TranCmd.fourier_backwards` |
| s_fo.cc:280, 298-304 | `start`, `stop`, `strobeperiod` on a line of FOURIER are overwritten | `TranCmd.fourier_times_ignored` |
| spice-wrapper.cc:890-893, 1217, 1307 | floating terminals have number -1, used as an index | `SpiceWrap.spice_float_wrong`, `spice_float_beyond_wrong` |
| spice-wrapper.cc:965-970 | a slot joined to a node of the device's own gets a second circuit node | `SpiceWrap.spice_joined_wrong` |
| spice-wrapper.cc:1030-1076 | after a second `DEVsetup` the numbers of the first are put back | `SpiceWrap.spice_setup_changed_wrong` |
| spice-wrapper.cc:1465, 1505 | `do_ac` takes `DEVpzLoad` alone, `ac_load` does not | `SpiceWrap.spice_pz_wrong` |
| spice-wrapper.cc:1330-1340 | `tr_unload` does not clear the right side | `SpiceWrap.spice_unload_wrong` |
| spice-wrapper.cc:458-466 | Gear is integrated as Euler | `SpiceWrap.spice_gear_wrong` |
| spice-wrapper.cc:519 | integer parameters are read from a text with a suffix: 1000 is `1.K`, read as 1 | `SpiceWrap.spice_int_wrong` |
| spice-wrapper.cc:518 | a flag is set by any value, also 0 | `SpiceWrap.spice_flag_wrong` |
| lang_spice.cc:920, 926 | files included in a subcircuit are read without an owner | `Files.include_in_subckt_wrong`, `subckt_file_wrong` |
| lang_spice.cc:922-935 | a section that is not in the file is silently nothing | `Files.missing_section_wrong` |
| lang_spice.cc:927 | the name behind `.endl` is optional, so any `.endl` ends the section | `Files.endl_of_another_wrong` |
| lang_spice.cc:551, 563 | the key `.ends \|.eom ` has no blanks skipped before its second part: an indented `.eom` is not seen | `Files.indented_eom_wrong` |
| lang_spice.cc:502-515 | if the word is no command its first character is dropped and the rest is run: `<clear`, `!clear`, `Bclear` | `Files.glued_wrong`, `letter_b_wrong`, `clears_anyway` |
| u_lang.cc:45-61 | a card found by the name of a command hides it | `Files.shadow_wrong` |
| lang_spice.cc:909-916 | the title line of an empty file throws end of input, caught by the reader of the file around it | `Files.empty_file_wrong` |
| u_lang.cc:74-95 | `.inc` is short for the command `include`, not for `.include` | `Files.inc_other_wrong` |
| lang_spice.cc:502-515, 995 | `<<` is no command name, so its first mark is dropped: `<< f` reads the file without clearing | `Files.double_mark_wrong` |
| c_file.cc:72-82 | the handler for the file itself also takes a missing file named inside it: the rest of the included file is dropped with one warning | `Files.inc_nested_wrong` |
| c_file.cc:60-90 | the directory is put back only if the file is read to its end: after an exception it stays | `Files.include_dir_wrong` |
| main.cc:133-142, u_opt.h:177-191 | siglongjmp out of `get`, `merge` or `<` skips the destructor that puts the run mode back | `Sess.interrupt_wrong`, `interrupt_get`, `interrupt_run_wrong` |
| main.cc:267-271, 316, c_comand.cc:82 | exit code 0 whatever failed, also for an interrupted `-b` | `Sess.code_zero_wrong`, `interrupt_code_wrong` |
| main.cc:255, 303 | an exception of a startup file ends the program before any argument is read, with code 0 | `Sess.startup_wrong` |
| main.cc:284-292, lang_spice.cc:908 | the missing title of an empty file is an end of input, which ends the session | `Sess.empty_file_ends_wrong` |
| c_file.cc:63-88, main.cc:219-225 | the directory is not put back after an exception: the next argument is looked for there | `Sess.next_file_wrong` |
| io_findf.cc:45-66 | an empty item at the end of a path is skipped | `Plug.last_empty_wrong` |
| c_attach.cc:176-195 | the old plugin is closed before it is known that the new one opens | `Plug.replace_wrong` |
| c_attach.cc:175, 198-216 | one library by two names counts twice | `Plug.two_names_wrong` |
| c_attach.cc:64-83 | the file must be readable to be detached | `Plug.removed_wrong` |
| c_attach.cc:159-166 | detaching a directory stops at the first plugin not attached | `Plug.dir_detach_wrong` |
| d_mos2.model:297-298 | `dxn_dvbs` has the wrong sign: below threshold the slope with bulk voltage is too small | `Mos.level2_weak_wrong` |
| d_mos2.model:465-468 | `dvdsat_dvgs` is 1 instead of 1/eta without body effect | `Mos.level2_narrow_wrong` |
| d_mos2.model:444-463, 559 | `vdsat` depends on the drain voltage through `gamma_s`, its slope is left out | `Mos.level2_short_wrong` |
| d_mos2.model:371-372 | `atan` gives the angle of the cubic only if S < 0; else the root is missed and `vmax` is silently ignored | `Mos.level2_vmax_ignored` |
| d_mos2.model:532-540, 559-561 | in the linear region the channel is not shortened but has slopes as if it were | `Mos.level2_vmax_linear_wrong` |
| d_mos2.model:531-540 | `vmax` without `nsub`: 0/0 in the linear region | `Mos.level2_nan` |
| c_list.cc:95-105 | a name that matches nothing, behind the first, ends the listing without a message; a dash there is taken for a name | `ListCmd.unknown_silent`, `ListCmd.dash_later` |
| c_list.cc:84-86 | the end of a range is searched behind its start only: x - x is refused | `ListCmd.range_same_refused` |
| c_list.cc:91, e_cardlist.h:70-71 | a range ending inside an instance compares positions of different lists | `ListCmd.range_mixed` |
| c_param.cc:36-43 | the type is matched without an end of word: `realvalue=1` sets `value` | `ParCmd.type_prefix_wrong` |
| c_param.cc:34, 92 | one parameter object for the whole line: a name without a value gets that of the name before | `ParCmd.missing_value_wrong` |
| m_base_in.cc:47-49 | `NA` is matched without an end of word: a parameter set to a name such as NARROW is NA, and RROW is set too | `ParCmd.na_prefix_wrong` |
| c_prbcmd.cc:47 | every command for probes, even a listing, sets the mode to none: no measurement finds a wave until the next run | `MeasCmd.after_probe_wrong` |
| e_base.cc:156-170 | the list of the mode and the waves of the last run that recorded are taken by position though they need not belong together: another probe's wave, memory beyond the waves, a null pointer | `MeasCmd.early_wrong`, `MeasCmd.null_wrong` |
| u_prblst.cc:32-40 | the probes of a deleted part leave the list, the waves stay: those behind get the wave of the one before | `MeasCmd.purge_wrong` |
| measure_*.cc:43 | the label is read as one word: without quotes it ends at its parenthesis and is never found | `MeasCmd.unquoted_wrong` |
| d_mos5.model:489-492, 536 | weak inversion lacks the factors `Uvert` and `Kk`: the current jumps where the gate passes `vglow` | `Mos.level5_jump` |
| d_mos5.model:214-216 | voltages beyond 2 vgg, 2 vdd, 2 vbb are cut off, the slopes at the limit are reported though the current is constant | `Mos.level5_limits` |
| d_mos5.model:59-64, 79-81 | vdd, vgg, vbb are 0 if not given: no current at any voltage | `Mos.level5_no_vdd` |
| d_mos5.model:267-270, 530 | n0 = 0 (the default) and vglow > 0: assertion between threshold and vglow | `Mos.level5_stops` |
| mg_out_lib.cc:33-37, d_mos1.model:62-77, u_parameter.h:142 | derived gain, phi, gamma are stored in the card as given values: a later analysis with other parameters uses those of the first | `MosProc.sticks`, `MosProc.gain_stale`, `MosProc.threshold_stale` |
| d_mos123.model:92-97 | a tox that is not positive once loses its text for good | `MosProc.oxide_lost` |
| d_mos_base.model:126-130, 177-183 | the message says rsh is used where rd = rs = 0 are used | `MosProc.sheet_told_wrong` |
| d_mos_base.model:151-158 | shrink, masking and diffusion are not applied to the default size; effective sizes of 0 and less are accepted | `MosProc.default_length`, `MosProc.length_negative` |
| d_mos2.model:140, d_mos3.model:119 | mobility rises with temperature where the gain falls | `MosProc.mobility_temp_wrong` |
| d_bjt.model:562 | 14.59025 and 2.4317 put the limit of the angle above pi/2: base resistance negative beyond 6e9 IRB | `BjtBase.Props.negative`, `BjtBase.Props.negative_reached` |
| d_bjt.model:274-276, 555-570 | RBM without RB: 0 ohm at zero bias, assertion or infinite conductance | `BjtBase.Props.minimum_alone` |
| d_bjt.model:566 | base charge below 1 gives more than RB | `BjtBase.Props.over`, `BjtBase.Props.over_reached` |
| mg_out_lib.cc:51-60, 106-115, d_mos5.model:158-159, 196-203 | quiet_min is written as a comment: MUS0 below MU0 is kept, and divides by 0 without VBB | `BsimSize.Props.gain_disordered`, `BsimSize.Props.no_bulk` |
| d_mos4.model:57-58, 74, 79-80, d_mos5.model:57-58, 78 | TOX missing: infinite capacitance; PHI negative: no threshold | `BsimSize.Props.no_oxide`, `BsimSize.Props.no_potential` |
| d_mos4.model:133-139, d_mos5.model:185-192 | effective sizes of 0 and less are accepted | `BsimSize.Props.narrow` |
| d_mos_base.model:171-173, d_mos4.model:133-135 | overlap capacitances use the size before DL and DW | `BsimSize.Props.overlap_drawn` |
| io_.h:36, 50-70 | `_cpos` of a place is not reset for a new file | `Logf.Props.stale_column` |
| io.cc:28, c_file.cc:164-165 | warnings go to the screen and not to the file of `>` | `Logf.Props.warning_alone` |
| io_.h:54-67, c_file.cc:130-131 | `detach` and `fclose` leave the pointer in the table: after 31 pointers a file is opened and gets nothing | `Logf.Props.place_lost` |
| ap_construct.cc:213, 222, c_file.cc:124-131 | a log holds the `log` that closed it; included, it closes another log | `Logf.Props.replay_closes` |
| d_poly_g.cc:191-199, 209-216 | `_values[1]` keeps the value before damping, `_m0.c0` and the other ports those after: the current reported is of neither | `PolyG.Props.amps_wrong` |
| d_poly_g.cc:152-154, 194-195 | `_old_values[0..1]` keep what was evaluated, not what was loaded: the element converges half way | `PolyG.Props.early` |
| d_poly_g.cc:201-207, e_elemnt.h:204-207 | `tr_unload` loads with damping | `PolyG.Props.rest_left` |
| c__cmd.cc:35, 102-103, lang_spice.cc:883, c_file.cc:80 | a missing file within an included file: `get.start()` while it runs (assertion; without them harmless) | `Timer.Props.aborts` |
| lang_spice.cc:883-907, c__cmd.cc:102-103 | a missing file leaves the timer of `get` running, and `cmdproc` starts it again after every command | `Timer.Props.get_left` |
| lang_spice.cc:883 | a file within a file resets the last time of `get` | `Timer.Props.last_nested` |
| c__cmd.cc:38, 43, 96 | one static timer for nested commands: the outer shows the time since the last inner | `Timer.Props.acct_last` |
| s__solve.cc:221-237, s__init.cc:86 | a part left running by what is thrown is reset, its time lost | `Timer.Props.thrown_lost` |
| s_dc.cc:290-298, 341-356, 218-226 | what is thrown between choosing a component and stashing it: `finish` restores from an empty stash (null pointer) | `DcLife.Props.empty_stash`, `eval_fails` |
| s_dc.cc:222-223, u_cardst.h:40-44 | or from the stash of an earlier command: another component silently gets its old value back | `DcLife.Props.reverts` |
| u_cardst.h:40-44 | or writes to that component after it was deleted | `DcLife.Props.dangles` |
| s_dc.cc:228-233, 300-301 | `_param_name` is kept: a later sweep of the generator, or `dc` alone, sets the parameter back to the text it had at the earlier command | `DcLife.Props.param_reverts` |
| s_dc.cc:290-331, 307-311 | `_zap` of the level that threw is kept, and naming a parameter does not clear it: the parameter is swept and not restored | `DcLife.Props.lingers` |
| s_dc.cc:290, 340 | `_n_sweeps` is left 0 by a line wrong at its first level: `dc` alone then has no level | `DcLife.Props.no_level` |
| lang_spice.cc:419, 749 | a text with a closing parenthesis is listed without quotes: reading ends the value and the list there | `ModelLine.Props.value_cut` |
| d_logicmod.cc:116-134, u_parameter.h:126 | a logic family lists parameters not given as `NA(default)`: reading stops at the first, all behind it is lost | `ModelLine.Props.logic_cut` |
| lang_spice.cc:403-407 | `.model m d ({1})`: `xx->value_name()` with `xx` null | `ModelLine.Props.unnamed_null` |
| lang_spice.cc:830-841 | a level that is no number (a parameter, an expression) is 0: `nmos0` is not found and the line is refused | `ModelType.Props.level_text` |
| lang_spice.cc:836-838, d_diode.model:370 | `.model x d level=1` looks for `d1` and is refused | `ModelType.Props.diode_level` |
| lang_spice.cc:838, e_card.cc:248-255 | `.model x pmos4 level=9` is `pmos49`, the mosfet of level 8, and its polarity is not set: nmos, without a message | `ModelType.Props.glued_wrong` |
