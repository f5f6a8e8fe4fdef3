{"id": "C01", "title": "Every accessed parameter is in exactly one status list", "statement": "After any sequence of user operations on an inference (reading, assigning, fixing, ranging, varying, lin/log stepping, stepping one parameter or the whole grid, bulk-setting varying values or all values), including operations that raise, each parameter that has been given a value appears exactly once in exactly one of fixed_params, varying_params, stepping_params, namely the one its own status says; parameters never touched appear in none; and the stepping directions are recorded for exactly the stepping parameters.", "quantifier": "every finite history of operations with every argument, successful or raising, over any set of parameters", "why_tests_cant": "Histories are unbounded and interleave arbitrarily; a test checks a handful of scripts.", "anchors": ["package/inference/pie/inference_base.py: Inference._on_param_status_change", "package/inference/pie/param.py: Param.__get__, Param.__set__, ScalarParamHandler._set_status", "package/inference/pie/realparam.py: RealParamHandler"]}
{"id": "C02", "title": "Stepping visits the advertised grid values", "statement": "After p.linstep(lo,hi,n) with n>=2, and any mixture of next_step/prev_step/first_step/last_step that leaves the parameter at index i, its value is lo + i*(hi-lo)/(n-1); after p.logstep(lo,hi,n) it is lo*(hi/lo)^(i/(n-1)); at i=0 and i=n-1 the value is exactly lo, respectively hi, and the index always stays in 0..n-1.", "quantifier": "all lo, hi, all n>=2, all stepping histories of any length", "why_tests_cant": "Holds for arbitrarily long walks in both directions; values are accumulated incrementally so an error could appear only after many steps.", "anchors": ["package/inference/pie/realparam.py: linstep, logstep, next_step, prev_step, first_step, last_step"]}
{"id": "C03", "title": "A step that cannot be taken raises and changes nothing", "statement": "next_step at the last grid point and prev_step at the first raise ParamRangeError; any single-parameter step on a non-stepping parameter raises; in each case value, index, status and every other parameter are unchanged.", "quantifier": "all parameter states", "why_tests_cant": "State space is infinite (values, ranges, indices).", "anchors": ["package/inference/pie/realparam.py: next_step, prev_step, first_step, last_step, step_index"]}
{"id": "C04", "title": "Zig-zag traversal visits every grid point exactly once", "statement": "With k>=1 stepping parameters of n_1..n_k>=1 steps positioned at their first steps, repeatedly calling Inference.next_step() visits every index tuple of the n_1 x ... x n_k grid exactly once; precisely the (prod n_i)-th call raises StopStepping and leaves all parameters back at their first step with all directions forward, so a second traversal is identical.", "quantifier": "all numbers of stepping parameters and all step counts", "why_tests_cant": "The number of dimensions and grid sizes are unbounded.", "anchors": ["package/inference/pie/inference_base.py: Inference.next_step, reset_steps, step_nums"]}
{"id": "C05", "title": "Consecutive zig-zag points are neighbours", "statement": "Each successful Inference.next_step() changes exactly one stepping parameter, by exactly one index, leaving all other parameters' values untouched.", "quantifier": "every reachable stepping state", "why_tests_cant": "Must hold at every one of arbitrarily many steps.", "anchors": ["package/inference/pie/inference_base.py: Inference.next_step"]}
{"id": "C06", "title": "do_grid fills every cell with the score at that cell's parameter values", "statement": "do_grid() started at the first grid point returns an array in which every index tuple holds the score evaluated with each stepping parameter at that tuple's grid value and all other parameters as they were; no cell is left NaN, the score is evaluated once per cell, and on return parameters are back at their first steps.", "quantifier": "all grids, all score functions of the parameter values", "why_tests_cant": "Universally quantified over the user's score function, dimensions and sizes.", "anchors": ["package/inference/pie/inference_base.py: Inference.do_grid, ScalarGrid", "package/inference/pie/containers.py: ScalarGrid"]}
{"id": "C07", "title": "do_grid gives the complete grid whatever the prior stepping position", "statement": "The grid returned by do_grid() does not depend on how far the parameters had been stepped beforehand: every cell is filled. (The code does not reset first; cells visited before the call stay NaN.)", "quantifier": "all reachable stepping states at the call", "why_tests_cant": "The failure appears only after a partially completed traversal, e.g. an exception in the score part-way through an earlier grid.", "anchors": ["package/inference/pie/inference_base.py: Inference.do_grid, next_step"]}
{"id": "C08", "title": "Profile optimum reported by do_grid is the extremum of the returned grid", "statement": "With varying parameters, opt_val equals the maximum (minimum for chi**2) of the returned profile grid and opt_ind is an index tuple where it is attained (the first one visited).", "quantifier": "all grids, all optimizer results", "why_tests_cant": "Quantifies over every sequence of optimizer results.", "anchors": ["package/inference/pie/inference_base.py: Inference.do_grid"]}
{"id": "C09", "title": "A rejected value leaves a bounded parameter unchanged and accepted ones are in range", "statement": "Once range(lo,hi) has been declared, assigning, fixing or setting a value outside [lo,hi] raises and leaves value, status and lists unchanged, and every accepted assign/fix/set_value/step range lies inside.", "quantifier": "all values, all ranges, all states", "why_tests_cant": "Infinite value domain.", "anchors": ["package/inference/pie/realparam.py: set_value, fix, linstep, logstep"]}
{"id": "C10", "title": "A bounded parameter's value is always inside its range", "statement": "At every point of every history, a parameter with a declared range has its value inside that range. (Violated: declaring or shrinking a range does not re-check the current value, and vary(range=...) without a start keeps an out-of-range value.)", "quantifier": "every history of operations", "why_tests_cant": "Needs an inductive invariant over histories.", "anchors": ["package/inference/pie/realparam.py: range, vary"]}
{"id": "C11", "title": "vary() that raises leaves the parameter as it was", "statement": "If vary(start, delta, range) raises, the parameter keeps its previous status, value, range, delta and list membership. (Violated: range, delta and status are changed before the start value is validated.)", "quantifier": "all arguments and states", "why_tests_cant": "Depends on which of several checks fails in which state.", "anchors": ["package/inference/pie/realparam.py: vary"]}
{"id": "C12", "title": "linstep() that raises leaves the parameter as it was", "statement": "If linstep(lo,hi,n) raises, the parameter's previous stepping set-up, value and status are unchanged. (Violated for n=1 or a missing end point: the step bookkeeping is half overwritten, after which a stepping parameter may walk past its last step.)", "quantifier": "all arguments and states", "why_tests_cant": "Requires reasoning about every partial-failure point.", "anchors": ["package/inference/pie/realparam.py: linstep"]}
{"id": "C13", "title": "Unbounded mapping is a strictly increasing bijection onto the open range", "statement": "For a varying parameter with lo<hi, setting through the unbounded transform with any real u yields a value strictly between lo and hi, reading the transform back returns u, setting the transform read from an interior value v returns v, and larger u gives larger values.", "quantifier": "all lo<hi, all real u, all interior v", "why_tests_cant": "Continuum of inputs.", "anchors": ["package/inference/pie/realparam.py: _unbounded_get_value, _unbounded_set_value"]}
{"id": "C14", "title": "get_params / set_params round trip", "statement": "When every parameter is fixed or varying and values respect declared ranges, set_params(get_params()) raises nothing and changes no value or status; and after set_params(pv) with admissible values, get_params() returns exactly pv's values. If some parameter is stepping it raises ParamError, but parameters earlier in declaration order have already been changed.", "quantifier": "all parameter states and all stored value sets", "why_tests_cant": "Quantifies over all states.", "anchors": ["package/inference/pie/inference_base.py: get_params, set_params", "package/inference/pie/containers.py: ParamValues"]}
{"id": "C15", "title": "Stored parameter snapshots are isolated from later changes", "statement": "A ParamValues object returned by get_params() keeps the values at the time of the call regardless of any later operation on the inference, and storing the same name twice raises.", "quantifier": "every history after the snapshot", "why_tests_cant": "Unbounded histories.", "anchors": ["package/inference/pie/containers.py: ParamValues.store", "package/inference/pie/realparam.py: RealParamValue.copy_value", "package/inference/pie/inference_base.py: get_params"]}
{"id": "C16", "title": "Varying values are assigned positionally in declaration-to-vary order", "statement": "_score/_set_varying assign the i-th argument to the parameter that became varying i-th; a wrong number of arguments given to _set_varying raises ParamError and changes nothing; other parameters never change.", "quantifier": "all argument vectors, all states", "why_tests_cant": "Order depends on the whole status history.", "anchors": ["package/inference/pie/inference_base.py: _set_varying, _score"]}
{"id": "C17", "title": "Inference parameter order equals source order", "statement": "For a signal-model class whose parameters are assigned on separate source lines, the inference's params list is exactly those names in source order, each once. If any parameter is not found on its own line the InferenceError is swallowed and params is silently empty.", "quantifier": "all sets of parameter names and all source texts", "why_tests_cant": "Depends on arbitrary source text.", "anchors": ["package/inference/pie/inference_base.py: __init__, _get_signal_names, _get_pred_names"]}
{"id": "C18", "title": "Declaring a model subclass does not change the base model's parameters", "statement": "Defining a subclass that adds parameters leaves the parameter list of the base class unchanged. (Violated: the inherited list object is appended to.)", "quantifier": "every sequence of class definitions", "why_tests_cant": "Depends on class-definition history in the whole process.", "anchors": ["package/inference/pie/param.py: Param._report_name", "package/inference/pie/predictor.py: Predictor._report_name"]}
{"id": "C19", "title": "Two instances of one inference class never affect each other", "statement": "Any sequence of parameter and data-simulation operations on one instance leaves every other instance's parameter values, statuses, lists and data unchanged.", "quantifier": "all interleavings of operations on any number of instances", "why_tests_cant": "All interleavings.", "anchors": ["package/inference/pie/param.py: Param.__get__, __set__", "package/inference/pie/predictor.py: Predictor.__get__", "package/inference/pie/gaussian.py: SampledGaussianHandler"]}
{"id": "C20", "title": "Simulation never alters the original data", "statement": "Whatever sequence of localize_data, sim, sim1, add_sim, log_like and chisqr calls is made on an instance's predictor, including calls that raise, the data stored with the predictor declaration are unchanged, so a fresh instance sees the original data.", "quantifier": "every history of simulation calls on any instance", "why_tests_cant": "Aliasing bug would show only for specific call orders.", "anchors": ["package/inference/pie/gaussian.py: init, localize_data, changing_data, sim, sim1, add_sim"]}
{"id": "C21", "title": "chi**2 and log-likelihood agree; scores are additive over predictors", "statement": "For a Gaussian predictor, chisqr() = -2*log_like() >= 0 with zero iff predictions match the data, both depend only on current data and current parameter values, and the inference score is the sum over predictors (plus log prior for Bayesian).", "quantifier": "all data, sigmas, predictions", "why_tests_cant": "Continuum of inputs.", "anchors": ["package/inference/pie/gaussian.py: log_like, chisqr", "package/inference/pie/bayes.py: score", "package/inference/pie/maxlike.py: score", "package/inference/pie/chisqr.py: score"]}
{"id": "C22", "title": "Number of data stays consistent with the stored arrays", "statement": "After any successful simulation call the predictor's ndata equals the number of locations, values and sigmas. (Violated by add_sim, which double counts and never extends the values, and by sim with both arrays given.)", "quantifier": "all histories of simulation calls", "why_tests_cant": "Histories.", "anchors": ["package/inference/pie/gaussian.py: sim, add_sim"]}
{"id": "C23", "title": "Model set-up hook runs before every model evaluation and value changes are announced", "statement": "Every evaluation of predictions is preceded by on_use() with no parameter change in between; every parameter value change calls on_param_change exactly once with that parameter for every listener; reads call nothing once a default has been installed.", "quantifier": "every history", "why_tests_cant": "Histories.", "anchors": ["package/inference/pie/signalmodel.py: _on_use, _on_param_value_change", "package/inference/pie/gaussian.py: get_prdxns", "package/inference/pie/param.py: _set_value"]}
{"id": "C24", "title": "LabeledMaxList keeps the largest values ever offered", "statement": "After any sequence of update(label,value) calls on a list with capacity nmax>=1, the stored pairs are, in descending order of value, the nmax largest distinct-by-arrival entries offered (subject to the dynamic-range cut), the maximum offered is always first, and the list never exceeds nmax entries.", "quantifier": "all capacities >=1 and all sequences of offers", "why_tests_cant": "Unbounded sequences.", "anchors": ["package/inference/grid/grid1d.py: LabeledMaxList.update, limitRange"]}
{"id": "C25", "title": "Dynamic-range pruning keeps exactly entries within the requested factor of the best", "statement": "With a dynamic range set, after any sequence of updates every stored entry is within the range of the current maximum and no offered entry within range of the final maximum that belongs to the top nmax is missing.", "quantifier": "all sequences, all dynamic ranges > 1", "why_tests_cant": "Pruning interacts with insertion order.", "anchors": ["package/inference/grid/grid1d.py: LabeledMaxList.update, limitRange"]}
{"id": "C26", "title": "Refined interval list always tiles the base range without gaps or overlaps", "statement": "Starting from a base interval and applying any sequence of update(lo,hi,n) refinements inside it, the intervals stay sorted, adjacent ones share their end point, and their union is the base range.", "quantifier": "all refinement sequences", "why_tests_cant": "Each refinement may split and absorb arbitrarily many previous intervals.", "anchors": ["package/inference/grid/grid1d.py: RefinedIntervalList1D.update, _insert, _del, merge"]}
{"id": "C27", "title": "Refinement never makes the grid coarser than requested", "statement": "After any sequence of refinements, the step size in every interval is no larger than that of the base interval, and inside a region refined with a smaller step it is no larger than that step.", "quantifier": "all refinement sequences", "why_tests_cant": "Depends on interplay of overlapping refinements.", "anchors": ["package/inference/grid/grid1d.py: RefinedIntervalList1D.update, _stepSize, _numPts"]}
{"id": "C28", "title": "Global point numbering is a bijection", "statement": "After merge(), numbering points 0..npts-1 through nlocate() names every point of every interval exactly once in increasing abscissa order, shared end points counted once; numbers outside are rejected.", "quantifier": "all interval lists", "why_tests_cant": "Arbitrarily many intervals.", "anchors": ["package/inference/grid/grid1d.py: RefinedIntervalList1D.merge, nlocate"]}
{"id": "C29", "title": "locate() returns the interval containing the abscissa and terminates", "statement": "For every x in the base range, locate(x) terminates and returns an interval with lo<=x<=hi; outside the range it raises.", "quantifier": "all interval lists and all x", "why_tests_cant": "Bisection termination for every list length.", "anchors": ["package/inference/grid/grid1d.py: RefinedIntervalList1D.locate, BasicInterval.locate"]}
{"id": "C30", "title": "A refinement range given in reverse order is accepted", "statement": "update(hi,lo,n) behaves as update(lo,hi,n). (Violated: the swap overwrites lo first, so any reversed range is rejected or treated as empty.)", "quantifier": "all lo<hi", "why_tests_cant": "Universally false, shown by proof.", "anchors": ["package/inference/grid/grid1d.py: RefinedIntervalList1D.update"]}
{"id": "C31", "title": "Trapezoid integrals are exact for piecewise-linear functions and additive over intervals", "statement": "trapzd of a grid equals the integral of the piecewise-linear interpolant of its points; the integral over a refined grid is the sum over its intervals; for linear steps of a linear function it is the exact integral.", "quantifier": "all grids with >=2 points per interval and all values", "why_tests_cant": "Arbitrary lengths and values.", "anchors": ["package/inference/grid/grid1d.py: BasicGrid1D.trapzd, Grid1D.trapzd"]}
{"id": "C32", "title": "Log-space trapezoid equals the log of the trapezoid of exponentials", "statement": "logtrapzd on log values equals log of trapzd on their exponentials, on basic and refined grids, whatever the offset used internally for scaling.", "quantifier": "all grids, all real log values", "why_tests_cant": "Scaling by the maximum must be neutral for all inputs.", "anchors": ["package/inference/grid/grid1d.py: BasicGrid1D.logtrapzd, Grid1D.logtrapzd"]}
{"id": "C33", "title": "Grid evaluation by stepping function and by vector function agree and find peaks", "statement": "Filling a grid with a step function or a vector function gives the same values; the max list contains the interior local maxima. (Violated for vector functions: an empty max list is falsy so peaks are never recorded.)", "quantifier": "all functions and grids", "why_tests_cant": "All functions.", "anchors": ["package/inference/grid/grid1d.py: BasicGrid1D.stepfunc, vecfunc, IsPeak"]}
{"id": "C34", "title": "qgt1d is the integral of the linear interpolant over the super-level set", "statement": "For unit spacing, qgt1d(a, crit) equals the integral over the grid of the piecewise-linear interpolant of a restricted to where it exceeds crit; at crit below all values it is the ordinary trapezoid rule.", "quantifier": "all arrays of length >=2, all critical levels", "why_tests_cant": "Continuum of values and levels, any length.", "anchors": ["package/inference/grid/_gridquad.f: qgt1d"]}
{"id": "C35", "title": "Content above a level decreases with the level and is zero above the maximum", "statement": "For non-negative arrays, qgt1d(a,crit) is non-increasing in crit, lies between 0 and the full integral and vanishes for crit >= max; but it is discontinuous at plateaus equal to crit: those cells are dropped, so qgt1d(a,min a) can be less than the full integral.", "quantifier": "all non-negative arrays and levels", "why_tests_cant": "Monotonicity is a two-input universal.", "anchors": ["package/inference/grid/_gridquad.f: qgt1d", "package/inference/grid/hpd.py: HPD1D.__init__"]}
{"id": "C36", "title": "xvalues reports every crossing of the level", "statement": "For an array whose end values are below the level and no entry equals it, xvalues returns an even number of crossing abscissas in increasing order, one in each cell whose ends straddle the level, at the linearly interpolated position; too many crossings set the error flag. Crossings exactly at a grid value are missed.", "quantifier": "all arrays, levels, buffer sizes", "why_tests_cant": "All arrays.", "anchors": ["package/inference/grid/_gridquad.f: xvalues"]}
{"id": "C37", "title": "qgt2d is the trapezoid rule over rows of the content of each row", "statement": "With spacings dx, dy, qgt2d times dx*dy is the integral across rows of the linear interpolant of the rows' contents above the level (each exact for the linear interpolant of the row); with the level below all values it is the sum over cells of the mean of the four corner values; for non-negative arrays it is non-increasing in the level and zero from the maximum on; exchanging the axes of the grid does not change it. (The last part is violated: rows and columns are treated differently.)", "quantifier": "all 2-D arrays with at least two rows, all levels", "why_tests_cant": "Continuum.", "anchors": ["package/inference/grid/_gridquad.f: qgt2d"]}
{"id": "C38", "title": "HPD content function is a monotone fraction", "statement": "The fraction of posterior content above a relative level is in [0,1], non-increasing in the level, 1 at or below the minimum when no plateau sits at the minimum, and unchanged by adding a constant to the log density.", "quantifier": "all log densities", "why_tests_cant": "Continuum.", "anchors": ["package/inference/grid/hpd.py: HPD1D.fracgt"]}
{"id": "C39", "title": "Steppers give n points from lo to hi inclusive", "statement": "lin_stepper(lo,hi,n) yields exactly n values lo+i(hi-lo)/(n-1), the last exactly hi; log_stepper yields lo*(hi/lo)^(i/(n-1)); enumerating versions pair them with 0..n-1.", "quantifier": "all lo, hi, n>=2", "why_tests_cant": "Unbounded n.", "anchors": ["package/inference/utils/numutils.py: lin_stepper, lin_enum_stepper, log_stepper, log_enum_stepper"]}
{"id": "C40", "title": "flatten preserves leaf order and content", "statement": "flatten of arbitrarily nested sequences yields exactly the leaves in left-to-right order, and flattening a flat result changes nothing. (Violated for empty sequences, which stay in the result.)", "quantifier": "all finite nestings", "why_tests_cant": "Unbounded depth.", "anchors": ["package/inference/utils/numutils.py: flatten"]}
{"id": "C41", "title": "zbracket returns only valid brackets", "statement": "If zbracket returns normally, the function has opposite signs at the ends of the returned interval, which contains the starting interval, so a continuous function has a zero in it; it calls the function at most maxtries+2 times; it raises only for a null interval or if no interval it evaluated was a bracket. (The last clause is violated: the interval of the last expansion is evaluated but not tested.)", "quantifier": "all functions, starting intervals, expansion factors >=0 and numbers of tries", "why_tests_cant": "Arbitrary functions; unbounded tries.", "anchors": ["package/inference/utils/numutils.py: zbracket"]}
{"id": "C42", "title": "LogSummer accumulates the log of a sum of exponentials", "statement": "After any history of additions of log-terms a_i and of zeros the summer reports the number of operations, log(sum exp(a_i)) up to terms dropped by the cutoff (40 below the current scale), with error at most n*exp(-40), exactly if the terms are not too spread, and the log of the mean and, if asked, of the standard deviation, zeros included; with nothing but zeros it raises.", "quantifier": "all sequences of reals", "why_tests_cant": "Order-dependent rescaling over unbounded sequences.", "anchors": ["package/inference/utils/numutils.py: LogSummer"]}
{"id": "C43", "title": "Backup rotation loses no more than the third-oldest version, at any crash point", "statement": "After any history of saves to a name, name holds the latest version, name% the previous, name%% the one before that; if the process dies between any two file operations of a backup, both newest versions that existed are still on disk under name, name% or name%%. After backup alone the original name is free.", "quantifier": "all histories of saves and every crash point", "why_tests_cant": "Crash points and histories.", "anchors": ["package/inference/utils/ioutils.py: backup, safe_open"]}
{"id": "C44", "title": "Saving the RNG state makes it restorable", "statement": "restore_rng after save_rng brings back the saved state, and save_rng keeps the two previous states. (Violated on Python 3: the pickle is written to a text-mode file, so every save raises after the previous state file has already been moved away, leaving an empty file.)", "quantifier": "all prior file states", "why_tests_cant": "Failure occurs after a destructive rename.", "anchors": ["package/inference/utils/rng.py: save_rng, restore_rng"]}
{"id": "C45", "title": "ArrayStore/AttrStore save-reload round trip", "statement": "Attributes set on a store and saved are exactly the attributes read from a store opened on that file, newer assignments superseding archived ones and unread archived entries being preserved, through any number of open-modify-save cycles.", "quantifier": "all histories of set/get/save/open", "why_tests_cant": "Lazy loading makes outcome depend on access history.", "anchors": ["package/inference/utils/ioutils.py: ArrayStore, AttrStore"]}
{"id": "C46", "title": "A store can be opened by the name it was saved under", "statement": "Opening ArrayStore/AttrStore with a name already ending in .npz/.pkl loads that file. (Violated: the load happens only when the suffix was missing.)", "quantifier": "all file names", "why_tests_cant": "All names.", "anchors": ["package/inference/utils/ioutils.py: ArrayStore.__init__, AttrStore.__init__"]}
{"id": "C47", "title": "Column reader returns columns in order", "statement": "For a file of rows with at least as many words as requested types, column i of the result is the conversion of word i of every line in order; a short line raises. (With the default as_arrays=True the module's missing numpy import makes any call with at least one column raise NameError.)", "quantifier": "all files", "why_tests_cant": "All files.", "anchors": ["package/inference/utils/ioutils.py: read_column_vectors"]}
{"id": "C48", "title": "Minimizers never return a worse point and report the value at the point", "statement": "From two different points MinBracket returns increasing points with the function values there, the middle one lowest; from such a bracket brent returns (x, f(x)) with x inside and f(x) the smallest value computed, within 2(tol|x|+1e-10) of a local minimum of a continuous function; linmin returns a point on the line with f no larger than at the start; powell's returned value is f at the returned point and no larger than at the starting point. (MinBracket, and so powell, never ends if f is constant along a direction.)", "quantifier": "all objective functions and starting points", "why_tests_cant": "All functions.", "anchors": ["package/inference/utils/nrmin.py: MinBracket, brent, linmin, powell"]}
{"id": "C49", "title": "Five-table sampler reproduces the quantised weights exactly", "statement": "If the random word is uniform over its accepted 30-bit values, item i is returned for exactly P_i = floor(2^30 w_i/W) of them, every index looked up is inside its table, no other item is returned, and at most n words out of 2^30 are rejected.", "quantifier": "all weight vectors with positive sum and no single weight equal to the whole", "why_tests_cant": "2^30 words x all weight vectors.", "anchors": ["package/inference/mc/compact5table.c: init_sampler5tbl, Dran"]}
{"id": "C50", "title": "A certain event is always returned", "statement": "If one weight carries all the probability, every draw returns it without consuming random numbers; otherwise each draw consumes words until one is accepted.", "quantifier": "all weight vectors", "why_tests_cant": "All weight vectors.", "anchors": ["package/inference/mc/compact5table.c: init_sampler5tbl, Dran, Dran_array"]}
{"id": "C51", "title": "Array draws equal repeated single draws", "statement": "Drawing k samples at once from a random stream gives the same values and consumes the same words as k single draws.", "quantifier": "all k, all streams, all samplers", "why_tests_cant": "All streams.", "anchors": ["package/inference/mc/compact5table.c: Dran, Dran_array"]}
{"id": "C52", "title": "Equal-probability subset draws are distinct members, and uniform", "statement": "equalprob(ns,pool) returns ns members of the pool at distinct positions, leaves the caller's pool unchanged, and the map from pick sequences to ordered selections is a bijection, so every ordered selection has the same probability when picks are uniform.", "quantifier": "all pools, all ns in 1..len(pool), all pick sequences", "why_tests_cant": "All pools and picks.", "anchors": ["package/inference/mc/_ppssampler.c: equalprob, equalprobi"]}
{"id": "C53", "title": "Sampford samples consist of distinct in-range population members", "statement": "subset_pps(nsamp) and subset_pps5(nsamp), when they return, return exactly nsamp distinct members of the population; nsamp equal to the population size returns the whole population; too large nsamp raises. (With a 5-element NumPy generator state subset_pps/subset_pps5 always raise before drawing, and for equal-probability populations they raise NameError.)", "quantifier": "all populations, weights, random streams", "why_tests_cant": "All streams.", "anchors": ["package/inference/mc/sampford.c: sampford_pps, sampford_pps_tables", "package/inference/mc/population.py: subset_pps, subset_pps5"]}
{"id": "C54", "title": "Sampford inclusion probabilities are proportional to size", "statement": "With exact draws the probability that member i is in the sample is nsamp*w_i/W.", "quantifier": "all weights with nsamp*max w < W, all nsamp", "why_tests_cant": "A probability identity over all weight vectors.", "anchors": ["package/inference/mc/sampford.c: sampford_pps", "package/inference/mc/_ppssampler.c: prepratios"]}
{"id": "C55", "title": "Population caches never serve stale tables", "statement": "Whatever interleaving of sample, subset_pps, subset_pps5 calls with various sample sizes, successful or raising, each draw uses weight-ratio tables computed for the requested sample size. (Violated for nsamp=0 immediately after initialisation: ratio set-up is skipped.)", "quantifier": "all call histories", "why_tests_cant": "Flag interplay depends on history.", "anchors": ["package/inference/mc/population.py: Population.subset_pps, subset_pps5"]}
{"id": "C56", "title": "NumPy's RNG state is threaded through population sampling", "statement": "After sample/subset_pps/subset_pps5 of a weighted population, NumPy's generator state equals the sampler's final state, so successive calls do not reuse random words; extra cached-normal state is preserved by sample. (subset_pps ratio draws and equalprob use C rand(), outside that state.)", "quantifier": "all histories", "why_tests_cant": "Histories.", "anchors": ["package/inference/mc/population.py: sample, subset_pps", "package/inference/mc/_ppssampler.c: set_rng_state, get_rng_state"]}
{"id": "C57", "title": "PWLinear is a normalised density consistent with its sampler", "statement": "The interval weights are non-negative and sum to one, each is the area of the density on its interval, the density is non-negative and zero outside the regions above the cutoff, and regions cover every point whose relative value exceeds the cutoff.", "quantifier": "all non-negative value arrays with a positive entry", "why_tests_cant": "All arrays.", "anchors": ["package/inference/mc/pwlinear.py: PWLinear.__init__, _pdf"]}
{"id": "C58", "title": "PWLinear within-interval sampling is inverse-CDF exact", "statement": "For an interval with end densities plo, phi (not both zero), u in [0,1] maps to a point of the interval whose conditional CDF is u, increasing in u, for flat and sloped intervals alike.", "quantifier": "all intervals, all u", "why_tests_cant": "Continuum.", "anchors": ["package/inference/mc/pwlinear.py: PWLinear.sample"]}
{"id": "C59", "title": "Signal-count probabilities are a probability distribution with the right shape", "statement": "sigctp returns n_on+1 non-negative numbers summing to 1 with c_{i}/c_{i-1} = (1+t_off/t_on)(n_on-i+1)/(n_on+n_off-i+1), independent of the starting index used for the recursion.", "quantifier": "all counts and positive intervals", "why_tests_cant": "Unbounded counts.", "anchors": ["package/inference/count/_cbmlike.f: sigctp"]}
{"id": "C60", "title": "Marginal likelihood with zero cutoff is the full series", "statement": "slmlike with cut=0 sums all n_on+1 terms of the series; for any cut in [0,1) it includes the largest term, uses nt<=n_on+1 terms, never exceeds the full sum, and omits only terms not larger than cut times the largest.", "quantifier": "all counts, intervals, s>0, cut", "why_tests_cant": "Loop termination and truncation for all inputs.", "anchors": ["package/inference/count/_cbmlike.f: slmlike, slmliked"]}
{"id": "C61", "title": "The series' starting index is a largest term", "statement": "The index from the quadratic formula, clipped to 0..n_on, is an index at which the terms of the series are maximal, so terms decrease in both directions and truncation is safe.", "quantifier": "all counts, s>0", "why_tests_cant": "Continuum of s.", "anchors": ["package/inference/count/_cbmlike.f: slmlike, slml_offset"]}
{"id": "C62", "title": "Poisson probability is history independent", "statement": "ppois(n, m) returns m^n e^-m/n! (Lanczos approximation for n>32) regardless of the sequence of earlier calls that built its factorial table, and lppois(n, m) returns its logarithm. (Violated by lppois: its table of logarithms is neither initialised nor saved, so that for n up to the largest n used before the result is whatever memory holds.)", "quantifier": "all call histories, n, m", "why_tests_cant": "Saved state across calls.", "anchors": ["package/inference/count/_cbmlike.f: ppois, lppois"]}
{"id": "C63", "title": "pnsig(n) returns the probability of n signal counts for every n", "statement": "OnOff.pnsig(n) for n in 0..on_cts is the n-th signal-count probability, others raise. (Violated at n=0, where the whole array is returned.)", "quantifier": "all n", "why_tests_cant": "Edge of domain.", "anchors": ["package/inference/count/onoff.py: OnOff.pnsig"]}
{"id": "C64", "title": "Metric analysis solves the normal equations", "statement": "When metricAnalysis succeeds, L is lower triangular with positive diagonal and L L^T = metric, the amplitudes solve metric*A = projections, the returned determinant squared equals det(metric), and the sufficient statistic is A.P.", "quantifier": "all model counts, sample counts, matrices, data", "why_tests_cant": "Any dimension.", "anchors": ["package/inference/gauss/vbamodule.c: vba_metricAnalysis"]}
{"id": "C65", "title": "Metric analysis fails exactly when the basis is degenerate", "statement": "metricAnalysis raises if and only if the metric is not positive definite, i.e. the basis functions are linearly dependent on the samples.", "quantifier": "all matrices", "why_tests_cant": "Any dimension.", "anchors": ["package/inference/gauss/vbamodule.c: vba_metricAnalysis"]}
{"id": "C66", "title": "Reported amplitudes minimise the squared residuals", "statement": "Q = d^2 - S equals the sum of squared residuals at the returned amplitudes and no other amplitudes give a smaller sum.", "quantifier": "all designs and data", "why_tests_cant": "Continuum.", "anchors": ["package/inference/gauss/vecba.py: BA.marg_stats, residuals", "package/inference/gauss/vbamodule.c: vba_metricAnalysis"]}
{"id": "C67", "title": "Covariance is the inverse metric", "statement": "covar(L) is symmetric and equals the inverse of L L^T.", "quantifier": "all lower-triangular L with nonzero diagonal", "why_tests_cant": "Any dimension.", "anchors": ["package/inference/gauss/vbamodule.c: vba_covar"]}
{"id": "C68", "title": "BA memoisation never returns stale statistics", "statement": "After any sequence of marg_stats/amplitudes/residuals calls (including raising ones) results returned for parameters p are those computed from p; with no arguments they are those of the last successful computation. (Violated after a computation that raises: the design matrix has been overwritten but the memo key still names the earlier parameters, so residuals for the earlier parameters are wrong.)", "quantifier": "all call histories", "why_tests_cant": "Histories with exceptions.", "anchors": ["package/inference/gauss/vecba.py: BA.calc_marg_stats, amplitudes, residuals"]}
{"id": "C69", "title": "Cubature rules integrate polynomials exactly to their degree", "statement": "On any rectangle or parallelogram, the 4-point rule integrates exactly every polynomial of its stated degree (1 or 3), and the 12-point rule every polynomial of degree <=7; weights sum to the area; rules are affine-covariant.", "quantifier": "all rectangles and polynomials", "why_tests_cant": "Continuum of rectangles and coefficients.", "anchors": ["package/inference/integrate/cub2d.py: rect3d4pt, rect7d12pt, square1d4pt, square3d4pt, square7d12pt"]}
{"id": "C70", "title": "Observed information is exact for quadratic log densities and leaves the mode unchanged", "statement": "For a quadratic function about its maximum, obsinfo returns exactly minus the Hessian for any step sizes and number of extrapolation levels, the matrix returned is symmetric, and the mode vector is restored.", "quantifier": "all quadratics, any dimension, all steps", "why_tests_cant": "Any dimension.", "anchors": ["package/inference/deriv/_obsinfo.f: ninfol, rid_ex"]}
{"id": "C71", "title": "Richardson extrapolation is exact for even polynomials", "statement": "Extrapolating second differences with k halvings recovers the exact second derivative for even polynomials of degree <= 2k.", "quantifier": "all k and coefficients", "why_tests_cant": "Unbounded k.", "anchors": ["package/inference/deriv/_obsinfo.f: rid_ex"]}
{"id": "C72", "title": "Workspace sizes given to the adaptive integrator satisfy its documented requirements", "statement": "For every dimension and maxfac, adapt_sizes yields maxpts >= minimum rule points and a work length at least the length the integrator requires.", "quantifier": "all dimensions >=2", "why_tests_cant": "All dimensions.", "anchors": ["package/inference/integrate/adapt.py: adapt_sizes, adapt"]}
{"id": "C73", "title": "The Gaussian fitted to a peak goes through its three points", "statement": "For three increasing abscissas whose middle log value is a peak, PeakParams returns a positive width and a location between the midpoints of the two cells, the Gaussian with these parameters goes through all three points, and if the points are those of a Gaussian its parameters are recovered.", "quantifier": "all abscissas and log values (spacing ratio sqrt(2) excluded)", "why_tests_cant": "Continuum of spacings and heights.", "anchors": ["package/inference/grid/grid1d.py: PeakParams, IsPeak"]}
{"id": "C74", "title": "Grid moments are the moments of the interpolated density", "statement": "logtrapzd_mom returns the value of logtrapzd and first and second moments equal to the trapezoid integrals of x e^v and x^2 e^v divided by that of e^v, on basic and refined grids. (Without nmom it always raises on refinable grids.)", "quantifier": "all grids, all values not more than 725 apart", "why_tests_cant": "Continuum of values; normalisation must cancel for all of them.", "anchors": ["package/inference/grid/grid1d.py: BasicGrid1D.logtrapzd_mom, Grid1D.logtrapzd_mom"]}
{"id": "C75", "title": "Integrals refer to the function of the last first pass", "statement": "After firstpass(f) the integrals and points of a grid are those of f. (Violated once the grid has been refined: they remain those of the earlier function.)", "quantifier": "all histories of first passes and refinements", "why_tests_cant": "Histories.", "anchors": ["package/inference/grid/grid1d.py: Grid1D.firstpass, refine, trapzd"]}
{"id": "C76", "title": "The normalisation of a one-dimensional density is its trapezoid integral", "statement": "HPD1D's norm() and lml report the log of the trapezoid integral of exp of the given log density over x (or over log x for log steps). (Violated if two neighbouring points share the minimum of the density: their cell is left out.)", "quantifier": "all grids and log densities", "why_tests_cant": "Continuum of densities.", "anchors": ["package/inference/grid/hpd.py: HPD1D.__init__, norm"]}
{"id": "C77", "title": "Region boundaries are where the density crosses its critical level", "statement": "critlevel reports, with the level of a region of given content, the points where the (interpolated) density crosses that level. (Violated for log steps: content is computed with x*p, boundaries with p; more than 10 boundaries raise after the history lists have been extended.)", "quantifier": "all grids, densities and levels", "why_tests_cant": "Continuum of densities.", "anchors": ["package/inference/grid/hpd.py: HPD1D.critlevel, fracgt"]}
{"id": "C78", "title": "Density ratios of n-dimensional normal regions", "statement": "sig2ratio(nd, nsig) and prob2ratio(nd, p) give the density of the nd-dimensional standard normal relative to its peak on the boundary of the region of that content. (Violated for nd>=2.)", "quantifier": "all dimensions and levels", "why_tests_cant": "Continuum of levels, any dimension.", "anchors": ["package/inference/grid/hpd.py: sig2ratio, prob2ratio, HPD2D"]}
{"id": "C79", "title": "contents() lists the names of a store", "statement": "contents() of an ArrayStore/AttrStore lists exactly the names of the attributes it holds, archived and newly assigned. (Violated: of the latter it lists the values.)", "quantifier": "all stores and histories of assignments", "why_tests_cant": "Histories.", "anchors": ["package/inference/utils/ioutils.py: ArrayStore.contents, AttrStore.contents"]}
{"id": "C80", "title": "max_subset() is the largest sample size that is accepted", "statement": "Whatever was called before, max_subset() of a weighted population gives the largest n with n*max(w) <= sum(w), and subset_pps(n) can be called with it. (Violated at the limit: if n*max(w) = sum(w) and n >= 3, subset_pps(n) never returns.)", "quantifier": "all weights, all histories of calls, all random streams", "why_tests_cant": "All weight vectors and streams; a test cannot show that a call never returns.", "anchors": ["package/inference/mc/population.py: Population.max_subset, subset_pps", "package/inference/mc/sampford.c: sampford_pps", "package/inference/mc/_ppssampler.c: prepratios"]}
{"id": "C81", "title": "siglml is the log likelihood marginalised over the background", "statement": "OnOff(...).siglml(s) is, up to one constant that depends on the data only, the logarithm of the Poisson likelihood of both counts integrated over the background rate with a flat prior; cutting off small terms makes it too small by at most a factor 1 + on_cts*cutoff. It raises ValueError instead of returning a wrong number when the series over- or underflows.", "quantifier": "all counts, positive intervals, cutoffs >= 0, signal rates >= 0, object states", "why_tests_cant": "The claim is about an integral for a continuum of rates and unbounded counts.", "anchors": ["package/inference/count/_cbmlike.f: slmlike, slml_offset", "package/inference/count/onoff.py: OnOff.siglml"]}
{"id": "C82", "title": "sigmp is the normalised posterior density", "statement": "OnOff(...).sigmp(s) equals the marginal likelihood divided by its integral over s >= 0 and integrates to one, whatever calls were made before on this or other objects.", "quantifier": "all counts, positive intervals, signal rates >= 0, histories of calls (shared factorial table, cached probabilities)", "why_tests_cant": "An integral over a half line and unbounded histories.", "anchors": ["package/inference/count/_cbmlike.f: psigc, sigctp, ppois", "package/inference/count/onoff.py: OnOff.sigmp"]}
{"id": "C83", "title": "slmliked gives the derivative of the log likelihood", "statement": "slmliked returns the same value, number of terms and flag as slmlike and, with cut=0, the derivative of the log marginal likelihood with respect to the signal rate, also at s=0. (Violated without any counts: at s=0 the derivative is NaN.)", "quantifier": "all counts, positive intervals, signal rates >= 0", "why_tests_cant": "A derivative for a continuum of rates and unbounded counts.", "anchors": ["package/inference/count/_cbmlike.f: slmliked"]}
{"id": "C84", "title": "Results of an OnOff object do not depend on its history", "statement": "The results of pnsig, siglml and sigmp of an OnOff object are the same after any calls, and whatever the caller does with arrays it was given. (Violated: pnsig() returns a view of the cached array, so writing into it changes later results.)", "quantifier": "all objects and histories of calls and writes", "why_tests_cant": "Histories are unbounded.", "anchors": ["package/inference/count/onoff.py: OnOff.pnsig, OnOff.sigmp"]}
{"id": "C85", "title": "Vector arguments of OnOff give the values of the scalar calls", "statement": "siglml and sigmp of a one dimensional array give the array of the results for its elements, or the error of one of them. (Violated for arrays of integers, whose results are truncated to integers, and for arrays of length one, which give a number.)", "quantifier": "all arrays, object states", "why_tests_cant": "All lengths and contents.", "anchors": ["package/inference/count/onoff.py: OnOff.siglml, OnOff.sigmp"]}
{"id": "C86", "title": "Cubature with a normal weight is exact to the degree of the rule", "statement": "For every rule in rule_dict, NormWtCub2D(locn, scale, rule)(f) is the expectation of f for independent normal variables with these means and standard deviations, for every polynomial f of the degree that the rule's name states, up to rounding of the tabulated constants; unknown rules raise KeyError and locations or scales that do not have two entries ValueError. (Violated by three rules: e2r2_11_28c is right to degree 3, e2r2_9_19a to degree 5, e2r2_13_41 to degree 9 only.)", "quantifier": "all rules, locations, positive scales, polynomials", "why_tests_cant": "A continuum of polynomials, locations and scales; the project tests no rule on mixed monomials.", "anchors": ["package/inference/integrate/cub2d.py: NormWtCub2D", "package/inference/integrate/_cub2d_auto.py: rule_dict"]}
{"id": "C87", "title": "The arrays given to obsinfo and dllsteps are not changed", "statement": "The arrays passed as mle, deltas and guess to obsinfo and dllsteps hold the same numbers after the call, whether it returns or raises. (Violated: when the log likelihood raises, or dllsteps reports a failure, the array with the mode keeps the trial point; dllsteps overwrites the array of guesses.)", "quantifier": "all log likelihoods, including ones that raise at any point, all dimensions", "why_tests_cant": "The point at which the log likelihood raises is arbitrary.", "anchors": ["package/inference/deriv/_obsinfo.f: pk_scales, ninfol", "package/inference/deriv/obsinfo.py: obsinfo, dllsteps"]}
{"id": "C88", "title": "dllsteps returns steps that change the log likelihood by dll", "statement": "When dllsteps returns, incrementing any one parameter by its step changes the log likelihood from its maximum by dll to within the tolerance; for log likelihoods that are quadratic along each axis it returns the exact steps. (Violated in that the tolerance is not relative to dll as documented, and a constant log likelihood makes it loop for ever.)", "quantifier": "all log likelihoods, dimensions, guesses and numbers of iterations", "why_tests_cant": "Unbounded iterations and dimensions.", "anchors": ["package/inference/deriv/_obsinfo.f: pk_scales", "package/inference/deriv/obsinfo.py: dllsteps"]}
{"id": "C89", "title": "adapt's result is a sum over a partition of the box with the accuracy asked for", "statement": "When adapt returns (result, err, npts), the box is divided into regions without overlap or gap, result is the sum of the values of the basic rule for them, err is the sum of their error estimates relative to result and less than relacc, and npts is at least the least number of points; the region divided at each step is one with the largest error estimate; adapt always ends. (Violated in that outside 2 to 20 dimensions it returns None without an exception, and in that maxfac and wrkfac, which its exceptions tell the user to increase, have no effect.)", "quantifier": "all integrands, boxes, accuracies, dimensions, numbers of steps", "why_tests_cant": "Unbounded numbers of divisions and arbitrary integrands.", "anchors": ["package/inference/integrate/adapt.py: adapt", "package/inference/integrate/adapt_py.f: ADAPT"]}
{"id": "C90", "title": "adapt divides along the axis where the integrand varies most", "statement": "The axis along which adapt will divide a region has the largest absolute fourth difference of the integrand through the centre; when all are zero it is the axis after the last one divided.", "quantifier": "all integrands, boxes and dimensions", "why_tests_cant": "All integrands.", "anchors": ["package/inference/integrate/adapt_py.f: BSRL"]}
{"id": "C91", "title": "adapt_vec checks its arguments as the subroutine does and gives it enough work space", "statement": "adapt_vec raises ValueError exactly for the keys and dimensions that DCUHRE refuses, and otherwise passes a work array of at least the length DCUHRE needs. (Violated: the length is computed with true division, so that making the array raises TypeError for all valid arguments.)", "quantifier": "all numbers of functions, dimensions, keys and numbers of points", "why_tests_cant": "All sizes.", "anchors": ["package/inference/integrate/adapt_vec.py: adapt_vec", "package/inference/integrate/dchhre.f: DCHHRE"]}
{"id": "C92", "title": "Adaptive integration is exact for polynomials of low degree", "statement": "For a polynomial of total degree at most 2m-1 the rule of order m that adapt applies to a box gives the exact integral, so that adapt returns the integral for every polynomial of degree at most 7 for which it returns, and for degree at most 5 and a nonzero integral it returns it with a zero error estimate. (Violated when a lower limit is above the upper one: the value is then not the integral with the opposite sign.)", "quantifier": "all polynomials of the degree, all boxes, dimensions up to 20, all accuracies, all previous contents of the work arrays", "why_tests_cant": "All polynomials, boxes and dimensions.", "anchors": ["package/inference/integrate/adapt.py: adapt", "package/inference/integrate/adapt_py.f: ADAPT, BSRL, SYMRL, WHT, FLSM, NXPRT"]}
{"id": "C93", "title": "The cumulative curve of a one dimensional population is the weight at or above each value", "statement": "After Population1D(vals, weights) the hazard stored for each value is the total weight of the members with a value at least as large, and haz_pts returns a step curve that falls from 1 at the start of the range to 0 at its end, with two points per value; a range that does not contain all values raises ValueError. (Violated: the hazard adds the weights from the small values up instead of down, so it is right only when all weights are equal; weights that do not have the sum one give a curve that rises; error bars given for two or more values make haz_pts raise.)", "quantifier": "all lists of values and weights, all orders of the values, all ranges", "why_tests_cant": "an example with equal weights cannot show it", "anchors": ["package/inference/mc/population.py:Population1D.__init__", "package/inference/mc/population.py:Population1D.haz_pts"]}
{"id": "C94", "title": "The points of a grid can be read by number", "statement": "point(i) of a basic grid gives for each number from 0 to n-1 the abscissa (equally spaced in x or in log x from the lower to the upper limit), the distance to the next point, which is positive except that it is zero at the last point, and the value of the function if the grid has been filled, point by point or with a vector function; every other number raises ValueError.", "quantifier": "all limits, numbers of points, step types, functions and numbers", "why_tests_cant": "all grids and numbers", "anchors": ["package/inference/grid/grid1d.py:BasicGrid1D.point", "package/inference/grid/grid1d.py:BasicGrid1D.stepfunc", "package/inference/grid/grid1d.py:BasicGrid1D.vecfunc"]}
{"id": "C95", "title": "critlevel finds the level of a region of given probability", "statement": "critlevel(p) or critlevel(snsig=g), in one or two dimensions and after any earlier calls, returns a log ratio r such that, within the tolerance of the root finder, the points with log density above the largest plus r hold the probability p (or that of g standard deviations of a normal distribution): fracgt a tolerance above r is at most p, and a tolerance below r at least p; the probability, log ratio, level and boundaries are added to the lists of the object. Both arguments raise ValueError, none TypeError. For 0 < p < 1 a level is found for every density that is not constant.", "quantifier": "all densities on grids, step types, arguments, tolerances and earlier calls", "why_tests_cant": "the search and the density interact; all densities", "anchors": ["package/inference/grid/hpd.py:HPD1D.critlevel", "package/inference/grid/hpd.py:HPD2D.critlevel", "package/inference/utils/numutils.py:zbracket"]}
{"id": "C96", "title": "Regions from a function are regions from its table", "statement": "HPDGrid1D(f, xlo, xhi, n, step) and HPDGrid2D behave as HPD1D and HPD2D made from the array of values of f at the n (by m) points equally spaced in x or log x from the lower to the upper limit, for n of at least 2; a single point in linear steps raises ZeroDivisionError, fewer ValueError, and a step type other than the four names raises ValueError.", "quantifier": "all functions, limits, numbers of points and step types", "why_tests_cant": "all functions", "anchors": ["package/inference/grid/hpdgrid.py:HPDGrid1D", "package/inference/grid/hpdgrid.py:HPDGrid2D"]}
{"id": "C97", "title": "An object-based Bretthorst analysis describes its object's data at the parameters asked for", "statement": "`BAObj(obj)` returns from `marg_stats(*p)` the least sum of squared residuals over all amplitudes, the sufficient statistic and the Jacobian of `obj`'s standardised samples and basis functions at `p`, and `amplitudes(*p)`, `residuals(*p)` and `covar()` agree with them, whatever calls came before, whichever of them raised, and whatever nonlinear parameters others set on `obj` in between.", "quantifier": "all objects, all numbers of basis functions and samples, all histories of calls interleaved with changes of the object by others", "why_tests_cant": "Results are memoised by parameter values while the object is shared and mutable; which interleavings of calls and outside changes leave the memo valid cannot be enumerated.", "anchors": ["package/inference/gauss/vecba.py: BAObj"]}
{"id": "C98", "title": "obs_info measures the curvature of the posterior at the current parameter values and leaves the inference as it was", "statement": "With the varying parameters at a mode, `obs_info()` returns minus the Hessian of the log of prior times likelihood as a function of their values (exactly, with errors zero, when that is quadratic), the other parameters held at the values the user reads; whether it returns or raises, the values of all parameters are afterwards what they were, so that it may be called again.", "quantifier": "all inferences with any number of varying parameters, predictors and priors, all histories of parameter operations and evaluations, all steps, dlogp and numbers of extrapolations", "why_tests_cant": "The routine drives the shared parameter objects through hundreds of evaluations; that each evaluation depends only on its argument, and what is left behind after every exit, has to hold for all posteriors, ranges and histories.", "anchors": ["package/inference/pie/bayes.py: BayesianInference.score, logp, _logp_func, obs_info", "package/inference/deriv/obsinfo.py: dllsteps, obsinfo"]}
{"id": "C99", "title": "The C sampler's generator is the Mersenne Twister and its state can be saved and restored", "statement": "After `set_rng_state` with an MT19937 state (624 words of 32 bits and a position 0..624), any sequence of `local_rand` and `local_irand` calls returns what the published 32-bit MT19937 stream gives at that position, however many blocks are regenerated; a state obtained with `get_rng_state` and set again after any further calls makes the following calls return exactly what they returned (or would have returned) the first time; a call of `set_rng_state` that raises ValueError changes nothing.", "quantifier": "all states, positions and sequences of calls of any length", "why_tests_cant": "The stream is unbounded, blocks are regenerated in place with reads of words already overwritten, and the arithmetic is 64-bit; tests compare a few numbers", "anchors": ["package/inference/mc/randomkit.c:rk_random", "package/inference/mc/randomkit.c:rk_interval", "package/inference/mc/randomkit.c:rk_double", "package/inference/mc/_ppssampler.c:set_rng_state", "package/inference/mc/_ppssampler.c:get_rng_state", "package/inference/mc/_ppssampler.c:local_irand", "package/inference/mc/_ppssampler.c:local_rand"]}
{"id": "C100", "title": "Random numbers of the C sampler are in range and equally likely", "statement": "`local_rand()` is k/2^53 with 0 <= k < 2^53 and `local_irand(hi)` is an integer with 0 <= value <= hi; over the words the generator draws from, each k and each value 0..hi is hit by equally many, and fewer than half are rejected; `local_irand` rejects a negative `hi`, and no state that `set_rng_state` accepts breaks this.", "quantifier": "all states, all hi, all values", "why_tests_cant": "Uniformity is a count over 2^64 pairs of words for every hi; sampling tests cannot show it", "anchors": ["package/inference/mc/randomkit.c:rk_interval", "package/inference/mc/randomkit.c:rk_double", "package/inference/mc/_ppssampler.c:local_irand", "package/inference/mc/_ppssampler.c:local_rand", "package/inference/mc/_ppssampler.c:set_rng_state"]}
{"id": "C101", "title": "The C sampler's generator never degenerates", "statement": "Whatever the seed or the (not degenerate) state it was given, the generator never gets stuck at zeros: among any 624 consecutive words some are not zero, and the words recur with a period from the second on (no state is lost); the generator is usable before any state was set.", "quantifier": "all seeds, all non-degenerate states, all points in the stream", "why_tests_cant": "The claim is about the whole unbounded stream", "anchors": ["package/inference/mc/randomkit.c:rk_random", "package/inference/mc/randomkit.c:rk_seed", "package/inference/mc/_ppssampler.c:rng_state"]}
{"id": "C102", "title": "The vector integrator accounts for the whole region and meets its tolerance", "statement": "For every vector of integrands, every box and all accuracies and limits that pass its checks, the integrator DCUHRE ends; the regions it has stored are a partition of the box; each component of RESULT is the sum of the basic rule over them, times -1 for each axis whose limits are reversed, and each component of ABSERR is the sum of the stored error estimates, none of which is smaller than the estimate of the rule; the region that is divided is always one with the largest error; IFAIL = 0 means that every component of ABSERR is at most EPSABS or at most EPSREL times the size of RESULT, and IFAIL = 1 that there is no room for another division; the number of evaluations is between MINPTS and MAXPTS; the work arrays are large enough and do not overlap; a run that is restarted goes on with the regions of the run before.", "quantifier": "all dimensions from 2 to 15, numbers of integrands, boxes with any orientation, accuracies, limits on evaluations, rules, and numbers of divisions", "why_tests_cant": "A test follows one sequence of divisions of one integrand; the heap, the running totals and the stopping rule must be right after every sequence.", "anchors": ["package/inference/integrate/dcuhre_py.f:DCUHRE", "package/inference/integrate/dadhre.f:DADHRE", "package/inference/integrate/dtrhre.f:DTRHRE", "package/inference/integrate/dchhre.f:DCHHRE"]}
{"id": "C103", "title": "The rules of the vector integrator evaluate each point of the region once and report the number of evaluations", "statement": "For each rule (KEY 1 to 4), dimension and region, the basic rule of DCUHRE calls the integrand at exactly as many points as it reports, all different when the widths of the region are not zero, and all inside the region; the sums over symmetric points have one term for each different point that arises from the generator by permutation and change of signs, and leave the generator as it was; the axis of the next division is one with the largest fourth difference, and the longest one when all differences are zero.", "quantifier": "all rules, dimensions, regions and integrands", "why_tests_cant": "The number of points grows exponentially with the dimension, and the enumeration depends on ties between generators; a test looks at few dimensions.", "anchors": ["package/inference/integrate/drlhre.f:DRLHRE", "package/inference/integrate/dfshre.f:DFSHRE", "package/inference/integrate/dchhre.f:DCHHRE"]}
{"id": "C104", "title": "The vector integrator is exact for polynomials of the degree of its rule", "statement": "With KEY = 4 in every dimension the basic rule of DCUHRE is the integral for every polynomial of degree at most 7, and with KEY = 3 for every polynomial of degree at most 9, on every box; so is the RESULT of DCUHRE for a vector of such polynomials, however the box was divided; the error estimate of a region is zero for polynomials of degree at most 1 and 3, so that DCUHRE then returns the integral with ABSERR = 0, and with IFAIL = 0 exactly if some number of divisions meets both MINPTS and MAXPTS.", "quantifier": "all dimensions from 2 to 15, polynomials, boxes and divisions", "why_tests_cant": "The weights are formulas in the dimension; exactness is a statement about all polynomials of a degree in all dimensions.", "anchors": ["package/inference/integrate/d07hre.f:D07HRE", "package/inference/integrate/d09hre.f:D09HRE", "package/inference/integrate/dinhre.f:DINHRE", "package/inference/integrate/drlhre.f:DRLHRE"]}
{"id": "C105", "title": "The tabulated rules of the vector integrator are exact up to rounding", "statement": "With KEY = 1 in two dimensions (KEY = 2 in three) the basic rule of DCUHRE, with its tabulated decimals, differs from the integral of a polynomial of degree at most 13 (11) over a box by at most 3e-15 times the product of the half widths times the sum of the sizes of the terms of the polynomial at the largest sizes of the coordinates in the box; so does the RESULT of DCUHRE for the whole box, however it was divided; for degrees at most 7 (5) the error estimate of a region and ABSERR are at most 1e-12 times these numbers, so that IFAIL is 0 if EPSABS is at least that and some number of divisions meets MINPTS and MAXPTS.", "quantifier": "all polynomials up to the degree, all boxes, divisions and restarts", "why_tests_cant": "The tables are 70 and 65 decimals with 16 digits; an error in one digit is not visible in a test with a loose tolerance, and exactness is for all polynomials.", "anchors": ["package/inference/integrate/d132re.f:D132RE", "package/inference/integrate/d113re.f:D113RE", "package/inference/integrate/drlhre.f:DRLHRE"]}
{"id": "C106", "title": "Table-based sampling without replacement is Sampford's method with quantised weights", "statement": "subset_pps5(n) returns the members of the first try without repetition, each try consisting of n draws with the five-table samplers of the weights and of the ratios p/(1-np). Of all blocks of n random words those that stand for given members in a given order are exactly as many as the product of their quantised weight and ratios; the share of blocks with n distinct members that include member m differs from n*w_m/W times the share of blocks with n distinct members by at most n*N/2^30, N being the population size.", "quantifier": "all weight vectors of at most 2^30 members, sample sizes n with n*max(w) < W, orders of ties, members, histories of calls, and sequences of random words", "why_tests_cant": "the number of word blocks is 2^(32n); tests of inclusion frequencies cannot tell quantisation or an index mix-up of small probability from noise", "anchors": ["package/inference/mc/population.py: Population.subset_pps5", "package/inference/mc/_ppssampler.c: prepratiotables, samplenr5", "package/inference/mc/sampford.c: sampford_pps_tables", "package/inference/mc/compact5table.c: Dran"]}
{"id": "C107", "title": "The counting results stay accurate with the log gamma approximation the code uses", "statement": "gammln(x) is within 3e-10 of the log of the gamma function for every real x >= 1, so gammln(n+1) of log n! for every count n, however large. Hence ppois(n, m) is within 4 parts in 1e10 of the Poisson probability; OnOff.siglml(s), if it does not raise ValueError, is within 1e-9 (plus log(1 + on_cts*cutoff)) of the log marginal likelihood up to a constant that depends only on the data; OnOff.sigmp(s) is within 4 parts in 1e10 of the posterior density and integrates to one within the same; and slmliked without a cutoff returns the exact derivative for s > 0.", "quantifier": "all counts, intervals, cutoffs, signal rates, states of the object and of the saved factorial table; floating point as real numbers, the constants as the decimals in the file", "why_tests_cant": "the approximation has a documented accuracy only for the gamma function; tests compare a few values, and an error growing slowly with the counts would not show", "anchors": ["package/inference/count/_cbmlike.f: gammln, ppois, psigc, slmlike, slmliked, slml_offset", "package/inference/count/onoff.py: OnOff.siglml, OnOff.sigmp"]}
{"id": "C108", "title": "A Gaussian predictor holds the data it was given, or refuses them", "statement": "SampledGaussian(...) and set_data(...) accept three arrays (locations, values, sigmas) or one array of triples. A call with three arguments of the same length, the first a one-dimensional array, returns normally and the predictor then holds exactly these data, with ndata their number; a three-argument call or a construction that returns normally is of that kind. Violated for the second documented form and for refused calls: a table of triples cannot be used for construction and is silently ignored by a predictor that already holds data; a list of triples always raises AttributeError and destroys the data held (or, after a table, returns normally with the table's columns); a call refused with DataError has already replaced the data, and a later call that returns normally leaves locations and values of different numbers.", "quantifier": "all predictors reachable by construction and any history of set_data calls (including ones that raised), all arguments: numbers, lists, lists of rows, arrays of any shape; any number of arguments", "why_tests_cant": "tests use the three-array form; whether data survive depends on the history of earlier calls", "anchors": ["package/inference/pie/gaussian.py: SampledGaussian.__init__, SampledGaussian.set_data"]}
{"id": "C109", "title": "Positions and velocities on a Keplerian orbit solve Kepler's equation to the tolerance", "statement": "After setup_Tp, setup_M0 or setup_Mp the C module fkepler has the orbit given. For an ellipse, at every time: the eccentric anomaly t2EA returns is, unless -99, within twice the tolerance of the solution of Kepler's equation (up to whole turns); the arrays of its cosine and sine are within the same of the true ones; the cosine and sine of the true anomaly that t2TA returns are those of an angle, within 2 sqrt((1+e)/(1-e)) times the tolerance; the array functions, the storing functions and t2anoms agree with them. The solver converges at every time for e up to 0.98 with the default tolerance 1e-8 and for e up to 0.99 with 1e-5. Violated: for e near 1 the solver gives up and -99 or (-1,-1) come back as results; kepler.v_rad has the wrong sign of the longitude of periastron (it is the velocity for minus the longitude), raises ValueError for every array of times but those of length two, for which it mixes the times; every method of Orbit raises an exception when the module is imported, and where the module has global parameters these replace those of every orbit.", "quantifier": "all periods, eccentricities in [0,1), times of periapsis, tolerances and times; all arrays of times; all histories of set-up calls and of methods of an orbit", "why_tests_cant": "convergence of an iteration capped at 20 steps for every phase and eccentricity, with accuracy for all reals, is beyond sampling", "anchors": ["sandbox/signals/fkeplermodule.c: fkepler_setup_Tp, fkepler_setup_M0, fkepler_setup_Mp, fkepler_settol, Kepler, t2EA, t2TA, vt2EA, vt2TA, t2EA_store, t2TA_store, t2anoms", "sandbox/signals/kepler.py: v_rad, Orbit"]}
{"id": "C110", "title": "Listeners of a parameter hear every change exactly once", "statement": "An object added with add_listener is from then on told of every change of the parameter's value and status exactly once, in the order of the changes, however often it was added; the inference that owns the parameter is told first (this is what calls the user's on_param_change). Violated: if on_param_change refuses the values by raising an exception (the documented place for a check of coupled ranges) the parameter keeps the refused value, with its old status; a refused default leaves a parameter that can be read but not fixed; del_listener always raises AttributeError and the object goes on listening; a listener that implements the documented methods on_param_change and on_param_use makes every later assignment raise AttributeError after the value was changed. When a parameter begins to step, listeners other than the inference hear of its new status after they hear of a value set later.", "quantifier": "all histories of reads, assignments, fix, set_value, vary, range, linstep, stepping, add_listener and del_listener calls on any number of parameters, including calls that raise; all behaviours of listeners (exceptions may depend on all parameter values)", "why_tests_cant": "what is heard depends on the whole history and on which listener raises when", "anchors": ["package/inference/pie/param.py: ParamHandler.add_listener, ParamHandler.del_listener, ScalarParamHandler._set_status, ScalarParamHandler._set_value", "package/inference/pie/signalmodel.py: on_param_change, _on_param_value_change", "package/inference/pie/realparam.py: fix, set_value, vary, range"]}
{"id": "C111", "title": "Periodic data are binned correctly", "statement": "For any number of bins and any arrival times whose phases are not negative, fbindata puts every event in the bin that its phase (shifted, modulo one period) belongs to, loses none, and returns a positive step of phase during which the counts do not change; the phases are the documented polynomials of time, in periods. Violated: the phases are documented to lie in [0,1) but do not; for events before time zero the counts are written outside of their array (phase a bin width or more below a whole number) or in the first bin instead of the last.", "quantifier": "all numbers of bins, all lists of phases, all phase shifts", "why_tests_cant": "bin boundaries can fall anywhere among any number of events; tests try times that start at zero", "anchors": ["sandbox/point/periodic/_pcperiodic.f: phases0, phasesd, phasesdd, binbounds, fbindata"]}
{"id": "C112", "title": "Marginal likelihoods of a periodic model integrate over all phases", "statement": "For any number of bins and any events with phases that are not negative, the exact computation (qpts=0) ends after at most one more turn than there are events and returns the integral over all phases of the scaled product of the factorials of the counts, up to the accuracy of the log factorials and the excess of 1e-10 per step; the trapezoid computation with n+1 points returns it with an error of at most 3N/n of the largest possible value plus single precision rounding; both return the phase average of chi-squared with the same accuracy.", "quantifier": "all numbers of bins, all lists of phases that are not negative, all scale factors, all numbers of quadrature points from two on", "why_tests_cant": "the integrand jumps where any of the events crosses a bin boundary, and the exact method walks from one crossing to the next by a loop without bound", "anchors": ["sandbox/point/periodic/_pcperiodic.f: qlw_exact, qlw_trap, trap_absc, plimult, chisqr, fbindata"]}
{"id": "C113", "title": "Log likelihoods and odds of a periodic model are those of the binned counts", "statement": "limult is the log of the inverse multiplicity of the counts and lodds the log odds against a constant rate, to the accuracy of the log factorials, whatever calls were made before (lodds keeps values between calls). Violated: ll_wpb adds N*nbins instead of N*log(nbins), so that one bin does not give the likelihood of a constant rate.", "quantifier": "all counts, all numbers of bins and events, all histories of calls", "why_tests_cant": "the results depend on saved variables and on counts without bound", "anchors": ["sandbox/point/periodic/_pcperiodic.f: limult, lql_wp, lodds, ll_wpb, factln"]}
{"id": "C114", "title": "A periodic model answers for the parameters in force", "statement": "After any history of set_nbins, set_qpts and queries on a PCModel, lml_pw and chi_pw return the log inverse multiplicity and chi-squared of the counts for the frequency and derivatives in force (those given in the call, or else the last given), and sml_w and avgchi_w the integral and the average over all phases, with the accuracy of the compiled code; scale factors kept from earlier calls cancel. Violated: the constant-rate likelihood and rate_est never return; a missing frequency is not noticed when only derivatives are given; without bins the error is AttributeError, not the documented one, and set_qpts has by then changed the object; one quadrature point is accepted and reads outside of an array.", "quantifier": "all data, all histories of calls, all numbers of bins and quadrature points", "why_tests_cant": "answers depend on caches left by any sequence of earlier calls", "anchors": ["sandbox/point/periodic/periodic.py: PCModel"]}
{"id": "C115", "title": "Rate estimates of a periodic model are averages over the phase of the bins", "statement": "For any number of bins and any events and phases that are not negative, rate_wb ends, gives one rate per phase, and every rate lies between zero and the largest possible rate of a bin. Violated: the normalisation counts all of the last step of phase, the estimate only its part within the first bin, so that a single bin, whose rate is one for all data, gives less than one (2/3 for an event in the middle of the period), with an uncertainty that is not zero.", "quantifier": "all numbers of bins, all lists of phases that are not negative, all phases of the estimate", "why_tests_cant": "the loop walks from crossing to crossing without bound; tests compare plots", "anchors": ["sandbox/point/periodic/_pcperiodic.f: rate_wb"]}
{"id": "C116", "title": "The Rayleigh statistic of a grid is that of its frequencies", "statement": "For any events and frequency, rayleigh returns the sums of sines and cosines and the power, which lies between zero and the number of events; for any number of frequencies from two on, rsgrid returns equally spaced frequencies that end at the second limit, and for each exactly the power that rayleigh returns: its recurrences make no error of their own. Violated: a grid with one frequency divides by zero.", "quantifier": "all lists of events, all frequencies and limits, all numbers of grid points", "why_tests_cant": "recurrences over grids of any length can drift; tests compare a few points", "anchors": ["sandbox/point/periodic/_rayleigh.c: rayleigh, rsgrid"]}
{"id": "C117", "title": "The likelihood of a von Mises signal is accurate for every concentration", "statement": "For every argument, the approximation of the log of the modified Bessel function differs from it by at most 9e-7, and for every number of events, concentration and frequency lml_wk of the amplitude that rayleigh gives is the log of the likelihood averaged over all phases, with an error of at most 9e-7 for each event and one more.", "quantifier": "all real arguments, all numbers of events, all lists of events", "why_tests_cant": "the approximations are polynomials joined at 3.75; a test can only sample arguments", "anchors": ["sandbox/point/periodic/_rayleigh.c: lbessi0, lml_wk, rayleigh"]}
{"id": "C118", "title": "Harmonic and multiplet analyses fit the sinusoids", "statement": "For any number of distinct frequencies strictly between zero and the Nyquist frequency, any number of samples and the projections of any samples, multipletAnalysis returns the exact products of the sampled cosines and sines, a lower triangular root of them, the root of their determinant, the amplitudes of the only least squares fit and what it explains, and covar of the root is the inverse; with fewer samples than amplitudes, or a wrong number of projections, it raises a ValueError; harmonicAnalysis does the same for the multiples of one frequency; degenerate frequencies raise a ValueError. Violated: for equal frequencies or a frequency of zero the result is not a number instead.", "quantifier": "all numbers and values of the frequencies, all numbers of samples and all samples", "why_tests_cant": "closed forms of trigonometric sums, a factorisation and two backsubstitutions of any size", "anchors": ["sandbox/bha/bhacalc.c: sameSums, diffSums, harmonicAnalysis, multipletAnalysis, covar"]}
{"id": "C119", "title": "The harmonic analysis objects report fits of the frequencies they report", "statement": "For any time series, a Multiplet with exact projections given frequencies that can be told apart holds their least squares fit; without options each frequency is moved to the nearest one of the transform and the fit is that of the frequencies reported; Harmonics does the same for a fundamental and its harmonics; interpolated projections are those of the quadratic through three neighbouring frequencies that bracket the one given; amplitudes() returns those of the last analysis. Violated: integer frequencies are truncated after they were moved, integer sampling intervals move every frequency to zero, negative frequencies use the transform at another one, interpolation fails near the top of odd transforms, and an analysis that raises leaves the amplitudes of an earlier one.", "quantifier": "all time series, frequencies, transform sizes and numbers of harmonics, and calls in any order", "why_tests_cant": "rounding, indexing and interpolation depend on the values of the frequencies", "anchors": ["sandbox/bha/bha.py: Harmonics, Multiplet, qinterp", "sandbox/bha/USTimeSeries.py: USTimeSeries"]}
{"id": "C120", "title": "Uncertainties of a harmonic analysis", "statement": "After any analysis covar() is the variance times the inverse of the products of the cosines and sines, the variance estimate is the posterior mean of the noise variance (normal noise, flat amplitudes, prior 1/sigma), and sigmas() are the uncertainties of the amplitudes of the sinusoids propagated from the covariances to first order. Violated: the variance estimate counts one amplitude for each sinusoid and is always too small, and sigmas() leaves the covariance of the cosine and sine amplitudes out.", "quantifier": "all time series and frequencies", "why_tests_cant": "the posterior mean is an integral over all amplitudes and noise levels", "anchors": ["sandbox/bha/bha.py: Multiplet.analyze, Multiplet.covar, Multiplet.sigmas, Harmonics.sigmas"]}
{"id": "C121", "title": "The six regression lines are the lines they are named after", "statement": "SixLin(x, y) raises ValueError exactly when the lengths differ, there are fewer than two points or the sum of products of deviations is zero; otherwise yonx, xony, bisect, orthog, rma and mols hold the slope and intercept of the only line that predicts y from x best, predicts x from y best, halves the angle between these two, has the least sum of squared distances, has the least sum of areas, and has the mean of the first two slopes, together with the data and their extent.", "quantifier": "all lists of points", "why_tests_cant": "each line is a minimum over all lines", "anchors": ["sandbox/regress/regress.py: SixLin, LinRegResult", "sandbox/regress/_regress.f: sixlin"]}
{"id": "C122", "title": "Standard errors of the six regression lines", "statement": "The standard errors of the slopes and intercepts of SixLin are the roots of the sums of the squared rates at which they change with the weight of each datum (infinitesimal jackknife). Violated: the standard error of the intercept of an orthogonal line of negative slope has a term of the wrong sign.", "quantifier": "all lists of points", "why_tests_cant": "the rates are derivatives of minimisers", "anchors": ["sandbox/regress/regress.py: SixLin", "sandbox/regress/_regress.f: sixlin"]}
{"id": "C123", "title": "Regression lines for data with errors in both variables", "statement": "BCES raises ValueError exactly when a length does not fit or there are fewer than two points; otherwise, when the variances left after taking the mean measurement errors away are positive, its lines are the ones named for these variances and the covariance; without errors it agrees with SixLin; the extent covers the error bars. Violated: when the covariance of the errors exceeds that of the data the orthogonal line is the wrong one.", "quantifier": "all lists of points, scalar or vector errors and covariances", "why_tests_cant": "each line is a minimum over all lines", "anchors": ["sandbox/regress/regress.py: BCES, LinRegResult", "sandbox/regress/_regress.f: bess, class, nclass"]}
{"id": "C124", "title": "Standard errors for data with errors in both variables", "statement": "The standard errors of BCES are the roots of the sums of the squared rates at which slopes and intercepts change with the weight of each datum, and serr_IFAB is never less than serr. Violated: for correlated errors the standard errors of the slopes are wrong; the intercept of an orthogonal line of negative slope has the wrong standard error; serr_IFAB of the orthogonal line does not agree with serr without measurement errors.", "quantifier": "all lists of points and errors", "why_tests_cant": "the rates are derivatives of minimisers", "anchors": ["sandbox/regress/regress.py: BCES", "sandbox/regress/_regress.f: bess"]}
{"id": "C125", "title": "Weighted least squares with scatter", "statement": "wlss raises ValueError exactly when a length does not fit, there are fewer than two points or the sum of products of deviations is zero; otherwise scat is the root of the mean squared residual less the mean squared error, the line fits best with the inverse variances as weights, and the standard errors are those of slope and intercept as linear functions of the y values. Violated: for points on a line and constant errors no number is finite; scat is nan when the residuals are small; with negative variances the slope is outside all slopes any positive weights can give; the yerr attribute is missing.", "quantifier": "all lists of points, scalar or vector errors", "why_tests_cant": "the fit is a minimum over all lines", "anchors": ["sandbox/regress/regress.py: wlss, LinRegResult", "sandbox/regress/_regress.f: wlss"]}
{"id": "C126", "title": "Statistics of two variables", "statement": "bistats returns the means, the standard deviations and the covariance with factors 1/n and the correlation coefficient, which is at most one in size; it raises ValueError exactly when the lengths differ, there are fewer than two points or the covariance is zero. Violated: data with zero covariance are refused.", "quantifier": "all lists of points", "why_tests_cant": "a statement about all data", "anchors": ["sandbox/regress/regress.py: bistats, BiStats", "sandbox/regress/_regress.f: datstt"]}
{"id": "C127", "title": "Directions accept one description and multiply to cosines", "statement": "A Direction is accepted exactly when a unit vector, or a longitude and latitude, or a right ascension and declination is given and nothing else; anything else is a ValueError. The vector stored is the unit vector of those angles (given in radians or degrees), the product of two directions is the cosine of the angle between them, and only one of sig and kappa may be given to a FDirection.", "quantifier": "every combination of arguments given or omitted, all angles, both units", "why_tests_cant": "Which combinations are refused, and the cosine formula on all angles, range over every argument pattern and all real angles", "anchors": ["sandbox/drxn/drxn.py: Direction.__init__, Direction.__mul__, FDirection.__init__"]}
{"id": "C128", "title": "The likelihood of a direction is a Fisher density", "statement": "llike of a FDirection is the log of a density over the sphere with total probability one, which falls off with the angle from the measured direction as exp(kappa*cos(angle)), for every direction however it is named (angles, vector or object).", "quantifier": "every measured direction and concentration, every direction asked about", "why_tests_cant": "Normalisation is an integral over the sphere for every concentration", "anchors": ["sandbox/drxn/drxn.py: FDirection.llike", "sandbox/drxn/fisher_coinc.f: lsinhc"]}
{"id": "C129", "title": "Coincidence Bayes factors", "statement": "doublet_lbf, triplet_lbf and multiplet_lbf return the log Bayes factor of a common direction (averaged uniformly over the sphere) against separate directions; the three agree with each other and do not depend on the order of the directions.", "quantifier": "every list of Fisher directions", "why_tests_cant": "The Bayes factor is a ratio of integrals over the sphere for every list of directions", "anchors": ["sandbox/drxn/drxn.py: doublet_lbf, triplet_lbf, multiplet_lbf", "sandbox/drxn/fisher_coinc.f: doublet_lbf, triplet_lbf, multiplet_lbf, lsinhc"]}
{"id": "C130", "title": "Best common direction", "statement": "fisher_lml is the smallest loss of log likelihood that any common direction has compared with separate ones; fisher_fit returns it with the one direction that attains it, and a concentration such that the product of the likelihoods is the likelihood of the fit.", "quantifier": "every non-empty list of Fisher directions, all candidate directions", "why_tests_cant": "Optimality is over all directions of the sphere and every list", "anchors": ["sandbox/drxn/drxn.py: fisher_lml, fisher_fit"]}
{"id": "C131", "title": "Concentration of a 68.3% radius", "statement": "A FDirection built from the radius sig of a 68.3% region has the concentration whose Fisher distribution has probability 0.683 within sig of the measured direction.", "quantifier": "every sig for which such a concentration exists", "why_tests_cant": "Convergence of the iteration for every radius cannot be sampled", "anchors": ["sandbox/drxn/drxn.py: FDirection.__init__", "sandbox/drxn/fisher_coinc.f: sig_to_kappa"]}
{"id": "C132", "title": "Kaplan-Meier estimate with lower limits", "statement": "For detections and lower limits, KM's uncens are the distinct detected values in ascending order, km_cdf is the product-limit estimate of the probability of larger values at each of them, cdf_err its Greenwood standard error and cens are the limits; upper limits given as ulims and lower limits given as llims are analysed as what they are.", "quantifier": "every list of detections and limits, with any ties", "why_tests_cant": "the estimate is a product over all distinct values; ties between detections and limits, and a limit on top, take separate paths that a few data sets do not meet", "anchors": ["sandbox/asurv/KM.py: KM.__init__", "sandbox/asurv/_asurvkm.f: KMESTM, XVAR, PLEST1, KMADJ"]}
{"id": "C133", "title": "Kaplan-Meier estimate with upper limits", "statement": "For detections and upper limits, KM's uncens are the distinct detected values in ascending order, km_cdf is the product-limit estimate for upper limits, cdf_err its Greenwood standard error and cens are the limits; indicators mean what the documentation says.", "quantifier": "every list of detections and limits, with any ties", "why_tests_cant": "the routine negates and reverses the data and the results, and special cases at the bottom only appear for certain orders", "anchors": ["sandbox/asurv/KM.py: KM.__init__", "sandbox/asurv/_asurvkm.f: KMESTM, KMADJ"]}
{"id": "C134", "title": "Kaplan-Meier mean", "statement": "Where the extreme datum is a detection, KM's mean is the mean of the estimated distribution: the sum of each detected value times the drop of the estimate there, for lower and for upper limits.", "quantifier": "every list of detections and limits whose extreme datum is a detection", "why_tests_cant": "the code sums areas of steps, skipping over ties; equality with the definition holds by summation by parts for any number of values", "anchors": ["sandbox/asurv/KM.py: KM.__init__", "sandbox/asurv/_asurvkm.f: PLEST1"]}
{"id": "C135", "title": "Weights of a Kaplan-Meier population", "statement": "As a population, a KM object gives each uncensored value the probability the estimate assigns to it, so that the weights sum to one less what is left beyond the largest value.", "quantifier": "every list of detections and lower limits", "why_tests_cant": "it must hold for each of any number of values", "anchors": ["sandbox/asurv/KM.py: KM.__init__", "package/inference/mc/population.py: Population1D.__init__"]}
{"id": "C136", "title": "Binned Kaplan-Meier distribution", "statement": "diff returns for each bin the number of data times the probability the estimate assigns to the bin, and nothing outside the returned arrays is changed.", "quantifier": "every estimate, bin start, width and number of bins", "why_tests_cant": "the loop advances two indices at once; stray writes are not visible in the results", "anchors": ["sandbox/asurv/KM.py: KM.diff", "sandbox/asurv/_asurvkm.f: KMDIF"]}
{"id": "C137", "title": "Kaplan-Meier quartiles", "statement": "quartiles returns the points where the line through the points of the estimate takes the values three quarters, one half and one quarter.", "quantifier": "every estimate with at least four uncensored values", "why_tests_cant": "the search for one quartile starts where the last one ended; which intervals hold several depends on the data", "anchors": ["sandbox/asurv/KM.py: KM.quartiles", "sandbox/asurv/_asurvkm.f: QUART"]}
{"id": "C138", "title": "Points of the Kaplan-Meier curve", "statement": "Every point cdf_pts returns lies on the graph of the estimate, vertical jumps included.", "quantifier": "every list of detections and lower limits and every range spanning the detections", "why_tests_cant": "the last point depends on whether the largest datum is a detection", "anchors": ["sandbox/asurv/KM.py: KM.cdf_pts"]}
{"id": "C139", "title": "Clenshaw-Curtis quadrature", "statement": "A Clenshaw-Curtis rule of any order covers the interval it is given: it has order + 1 increasing nodes from one limit to the other and positive weights, and it integrates every polynomial up to that order exactly, given as a function or as values at the nodes.", "quantifier": "every order, interval and polynomial up to the order", "why_tests_cant": "the weights come from an inverse Fourier transform of a vector whose layout depends on the parity of the order; no finite set of orders covers it", "anchors": ["expt/integrate/ccf.py: ccrule, ClenshawCurtis"]}
{"id": "C140", "title": "Fejer quadrature", "statement": "Fejer's first rule of any order has order + 1 increasing nodes strictly inside the interval it is given and positive weights, and integrates every polynomial up to that order exactly.", "quantifier": "every order, interval and polynomial up to the order", "why_tests_cant": "the weights come from an inverse Fourier transform of complex vectors whose layout depends on the parity", "anchors": ["expt/integrate/ccf.py: f1rule, Fejer1"]}
{"id": "C141", "title": "Ranges of a quadrature rule", "statement": "Whatever ranges have been set before, a rule integrates over the last range it accepted, or over the limits passed with the integrand without being changed by them; a single limit is refused and leaves the rule as it was.", "quantifier": "every history of set_range calls, every limits passed to quad", "why_tests_cant": "rescaling in place could accumulate over a history of calls", "anchors": ["expt/integrate/ccf.py: ClenshawCurtis.set_range, ClenshawCurtis.quad"]}
{"id": "C142", "title": "Rules absorbing a power law", "statement": "A rule moved to absorb a power law is the given rule after the change of variable that flattens the power law: multiples of the power law are integrated exactly if the given rule integrates constants exactly.", "quantifier": "every index, every rule with positive limits", "why_tests_cant": "holds for all real indices; sampled indices miss the branch near 1", "anchors": ["expt/integrate/composite.py: PLMapQuad"]}
{"id": "C143", "title": "Rules absorbing an exponential", "statement": "A rule moved to absorb an exponential is the given rule after the change of variable that flattens the exponential: multiples of the exponential are integrated exactly if the given rule integrates constants exactly.", "quantifier": "every nonzero slope, every rule", "why_tests_cant": "two branches depending on the sizes of transformed limits have to agree for all slopes and limits", "anchors": ["expt/integrate/composite.py: ExpMapQuad"]}
{"id": "C144", "title": "Composite quadrature", "statement": "A composite rule is made of contiguous rules only, evaluates the integrand once at each distinct node, and returns the sum of the values of its rules, with and without a factor: the integral over the whole interval if every rule is exact for the integrand.", "quantifier": "every list of rules, given as objects or as nodes and weights, every integrand and factor, every later change of the rules", "why_tests_cant": "shared boundary nodes shift the place where the values of each rule start; errors show only for particular lists of open and closed rules", "anchors": ["expt/integrate/composite.py: CompositeQuad"]}
{"id": "C145", "title": "Transitions of the finite state machine", "statement": "After any history of calls, a symbol is handled by the last transition defined for the symbol in the current state, else for the state, else by the default, else ExceptionFSM is raised and the state kept; the action runs once with the symbol, and if it raises the state is kept. get_transition tells this for the state it is given.", "quantifier": "every history of definitions, resets and processed symbols, every symbol", "why_tests_cant": "which definition wins depends on the whole history of definitions and on the state reached", "anchors": ["sandbox/integrate/fsm.py: FSM"]}
{"id": "C146", "title": "Reverse Polish calculator", "statement": "The calculator of the example prints the values of the expressions it is given in reverse Polish notation, one per equals sign; a division by zero raises ZeroDivisionError before anything is printed for the expression.", "quantifier": "every sequence of expressions of any depth, every notation of them", "why_tests_cant": "expressions nest to any depth and separators vary", "anchors": ["sandbox/integrate/fsm.py: example, DoOperator, EndBuildNumber"]}
{"id": "C147", "title": "State machine with transition actions", "statement": "From the state it is started in, each input is handled by the last transition added for the state and the input, else for the state and None, the action being called before the state changes; an input without a transition raises an error of the machine.", "quantifier": "every list of transitions and every sequence of inputs", "why_tests_cant": "the behaviour depends on the order transitions were added in and on all inputs so far", "anchors": ["sandbox/integrate/fsm_sm.py: FSM"]}
{"id": "C148", "title": "Construction of a multivariate normal", "statement": "MVN(mu, covar) is made for every positive definite covariance, with the lower triangular factor whose product with its transpose is the covariance and the normalization of the normal density, and raises RuntimeError for every other symmetric matrix; only the upper triangle is read; giving both a covariance and an inverse raises ValueError, giving neither means the unit matrix; giving the inverse is the same as giving the covariance that it is the inverse of.", "quantifier": "every dimension and every symmetric matrix", "why_tests_cant": "the decomposition loops over dimensions and its success depends on all entries", "anchors": ["expt/mc/mvnt.py: MVN.__init__", "expt/mc/_mvnt.f: mvnini, chol"]}
{"id": "C149", "title": "Samples and density of a multivariate normal", "statement": "Given independent standard normal deviates, MVN.sample returns a vector whose law has exactly the density returned by pdf, the normal density with the mean and covariance given; sample_q returns the same sample with its quadratic form, and pdfq of that form is pdf of the sample.", "quantifier": "every dimension, mean, positive definite covariance and point", "why_tests_cant": "a law is a statement about all outcomes; tests see finitely many samples", "anchors": ["expt/mc/mvnt.py: MVN.sample, MVN.pdf, MVN.sample_q, MVN.pdfq", "expt/mc/_mvnt.f: mvnsamp, mvnsampq, mvnden, mvnqform"]}
{"id": "C150", "title": "Construction of a multivariate t", "statement": "MVT(nu, mu, hess) is made for every positive definite Hessian matrix, its scale matrix being (n + nu)/nu times the inverse of the Hessian matrix, and raises RuntimeError for every other symmetric matrix; the Hessian matrix given is left as it was and kept.", "quantifier": "every dimension, number of degrees of freedom and symmetric matrix, every earlier use of the table of gamma functions", "why_tests_cant": "the inversion and decomposition loop over dimensions and depend on all entries", "anchors": ["expt/mc/mvnt.py: MVT.__init__", "expt/mc/_mvnt.f: mvtini, invert, chol"]}
{"id": "C151", "title": "Samples and density of a multivariate t", "statement": "Given independent standard normal deviates and a gamma deviate, MVT.sample returns a vector whose law is the t distribution with the scale matrix of the object; pdf is its density within 1 part in 1e7; sample_q returns the same sample with its quadratic form.", "quantifier": "every dimension, degrees of freedom, mean, positive definite matrix and point", "why_tests_cant": "a law is a statement about all outcomes; the normalization uses a table of gamma functions that grows with calls", "anchors": ["expt/mc/mvnt.py: MVT.sample, MVT.pdf, MVT.sample_q, MVT.pdfq", "expt/mc/_mvnt.f: mvtsamp, mvtden, mvtdenq"]}
{"id": "C152", "title": "Multivariate normal kernel density estimate", "statement": "MVNKDE(nodes, scale, covar): after any calls of set_node, the law of sample is the equal mixture of normals around the current nodes with scale squared times the covariance, and pdf is its density; exactly one of covariance and inverse must be given, and what is not positive definite raises RuntimeError.", "quantifier": "every number of nodes, dimension, positive scale, positive definite covariance and history of node changes", "why_tests_cant": "nodes are kept twice and changed by any history of calls; a law is a statement about all outcomes", "anchors": ["expt/mc/mvnt.py: MVNKDE", "expt/mc/_mvnt.f: mvnkde"]}
{"id": "C153", "title": "Gamma functions of half integers", "statement": "hgamma(n) is the gamma function of n/2 within 4 parts in 1e8 for every n, exactly for even n up to 64, whatever calls came before.", "quantifier": "every n and every history of calls that extend the table", "why_tests_cant": "the function saves a table between calls and switches to an approximation above 64", "anchors": ["expt/mc/_mvnt.f: hgamma, gammln"]}
{"id": "C154", "title": "Romberg quadrature of the cosmology module", "statement": "The integrals behind the cosmological distances (QROMB) return 0 for equal limits and otherwise an extrapolation from at most 20 successively halved trapezoid rules whose error estimate is within the tolerance asked for, with a message if it is not; polynomials of degree up to nine are integrated exactly; the value is near the integral.", "quantifier": "every integrand, limits in any order, tolerance and content of the saved variables", "why_tests_cant": "how far the loop goes depends on all values of the integrand; exactness is a statement about all polynomials", "anchors": ["expt/signals/_cosmo.f: QROMB, TRAPZD, POLINT"]}
{"id": "C155", "title": "The recursive Romberg integrator", "statement": "romberg(f, a, b, eps) returns the extrapolation from trapezoid rules with 1, 2, 4, ... panels; for polynomials it always returns, after a number of rows bounded by the degree; the error of the value is below eps.", "quantifier": "every function, limits and accuracy", "why_tests_cant": "termination and the error concern all functions", "anchors": ["sandbox/integrate/romberg.py: romberg"]}
{"id": "C156", "title": "Romberg's method in C", "statement": "Rombergs_Integration_Method returns the extrapolation from the trapezoid rules with as many columns as allowed or needed, sets err to 0 exactly if the last change is below the tolerance and to -1 if the columns are used up, and integrates polynomials of degree three exactly; its table of factors is right to 19 digits.", "quantifier": "every function, interval, tolerance and number of columns", "why_tests_cant": "the number of columns used depends on all values", "anchors": ["sandbox/integrate/rombergs_method.c: Rombergs_Integration_Method"]}
{"id": "C157", "title": "Cosmology objects do not disturb each other", "statement": "The results of ldist, mu, vol_elem, dlbt and dage depend on the parameters of the object and the redshift only, not on which methods of which other objects were called before, although all share one set of Fortran common blocks; a vector of redshifts gives the vector of the single values; the distance modulus is that of the luminosity distance.", "quantifier": "every object, redshift and history of calls on any objects", "why_tests_cant": "it must hold for all histories of calls", "anchors": ["expt/signals/cosmology.py: Cosmology, StdCdlCosmology", "expt/signals/_cosmo.f: set_frw_cosmo, ldist, nldist, mu_z, vol_elem, dlbt_z, dage"]}
{"id": "C158", "title": "Distances, times and volumes of a curved universe", "statement": "ldist is the luminosity distance of the Friedmann-Robertson-Walker universe with the densities given: the transverse distance M = ldist H0/(c (1+z)) is 0 at z = 0 and satisfies M'^2 E^2 = 1 + Omega_k M^2; dlbt is the time since redshift z and dage the age, so that the age is the lookback time to any z and the age then; vol_elem is the comoving volume (c/H0)^3 M^2/E.", "quantifier": "every h, densities of matter and vacuum, open, flat or closed, and redshift", "why_tests_cant": "an identity between functions over a continuum of universes and redshifts", "anchors": ["expt/signals/cosmology.py: Cosmology.ldist, Cosmology.vol_elem, Cosmology.dlbt, Cosmology.dage", "expt/signals/_cosmo.f: ldist, vol_elem, dlbt_z, dage, dd_l_ig, lbt_ig, age_ig"]}
{"id": "C159", "title": "Redshift of a standard candle", "statement": "StdCdlCosmology.flux2z(F) returns the redshift at which the luminosity distance of the object's cosmology gives the flux F for the luminosity set, to one part in ten thousand; without a luminosity an exception is raised.", "quantifier": "every cosmology, luminosity, flux and history of calls on any objects", "why_tests_cant": "the iterations and the shared state range over unbounded histories", "anchors": ["expt/signals/cosmology.py: StdCdlCosmology.flux2z, StdCdlCosmology.set_lum", "expt/signals/_cosmo.f: flux2z, coord_int, E_Hub"]}
{"id": "C160", "title": "Detection efficiencies of surveys", "statement": "For every type of survey with an amplitude between 0 and 1 and positive widths, the detection efficiency eta(m) lies between 0 and 1 and never increases with magnitude.", "quantifier": "every efficiency type, every admissible parameter set, every magnitude", "why_tests_cant": "the bound must hold at every real magnitude for ten functional forms with free parameters", "anchors": ["sandbox/integrate/tnolike.f: eta", "sandbox/integrate/tnolike.f: read_survey"]}
{"id": "C161", "title": "Normalisation and slope of the magnitude distributions", "statement": "After set_params, sigma(m) has the documented normalisation and slopes: model 1 has one object per unit area brighter than m_0, models 3 and 4 have the given number below the cutoff, models 5 to 7 have the given density at magnitude 23, and exponents count decades per magnitude.", "quantifier": "every parameter set and magnitude", "why_tests_cant": "integrals and derivatives of the density for all parameters; a test compares a few values", "anchors": ["sandbox/integrate/tnolike.f: set_params", "sandbox/integrate/tnolike.f: sigma"]}
{"id": "C162", "title": "Derivatives of the magnitude distribution", "statement": "sigma_d returns the density of sigma and its derivatives by the parameters.", "quantifier": "every parameter set and magnitude", "why_tests_cant": "a derivative is a limit; finite differences at sample points cannot settle it", "anchors": ["sandbox/integrate/tnolike.f: sigma_d"]}
{"id": "C163", "title": "Expected number of detected objects", "statement": "With exact quadrature N_exp() is the area of the survey times the integral of efficiency times density between the magnitude limits, whatever the efficiency and wherever its break points lie, and is always a number for a survey that read_survey accepted.", "quantifier": "every positive continuous density, every accepted survey, all limits", "why_tests_cant": "pieces and an exponential substitution chosen from the integrand must add up for all of them", "anchors": ["sandbox/integrate/tnolike.f: N_exp", "sandbox/integrate/tnolike.f: N_exp_rng", "sandbox/integrate/tnolike.f: N_exp_tignd"]}
{"id": "C164", "title": "Joint log likelihood of surveys", "statement": "ljlike() is the sum of the log likelihoods of the surveys, independent of the order in which they were read; scaling the density by c changes it by n log c - (c - 1) N, so the amplitude fits best where the expected number is the number seen; an uncertain object contributes a mean of densities.", "quantifier": "every list of surveys, every density, every scale factor", "why_tests_cant": "quantifies over all survey lists and densities", "anchors": ["sandbox/integrate/tnolike.f: ljlike", "sandbox/integrate/tnolike.f: olike", "sandbox/integrate/tnolike.f: set_quad"]}
{"id": "C165", "title": "Predicted cumulative distribution in wmodel", "statement": "The cumulative number that wmodel writes at each grid point is the integral of the predicted density from the first point, exact for piecewise exponential densities.", "quantifier": "every exponential density and equally spaced grid", "why_tests_cant": "must hold for every density and number of grid points", "anchors": ["sandbox/integrate/tnolike.f: wmodel"]}
{"id": "C166", "title": "Kolmogorov-Smirnov distance in wmodel", "statement": "The distance d that wmodel reports is the least upper bound, over all magnitudes, of the difference between the observed and the predicted cumulative fractions, also for tied data.", "quantifier": "every data set and every continuous non-decreasing predicted fraction", "why_tests_cant": "a supremum over the reals for all data", "anchors": ["sandbox/integrate/tnolike.f: wmodel"]}
{"id": "C167", "title": "Probability of the Kolmogorov-Smirnov distance", "statement": "probks(lambda) is within two millionths of the asymptotic tail probability 2 sum (-1)^(j-1) exp(-2 j^2 lambda^2), for every positive lambda, also where its series does not converge within a hundred terms; probks(0) is one.", "quantifier": "every non-negative lambda", "why_tests_cant": "the accuracy of a truncated alternating series and of its fallback over a continuum", "anchors": ["sandbox/integrate/tnolike.f: probks"]}
{"id": "C168", "title": "Average over the direction of a burst", "statement": "The quadrature over the direction of a burst (set_bqmu, d_quad) is an exact change of variables of the mean with respect to the Fisher density of concentration kappa: half the integral over the Gauss-Legendre interval at the transformed abscissas is that mean, the abscissas are direction cosines in order, and an isotropic rate is reproduced for any number of points.", "quantifier": "every concentration, every rate function, every rule", "why_tests_cant": "a change of variables for arbitrary integrands and concentrations", "anchors": ["sandbox/integrate/burst_quad.f: set_bqmu", "sandbox/integrate/burst_quad.f: d_quad", "sandbox/integrate/burst_quad.f: set_bqpts"]}
{"id": "C169", "title": "Concentration from the position uncertainty", "statement": "set_bqmu finds kappa such that 68.3 per cent of the Fisher distribution lies within the reported angular uncertainty, by Newton's iteration.", "quantifier": "every angle and every iterate", "why_tests_cant": "fixed points and derivatives over a continuum", "anchors": ["sandbox/integrate/burst_quad.f: set_bqmu"]}
{"id": "C170", "title": "Average over the flux of a burst", "statement": "F_quad and Flb_quad average the rate over the Gaussian flux uncertainty; a rate that does not depend on flux is reproduced (F_quad: divided by the solid angle of the sphere) for every number of flux points, including one.", "quantifier": "every rate, flux, uncertainty and rule", "why_tests_cant": "must hold for every rule length including the special case of one point", "anchors": ["sandbox/integrate/burst_quad.f: F_quad", "sandbox/integrate/burst_quad.f: Flb_quad"]}
{"id": "C171", "title": "Burg's autoregressive coefficients", "statement": "The coefficients that nxtarc finds order by order follow the Levinson recursion, the last of each order minimising the sum of squared forward and backward prediction errors; it lies between -1 and 1, the noise variance is never negative, never above the mean square and never grows with the order, and a result exists for every order below the length of the series.", "quantifier": "every series, every order", "why_tests_cant": "an optimality claim over all coefficients, by induction over all orders", "anchors": ["sandbox/odiag/output.f: nxtarc"]}
{"id": "C172", "title": "Choice of the autoregressive order", "statement": "bestar returns the lowest order of those up to 30 for which the documented criterion (Schwarz's) is least; correlation length and variance of the mean are those of that order, positive, and scale with the units of the series.", "quantifier": "every series, every scale", "why_tests_cant": "a minimum over all orders and an invariance under all scales", "anchors": ["sandbox/odiag/output.f: bestar"]}
{"id": "C173", "title": "Diagnosis of convergence", "statement": "odiag deletes the least of the fractions 0, 1/10, .., 1/2 for which the Cramer-von Mises statistic of the rest passes the test, reports failure only if all six fail, does not depend on units or origin, and gives a result for every series.", "quantifier": "every series, every unit and origin", "why_tests_cant": "must hold for every chain; the search depends on the whole series", "anchors": ["sandbox/odiag/output.f: odiag"]}
{"id": "C174", "title": "Spectral variance", "statement": "specvar pads to the least power of two, its values are the pairwise means of the periodogram of the deviations from the mean, no element outside the workspace is used, the variance scales with the units of the series squared, is positive when computed, and zero is returned for series shorter than 200.", "quantifier": "every series of every length", "why_tests_cant": "identities of the Fourier transform for every length and series", "anchors": ["sandbox/odiag/output.f: specvar"]}
{"id": "C175", "title": "Enumeration of moments", "statement": "The moments program numbers the terms x^m y^n of two parameters by order, each once and all up to the order requested, and likewise the powers of one parameter.", "quantifier": "every order, every term", "why_tests_cant": "an enumeration of infinitely many terms", "anchors": ["sandbox/odiag/moments.f: cfuns", "sandbox/odiag/moments.f: moments"]}
{"id": "C176", "title": "Runs and samples used for moments", "statement": "Only runs in equilibrium are used; the samples kept of a run are those at multiples of a spacing no shorter than the correlation length and fit into the workspace; the moment written is the mean over runs, its uncertainty that of the mean, and the order written is the one requested.", "quantifier": "every number and pattern of runs, every length and correlation length", "why_tests_cant": "depends on the whole pattern of runs and on arithmetic of lengths", "anchors": ["sandbox/odiag/moments.f: moments"]}
{"id": "C177", "title": "Autocorrelations of a chain", "statement": "The autocorrelation at lag zero is one, no autocorrelation exceeds one in magnitude, none depends on units or origin, the variances written are not negative, and the direct and the transform method agree.", "quantifier": "every series, every lag", "why_tests_cant": "Cauchy-Schwarz over all series and an identity over all lengths", "anchors": ["sandbox/odiag/corr.f: corr", "sandbox/odiag/corr0.f: corr0", "sandbox/odiag/fcorr.f: fcorr", "sandbox/odiag/acorr.f: acorr"]}
{"id": "C178", "title": "Binned samples", "statement": "Each sample in the closed range is counted in the bin that contains it, and the bins together contain all of them; samples outside the range are not counted.", "quantifier": "every range, number of bins and list of samples", "why_tests_cant": "boundaries of bins for all reals", "anchors": ["sandbox/odiag/bint.f: bint"]}
{"id": "C179", "title": "Recorded deletions", "statement": "The time that diag records for a parameter is that of the last sample deleted, the whole run for a parameter that is not stationary, and moments reads back from these times the largest number of samples that any parameter requires to be deleted.", "quantifier": "every interval, run length and pattern of deletions", "why_tests_cant": "a round trip between two programs for all lengths", "anchors": ["sandbox/odiag/diag.f: diag", "sandbox/odiag/moments.f: moments"]}
{"id": "C180", "title": "Distances along a line of sight through a spherical shell", "statement": "r_range_1 and r_range_2 return exactly the ranges of distance in which a line of sight is between the boundaries of the spherical distribution, in order and without overlap, and the density is that of the model throughout.", "quantifier": "every position of the observer, every direction, every pair of boundaries", "why_tests_cant": "geometry over a continuum of positions and directions with nine branches", "anchors": ["sandbox/integrate/spatial.f: r_range_1", "sandbox/integrate/spatial.f: r_range_2", "sandbox/integrate/spatial.f: dn_dV"]}
{"id": "C181", "title": "Distances along a line of sight through a spheroidal shell", "statement": "r_range_1 and r_range_2 return exactly the ranges of distance in which a line of sight is between the boundaries of the oblate spheroid.", "quantifier": "every eccentricity, position of the observer and direction", "why_tests_cant": "geometry over a continuum; failures are confined to directions a test may not try", "anchors": ["sandbox/integrate/spatial.f: r_range_1", "sandbox/integrate/spatial.f: r_range_2"]}
{"id": "C182", "title": "Nearest point and range of directions", "statement": "r_min is the distance to the nearest point of the distribution, and mu_range contains all directions in which it is seen.", "quantifier": "every eccentricity, position and pair of boundaries", "why_tests_cant": "a minimum over all points of a body", "anchors": ["sandbox/integrate/spatial.f: r_min", "sandbox/integrate/spatial.f: mu_range"]}
{"id": "C183", "title": "Energy distribution of bursts", "statement": "E_dist is a normalised power law between its limits for every slope; the alternative parameters keep the limits they describe; only models that exist are accepted, and those always.", "quantifier": "every slope, pair of limits, model number and history of choices", "why_tests_cant": "an integral for every slope and limits", "anchors": ["sandbox/integrate/spatial.f: E_dist", "sandbox/integrate/spatial.f: set_E_par", "sandbox/integrate/spatial.f: set_n_mod", "sandbox/integrate/spatial.f: set_n_par"]}
{"id": "C184", "title": "Burst rate per flux and solid angle", "statement": "dn_dSdO is, with an exact quadrature, the integral over energies of the distribution times density times r^2 |dr/dS| over both ranges of distance, independent of the power law used for the change of variables; a homogeneous distribution gives the -5/2 law.", "quantifier": "every flux, direction, distribution and exponent of the transformation", "why_tests_cant": "an identity of integrals for all functions and exponents", "anchors": ["sandbox/integrate/spatial.f: dn_dSdO", "sandbox/integrate/spatial.f: i_dSdO"]}
{"id": "C185", "title": "Burst rate per solid angle above a flux", "statement": "dn_dO is, with exact quadratures, the integral over energies of the distribution times the column of bursts brighter than the limit, over both ranges of distance, including lines of sight that miss the distribution.", "quantifier": "every flux limit, direction, distribution and exponent", "why_tests_cant": "an identity of iterated integrals with early exits", "anchors": ["sandbox/integrate/spatial.f: dn_dO", "sandbox/integrate/spatial.f: oromb", "sandbox/integrate/spatial.f: inner"]}
{"id": "C186", "title": "Distance in a matter-dominated cosmology", "statement": "d_prop is the transverse comoving distance of a matter-dominated universe: zero at redshift zero, positive beyond, a solution of Friedmann's equation for the given density, and the logarithmic derivative used for standard candles is its derivative.", "quantifier": "every positive density and Hubble constant, every redshift", "why_tests_cant": "a differential equation for all redshifts and densities", "anchors": ["sandbox/integrate/cosmo.f: d_prop", "sandbox/integrate/cosmo.f: scdR_dOdC"]}
{"id": "C187", "title": "Fraction of a redshifted spectrum in the detector's band", "statement": "F_spec is the fraction of the photons of a power-law spectrum with cutoffs that fall in the band of the detector after redshift.", "quantifier": "every index, pair of cutoffs, band and redshift", "why_tests_cant": "an integral over a band whose limits depend on the redshift; errors are confined to redshifts past the cutoff", "anchors": ["sandbox/integrate/cosmo.f: F_spec", "sandbox/integrate/cosmo.f: set_spec"]}
{"id": "C188", "title": "Luminosity function and burst rate per redshift", "statement": "set_lfun normalises the luminosity function for every slope; cdR_dz is the volume and time factor times the fraction of bursts luminous enough to be seen, and agrees with the integrand of cdR_dOdC.", "quantifier": "every slope, range of luminosities, redshift and limiting count rate", "why_tests_cant": "integrals and derivatives for all slopes", "anchors": ["sandbox/integrate/cosmo.f: set_lfun", "sandbox/integrate/cosmo.f: cdR_dz", "sandbox/integrate/cosmo.f: dR_intgd"]}
{"id": "C189", "title": "Burst rate per count rate and solid angle in a cosmology", "statement": "cdR_dOdC is, with an exact quadrature, 4 pi n0 c/H times the integral over the allowed redshifts, independent of the transformation and of where the range is split; for standard candles the rate is divided by the derivative of their count rate with respect to redshift.", "quantifier": "every continuous integrand, slope, split and redshift range", "why_tests_cant": "identity of integrals for all functions and of derivatives for all redshifts", "anchors": ["sandbox/integrate/cosmo.f: cdR_dOdC", "sandbox/integrate/cosmo.f: scdR_dOdC", "sandbox/integrate/cosmo.f: scdR_dz"]}
{"id": "C190", "title": "Range of redshifts in which bursts are seen", "statement": "The redshifts z_range returns put the luminosity seen at the given count rate within one part in 10000 of the limits of the luminosity function, and never exceed the cutoff.", "quantifier": "every distance and spectrum function, start and number of iterations", "why_tests_cant": "the accuracy on return must hold for every run of the iterations", "anchors": ["sandbox/integrate/cosmo.f: z_range", "sandbox/integrate/cosmo.f: scdR_dOdC"]}
{"id": "C191", "title": "Grid of fluxes", "statement": "set_Fgrid makes a strictly increasing grid with the number of points asked for that starts at the lower limit and passes through the threshold and the other limits; anything else is refused.", "quantifier": "every triple of limits, threshold, numbers of points and every monotone stepping", "why_tests_cant": "orderings for all numbers of points and limits", "anchors": ["sandbox/integrate/lkcalc.f: set_Fgrid"]}
{"id": "C192", "title": "Interpolation of the rate between grid fluxes", "statement": "dR_dF returns the rates of the grid at its points, power laws between them and above the last, values between those of the neighbours, and zero below the lower limit.", "quantifier": "every increasing grid of any length, every flux", "why_tests_cant": "a bisection over grids of every length", "anchors": ["sandbox/integrate/lkcalc.f: dR_dF", "sandbox/integrate/lkcalc.f: dR_dF_2", "sandbox/integrate/lkcalc.f: lksetup"]}
{"id": "C193", "title": "Effective burst rate on the grid", "statement": "The effective rate is the integral over the grid of the function through its points that is a power law wherever both values are nonzero; it is exact for power laws and scales with the rates.", "quantifier": "every increasing grid of any length, every set of rates", "why_tests_cant": "an integral for every number of points and all values", "anchors": ["sandbox/integrate/lkcalc.f: lksetup"]}
{"id": "C194", "title": "Burst rate above the grid", "statement": "The contribution of fluxes above the grid is the integral to infinity of the power law through its last points; it is refused exactly if that integral does not exist; evaluating again does not change the totals.", "quantifier": "every pair of last points, every number of evaluations", "why_tests_cant": "an improper integral for all slopes, and every number of evaluations", "anchors": ["sandbox/integrate/lkcalc.f: lksetup", "sandbox/integrate/lkcalc.f: moments"]}
{"id": "C195", "title": "Likelihood of a burst distribution", "statement": "The full likelihood is that of a Poisson process; the marginal one is the full one integrated over the scale of the rates with a Jeffreys prior, up to a constant, and does not depend on the scale; the scale written is the most probable; superpositions are mixtures with the weights asked for.", "quantifier": "every set of bursts, rates, scale and mixture fraction", "why_tests_cant": "an integral over all scales and a maximum over them", "anchors": ["sandbox/integrate/lkcalc.f: ljlike", "sandbox/integrate/lkcalc.f: bquad", "sandbox/integrate/lkcalc.f: modout"]}
{"id": "C196", "title": "Reuse of a calculated likelihood", "statement": "In every history in which changes of parameters are announced, ljlike returns the likelihood of the parameters and type in force, whatever it reuses.", "quantifier": "every history of changes, announcements and evaluations", "why_tests_cant": "histories of every length", "anchors": ["sandbox/integrate/lkcalc.f: newpar", "sandbox/integrate/lkcalc.f: lkreset", "sandbox/integrate/lkcalc.f: set_ltype", "sandbox/integrate/lkcalc.f: ljlike"]}
{"id": "C197", "title": "Angular moments of a burst distribution", "statement": "The total dipole and quadrupole moments are averages of those at the fluxes of the grid: a constant anisotropy is returned unchanged and totals lie within the range of the moments.", "quantifier": "every grid, efficiency and anisotropy", "why_tests_cant": "averages over grids of every length", "anchors": ["sandbox/integrate/lkcalc.f: moments"]}
{"id": "C198", "title": "Cumulative distribution written with a model", "statement": "The cumulative distribution wmodel writes is the fraction of the effective rate above each flux: it starts at one, ends at zero and never increases, with the contributions lksetup uses.", "quantifier": "every grid and set of rates", "why_tests_cant": "sums over grids of every length", "anchors": ["sandbox/integrate/lkcalc.f: wmodel"]}
{"id": "C199", "title": "agrid's global likelihood is the trapezoid rule over its grids", "statement": "The logarithm of the global likelihood printed by agrid is that of the prior density times the sum over the grids of the trapezoid rule for the likelihood, less at most e^-200 of the mode over the range; adding a constant to the log likelihoods adds it to the result; a constant likelihood is its own average over the range covered", "quantifier": "every list of 1-d or 2-d grids of log likelihoods, linear or logarithmic axes, with or without flat prior", "why_tests_cant": "sums over grids of any number and size; a test would compare one grid", "anchors": ["expt/grid/agrid.f: agrid"]}
{"id": "C200", "title": "agrid's credible level is the one above which the wanted fraction lies", "statement": "The content above a level never increases with the level, is between zero and the total, and is the total below the posterior and zero at the mode; the function whose root agrid finds vanishes exactly where the content is the wanted fraction, never increases, is positive below the posterior and negative from the mode on", "quantifier": "every list of grids, level and fraction between 0 and 1", "why_tests_cant": "monotonicity over all pairs of levels", "anchors": ["expt/grid/agrid.f: lratio, qgt"]}
{"id": "C201", "title": "The boundaries of the credible region that agrid prints are where the posterior meets the level", "statement": "The boundaries printed by agrid for a 1-d grid come in increasing order, and at each the logarithm of the posterior, interpolated linearly between the points in the coordinate of the axis, is the critical level", "quantifier": "every grid, level and kind of axis", "why_tests_cant": "a condition on every crossing of every sequence of values", "anchors": ["expt/grid/agrid.f: agrid, xvalues"]}
{"id": "C202", "title": "nhess returns minus the matrix of second derivatives at the mode", "statement": "For nonzero steps the equations of nhess have exactly one solution whatever the function, and the matrix is symmetric and that of the one-sided second differences of log f; if log f is quadratic about the mode given, it is exactly minus the matrix of second derivatives", "quantifier": "every number of parameters, positive function, point and steps", "why_tests_cant": "uniqueness of the solution of a system of N(N+1)/2 equations for every N", "anchors": ["expt/deriv/flotsam/derivs.f: nhess"]}
{"id": "C203", "title": "rk_fill writes the bytes of the stream and rk_randomseed never leaves a dead generator", "statement": "From a valid state rk_fill writes exactly the number of bytes asked for, which are the bytes, low ones first, of the successive 32-bit words of MT19937, taking only the words needed; a longer buffer begins with a shorter one; after rk_randomseed, whatever the device or the clocks give, the generator does not degenerate", "quantifier": "every valid state, buffer size, device content and clock reading", "why_tests_cant": "buffer sizes and device contents are unbounded", "anchors": ["package/inference/mc/randomkit.c: rk_fill, rk_randomseed, rk_hash"]}
{"id": "C204", "title": "rk_gauss gives independent standard normal deviates in pairs", "statement": "Deviates come in pairs from the first point inside the unit circle that the stream gives, the second without taking words; for a point uniform over the disc the pair has the density of two independent standard normal numbers; no deviate exceeds 12.01 in absolute value; the deviates that follow a seed or a restored state depend on nothing else", "quantifier": "every valid state; every measurable function of the pair", "why_tests_cant": "a distribution over a continuum of points cannot be settled by samples", "anchors": ["package/inference/mc/randomkit.c: rk_gauss, rk_seed; package/inference/mc/_ppssampler.c: set_rng_state"]}
{"id": "C205", "title": "Sigma levels of a two-dimensional normal distribution are exact", "statement": "sig2prob(2, s) of the grid modules is the probability a standard two-dimensional normal distribution gives to the disc of radius s; prob2sig(2, p) is the radius whose disc has probability p, the two functions are inverse to each other, and prob2dens gives the density drop at that radius.", "quantifier": "All numbers of sigma s >= 0 and all probabilities in [0,1).", "why_tests_cant": "Equality with an integral over the plane for every radius is an analytic fact; a test compares decimals at a few radii.", "anchors": ["package/inference/grid/hpd.py:sig2prob", "package/inference/grid/hpd.py:prob2sig", "package/inference/grid/hpd.py:prob2dens", "package/inference/grid/hpdgrid.py:sig2prob"]}
{"id": "C206", "title": "check(percent) tells whether a varying parameter is away from the ends of its range", "statement": "After any history of operations, check(percent) on a varying parameter returns True exactly if the value is at least that percentage of the range away from both ends; a larger percentage is stricter, none over 50 is met, and after setting the unbounded transform to u it is True exactly if |u| <= log((100-percent)/percent). For parameters that do not vary it raises RuntimeError.", "quantifier": "All histories of operations on an inference, all parameters, ranges, values and percentages.", "why_tests_cant": "The state is reached by arbitrary histories of operations and the equivalence with the unbounded transform ranges over all reals.", "anchors": ["package/inference/pie/realparam.py:check", "package/inference/pie/realparam.py:_unbounded_set_value"]}
{"id": "C207", "title": "Velocity curves and data folded at the period agree", "statement": "phaseCurve writes a curve of n velocities at equally spaced phases from -1/2 to 3/2, each that of the Keplerian orbit within the tolerance set, and every datum at its phase in [0,1); the curve at that phase has the velocity the datum is compared with, and the chi-squared returned is the sum of squared residuals over the standard deviations, never negative and zero exactly if the curve goes through all data.", "quantifier": "All orbits, amplitudes, data sets, times, numbers of points and standard deviations.", "why_tests_cant": "Periodicity and accuracy must hold at every time and for every orbit; a plot or a test covers a few.", "anchors": ["expt/signals/kepler_vec.py:phaseCurve", "expt/signals/kepler_vec.py:Kepler_setup", "expt/signals/fkeplermodule-Tp.c:t2TA"]}
{"id": "C208", "title": "Integrands mapped to another argument have the same integral", "statement": "The maps y_x and x_y of the exponential and power law examples are inverse to each other, and the mapped integrand has between the mapped limits the integral of the original between the original limits, whatever the parameters.", "quantifier": "All limits, ranges, slopes and exponents.", "why_tests_cant": "Equality of two integrals for all limits and parameters is an analytic fact; quadratures only approximate it at chosen values.", "anchors": ["expt/integrate/exp_map.py:rexp_map", "expt/integrate/exp_map.py:y_x", "expt/integrate/pl_map.py:roll_map", "expt/integrate/pl_map.py:x_y"]}
{"id": "C209", "title": "Generators of selections, permutations and sign flips are complete and free of repetition", "statement": "xcomb yields every ordered selection of n items, xperm every permutation, xsubsets every subset of n items in order, in the numbers known for them and none twice if the items are distinct; flip_signs yields for non-negative numbers every choice of signs exactly once and leaves its argument as it was.", "quantifier": "All lists of items, all n, and all lists of non-negative numbers.", "why_tests_cant": "The number of cases grows factorially; a test enumerates small lists only.", "anchors": ["expt/integrate/make_ECF_rules.py:xcomb", "expt/integrate/make_ECF_rules.py:xsubsets", "expt/integrate/make_ECF_rules.py:xperm", "expt/integrate/make_ECF_rules.py:flip_signs"]}
{"id": "C210", "title": "Cubature rules made from descriptions have the symmetry and the number of points announced", "statement": "A rule made from fully symmetric, corner and origin generators contains each point obtained by permuting and reflecting coordinates exactly once, gives the same cubature for a function with its coordinates permuted and reflected, hence zero for odd functions; a rule of circles has the moments its rows prescribe, zero for every angular dependence that none of its polygons alias; a rule whose number of points is not the one announced is refused.", "quantifier": "All descriptions, dimensions, functions, symmetries and moments.", "why_tests_cant": "Invariance is claimed for every function and every symmetry, and moments for every degree; tests sample functions.", "anchors": ["expt/integrate/make_ECF_rules.py:_construct_fully_sym", "expt/integrate/make_ECF_rules.py:_construct_circ_sym", "expt/integrate/make_ECF_rules.py:cubature"]}
{"id": "C211", "title": "Odds for repetition weigh all ways to share the bursts among sources", "statement": "For three and four burst directions with uncertainties, rep4 writes for every shape of sharing (one pair, two pairs, a triple and one, all from one source) the average over all ways to share the bursts in that shape of the Bayes factor against all sources being different, within the accuracy of the factors, and it writes a result for every number of bursts up to four.", "quantifier": "All lists of bursts, positions, uncertainties and systematic errors.", "why_tests_cant": "The averages range over continuous directions and concentrations, and what uninitialised memory adds to them differs between machines, so that a test may pass by luck.", "anchors": ["expt/drxn/rep4.f:rep4", "expt/drxn/rep4.f:rep_3", "expt/drxn/rep4.f:rep_4", "expt/drxn/rep4.f:doublet_l", "expt/drxn/rep4.f:triplet_l", "expt/drxn/rep4.f:quadruplet_l"]}
{"id": "C212", "title": "Plots of functions of two arguments and of result grids show the values at the right points", "statement": "plot_bivar draws the contours of a log density less its greatest value at the pairs of arguments the values belong to, whichever index order is named; the contour at a level made from a probability encloses that probability of any bivariate normal distribution, and the default six those of one to six standard deviations; an image, if asked for, lies under the contours, crosshairs are drawn, and the value shown for a pointer is that of the nearest point of the grid. ScalarGrid.plot draws the stored values of one or two stepped parameters so, with the options asked for.", "quantifier": "All grids, values, index orders, levels, probabilities, normal distributions, pointer positions and options.", "why_tests_cant": "Enclosed probabilities are integrals over all normal distributions; alignment and nearest points must hold for every grid and pointer.", "anchors": ["package/inference/utils/plot_bivar.py:plot_bivar", "package/inference/utils/plot_bivar.py:normal_plevels", "package/inference/pie/containers.py:ScalarGrid.plot"]}
{"id": "C213", "title": "Parameters known by name", "statement": "Asking again for a parameter by its name gives the same parameter, and calls about other names never change it. A value that is accepted is the value read afterwards and lies in the range; one that is refused changes nothing. A parameter that steps takes the values lo + j(hi-lo)/(n-1), or lo (hi/lo)^(j/(n-1)), ends exactly at hi, and refuses to go on. Dependents that know the status when they are added know it ever after from what they are told, and hear of values too. A default value, also zero, can be read. A varying parameter can be read and set on the unbounded scale.", "quantifier": "all histories of calls on any parameters, all names, values, ranges, numbers of steps and dependents", "why_tests_cant": "histories, names and numbers of steps are unbounded, and the defects need a zero, a dependent or an order of calls", "anchors": ["expt/pie/Parameters.py: Parameter, allParams"]}
{"id": "C214", "title": "Predictors with parameters of their own", "statement": "After any changes of any parameters, a parameter given to a predictor and read through it has the value it has in the owner; what is not a parameter is read as it was given; names it does not have are an AttributeError. After an exception of the owner, the next accepted change makes all copies right.", "quantifier": "all predictors with any parameters, all histories of changes, all reactions of the owner", "why_tests_cant": "the copies could be stale after some history or exception; histories are unbounded", "anchors": ["expt/pie/predictorParams.py: TestPredictor, TestHandler", "package/inference/pie/param.py: _set_value"]}
{"id": "C215", "title": "The sampler of populations keeps to its memory", "statement": "Whatever samples and subsets are asked of a population, in whatever order, the compiled sampler never reads through a null pointer, beyond the end of an array or in memory it gave back, never gives memory back twice, and gives back all of it when the population is deleted. As written this fails: an empty subset of a new population reads through a null pointer, weights without a positive sum make the constructor release the sampler twice, accelerated subsets of changing sizes leak their tables without bound, methods called out of order read through null pointers or beyond the weights, and every preparation of weights or ratios loses a reference to an array.", "quantifier": "all weights and all finite histories of calls for samples, subsets and accelerated subsets, and all sequences of the methods of the compiled sampler with all arguments", "why_tests_cant": "leaks and faults depend on whole histories of calls and sizes; a test sees one history, and use of freed memory often goes unnoticed", "anchors": ["package/inference/mc/_ppssampler.c:PPSSampler", "package/inference/mc/sampford.c:SampfordPPSSetup", "package/inference/mc/compact5table.c:ResamplerDestroy", "package/inference/mc/population.py:Population"]}
{"id": "C216", "title": "The compiled counting routines check what Python gives them", "statement": "Called from Python with any numbers and any vectors, the compiled counting routines either raise or compute with exactly the counts they were given, never touch memory outside their arrays, and the vector routines give the results of the scalar routines element by element including their errors. As written this fails: a count of minus one on source writes before the result, counts are cut to whole numbers and taken modulo 2**32 without a word, and the vector likelihood drops the error flags and returns elements that were never set.", "quantifier": "all counts, intervals, vectors of all lengths, optional lengths, and all contents of memory", "why_tests_cant": "bounds and conversions have to hold for every integer and every length; stray writes often go unnoticed", "anchors": ["package/inference/count/_cbmlikemodule.c:f2py_rout__cbmlike_sigctp", "package/inference/count/_cbmlikemodule.c:int_from_pyobj", "package/inference/count/_cbmlike.f:vslmlike", "package/inference/count/_cbmlike.f:vslml_offset"]}
{"id": "C217", "title": "A snapshot container returns what was first stored under each name", "statement": "After any sequence of store calls on a new ParamValues, reading a name as an attribute gives the value of its first store; storing a name again raises ParamError and changes nothing; str() prints one line per name in the order of the first stores with the value and the documentation.", "quantifier": "all sequences of store calls (including failing ones) with any names, docs and values", "why_tests_cant": "Unit tests try a few names; the container keeps its own list, dictionary and method in the same namespace as the values, so that the claim depends on every name that may occur", "anchors": ["package/inference/pie/containers.py: ParamValues.store, ParamValues.__str__"]}
{"id": "C218", "title": "Bytes and seeds from the random device are complete or entirely from the fallback", "statement": "rk_altfill leaves in the buffer either exactly the bytes of the device (returning no error) or exactly those of the generator (returning an error), never a mixture, and changes no memory outside; rk_randomseed makes its state from the device alone or from the clocks alone.", "quantifier": "all buffer sizes, all device behaviours (missing, failing after any number of bytes), all generator states", "why_tests_cant": "A device that fails in the middle of a read cannot be provoked by a unit test", "anchors": ["package/inference/mc/randomkit.c: rk_devfill, rk_altfill, rk_randomseed"]}
{"id": "C219", "title": "prepwts sorts the population by weight on every platform", "statement": "The indices that prepwts keeps and returns are all the items in order of decreasing weight, the weights returned are those of these items, and the total is the sum of all weights, whatever the width of pointers on the platform.", "quantifier": "all weights, all orders of equal weights, pointers of 32 and of 64 bits", "why_tests_cant": "A test runs on one platform, and on the wrong one some inputs give the right answer by accident", "anchors": ["package/inference/mc/_ppssampler.c: prepwts, IDATA; package/inference/mc/population.py: Population.subset_pps, Population.subset_pps5"]}
{"id": "C220", "title": "covar touches only the memory of its array", "statement": "For every array it accepts, covar reads and writes only elements of its own copy of the array, and takes element (i,j) of the array as element (i,j).", "quantifier": "all shapes of two-dimensional arrays", "why_tests_cant": "A read or write outside of an array often goes unnoticed in a test; the claim is about all shapes", "anchors": ["package/inference/gauss/vbamodule.c: vba_covar"]}
{"id": "C221", "title": "The quadrature above a level in logarithms gives the integral", "statement": "qgt1 returns a pair (amax, q) such that exp(amax)*q is the integral of the linear interpolant over the region where the integrand is above the level, computed without overflow by scaling with the largest value so far.", "quantifier": "all arrays of log values, all levels", "why_tests_cant": "The running scale makes the result depend on the whole history of the loop; tests look at one array", "anchors": ["expt/grid/qgt-slow.py: qgt1"]}
{"id": "C222", "title": "The compact five-table sampler draws each value with its probability", "statement": "Over the 2^30 integers that may be drawn, the number that give value k is exactly the integer probability stored for k; every draw reads inside the tables.", "quantifier": "all arrays of integer probabilities, all offsets, all generator states and numbers of calls", "why_tests_cant": "The number of integers is 2^30 and the arrays are arbitrary; the claim is an exact count, not a frequency", "anchors": ["expt/mc/5tbl.c: get5tbls, Dran, dg, PoissP, BinomP"]}
{"id": "C223", "title": "BinomP ends and stores the correctly rounded binomial probabilities", "statement": "For every n and p, BinomP ends, and the stored integers are the binomial probabilities in units of 2^-30, each rounded to nearest, of a run of values that includes the most probable one and stops only where the probability is below 2^-31.", "quantifier": "all numbers of trials, all probabilities between 0 and 1", "why_tests_cant": "The loop order depends on intermediate products; termination for all n and p cannot be tested", "anchors": ["expt/mc/5tbl.c: BinomP"]}
{"id": "C224", "title": "HyperGeometricP ends and stores the correctly rounded hypergeometric probabilities", "statement": "For every population and sample size it accepts, HyperGeometricP ends, writes only to the cells it allocated, and these hold the hypergeometric probabilities of a run of values in units of 2^-30, each rounded to nearest; values left out have a probability below 2^-31.", "quantifier": "all numbers of good and bad items, all sample sizes", "why_tests_cant": "The order of the factors depends on intermediate products, and the bad cases are at extremes no test tries", "anchors": ["expt/mc/5tbl.c: HyperGeometricP"]}
{"id": "C225", "title": "PoissP ends and stores the correctly rounded Poisson probabilities", "statement": "For every mean and after any earlier call, PoissP ends and stores the Poisson probabilities of a run of values in units of 2^-30, each rounded to nearest and each at the index of its value; values left out have a probability below 2^-31.", "quantifier": "all means, all earlier calls", "why_tests_cant": "Termination rests on a limit; static variables carry over from call to call, which a test of one call does not see", "anchors": ["expt/mc/5tbl.c: PoissP"]}
{"id": "C226", "title": "chisq is the chi-square distribution function", "statement": "For every number of degrees of freedom, chisq(z,n) is 0 for z up to 0, continuous there, and has the chi-square density with n degrees of freedom as its derivative for z above 0.", "quantifier": "all z, all numbers of degrees of freedom", "why_tests_cant": "Tables check single points; the claim identifies the function for every z and n", "anchors": ["expt/mc/5tbl.c: chisq, Phi, Dtest"]}
{"id": "C227", "title": "The series of Phi converges to the normal distribution function", "statement": "The value that Phi would return after k rounds of its loop differs from the standard normal distribution function at x by at most |x|^(2k+3)/((2k+1)!! sqrt(2 pi)), is never above it for x not negative, and converges to it; at 0 the loop ends at once with 1/2.", "quantifier": "all real x, all numbers of rounds", "why_tests_cant": "A table of values checks points; the bound and the limit are for all x and all rounds", "anchors": ["expt/mc/5tbl.c: Phi"]}
{"id": "C228", "title": "The pooled classes of the goodness-of-fit test keep everything", "statement": "Pooling the tails so that each end class has an expectation above 10 leaves the total expectation and the number of draws unchanged; all classes lie inside the arrays and there are at least two.", "quantifier": "all arrays of expectations, all sequences of values drawn", "why_tests_cant": "The pooling depends on all of the array; a test with one distribution sees one pooling", "anchors": ["expt/mc/5tbl.c: Dtest"]}
{"id": "C229", "title": "The quick information matrix from a simplex is exact on quadratics", "statement": "Given a quadratic log likelihood and a simplex with its vertices along the axes, the routine that estimates the information matrix from second differences over the simplex returns, after expanding the simplex where values are too close, minus the matrix of second derivatives.", "quantifier": "all quadratic functions, all dimensions, all simplices along the axes, all centres and expansion criteria", "why_tests_cant": "Whether the expansion loop ends and keeps the axes depends on all values on the simplex; a test with one function sees one expansion", "anchors": ["expt/deriv/flotsam/qdinfo-bad.f: qdinfol0"]}
{"id": "C230", "title": "Romberg integration with a given number of digits", "statement": "Q = rombint(F,A,B,DECIMALDIGITS) integrates with accuracy 10^-DECIMALDIGITS, for any limits: exactly for polynomials of low degree; every sample it uses is one it computed.", "quantifier": "all integrands, all limits, all numbers of digits", "why_tests_cant": "Each number of digits is another table with other indices; a test sees some integrands and a few sizes", "anchors": ["sandbox/integrate/rombint.m: rombint"]}
{"id": "C231", "title": "The fast Clenshaw-Curtis rule is exact", "statement": "fclencurt(N1,a,b) returns the N1 Clenshaw-Curtis nodes on [a,b], from b down to a, and weights that integrate every polynomial of degree below N1 exactly.", "quantifier": "all numbers of points from two on, all intervals, all polynomials of the degree", "why_tests_cant": "The weights come out of a Fourier transform of another length for each number of points; a test sees a few sizes and polynomials", "anchors": ["expt/integrate/fclencurt.m: fclencurt"]}
{"id": "C232", "title": "The fast Chebyshev transforms are inverse to each other", "statement": "fcgltran from nodal to spectral gives the coefficients of the Chebyshev series through the data at the nodes cos(k*pi/N), and fcgltran from spectral to nodal gives the values of the series at the nodes, so the two undo each other.", "quantifier": "all numbers of nodes from two on, all data", "why_tests_cant": "A test with smooth data has a negligible highest coefficient, the only one where the transforms disagree", "anchors": ["expt/integrate/fcgltran.m: fcgltran"]}
{"id": "C233", "title": "Scales for the second derivatives lower the log posterior by the amount asked for", "statement": "The routine that prepares the information matrix picks, for each parameter, a step from the mode at which the log posterior is lower by the requested amount to within its tolerance of 0.03, and never higher than at the mode; on a log posterior that is a parabola in each parameter the step is exact and found at once. A parameter the log posterior does not depend on must not hang the search (it does), and a rise at the first trial point stops the calculation.", "quantifier": "every log posterior, mode, number of parameters and requested drop", "why_tests_cant": "Whether a search by growth and Newton steps ends, and where, depends on the whole function; tests try a few smooth posteriors and never a flat direction.", "anchors": ["expt/deriv/flotsam/doinfo.f: doinfo"]}
{"id": "C234", "title": "Ockham factor is the volume under the Gaussian approximation", "statement": "The log Ockham factor returned with the information matrix is the logarithm of the integral of the Gaussian with that matrix, for any number of parameters, whether its determinant came from the Cholesky decomposition or from the eigenvalues; the flag for positive eigenvalues tells whether all are positive; the report's row for the transformed mode holds the transformed mode. (Eigenvalues that are not positive are left out and a finite factor returned; the flag is not set when the decomposition succeeds; the row holds the untransformed mode.)", "quantifier": "every number of parameters, set of eigenvalues, earlier value of the flag and transformation", "why_tests_cant": "The formula must hold for every matrix and the flag for every earlier content; tests use positive-definite matrices and fresh flags.", "anchors": ["expt/deriv/flotsam/doinfo.f: doinfo"]}
{"id": "C235", "title": "Log determinant kept as mantissa and exponent", "statement": "The Cholesky routine for the information matrix ends and returns the logarithm of the product of the squared diagonal elements, for any number of rows and however large or small the elements are: its running mantissa stays in [1/16, 1) after each row; an element that is not positive, in any row, gives failure and a log determinant of 0.", "quantifier": "every number of rows and all diagonal elements", "why_tests_cant": "Two unbounded loops rescale the mantissa; whether they end and keep the value must hold for every size of the product, and tests use matrices of moderate determinant.", "anchors": ["expt/deriv/flotsam/doinfo.f: choldet"]}
