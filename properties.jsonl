{"id": "C01", "title": "A completed propagation lands exactly on the requested epoch", "statement": "If for_duration / until_epoch (no stop condition) returns Ok, the returned state's epoch equals the start epoch plus the requested duration, for positive and for negative durations.", "quantifier": "every start epoch, every signed duration, every step size and step controller behaviour, every dynamics that may fail at any step", "why_tests_cant": "The truncated last step depends on the arithmetic relation between duration and an adaptively chosen step sequence; tests sample a handful of durations.", "anchors": ["nyx-core/src/propagators/instance.rs: PropInstance::propagate, for_duration, until_epoch"]}
{"id": "C02", "title": "Propagation never overshoots and publishes strictly monotone epochs", "statement": "Every state published on the channel during a completed forward (backward) propagation has an epoch strictly after (before) the previously published one, strictly past the start and not past the stop epoch; the last published state is the returned state.", "quantifier": "every start epoch, duration, step sequence chosen by the controller, either direction", "why_tests_cant": "An overshoot or a repeated epoch can happen only for particular step/duration ratios at any point of an unbounded step sequence.", "anchors": ["nyx-core/src/propagators/instance.rs: PropInstance::propagate, for_duration_with_channel"]}
{"id": "C03", "title": "Propagation terminates", "statement": "If every step the controller takes is at least m > 0 long (the minimum step of the options), a propagation over duration d makes at most |d|/m + 1 integrator calls and then returns.", "quantifier": "every duration, every step sequence bounded below by m, both directions", "why_tests_cant": "Non-termination is a liveness property over unbounded executions.", "anchors": ["nyx-core/src/propagators/instance.rs: PropInstance::propagate", "nyx-core/src/propagators/options.rs: IntegratorOptions"]}
{"id": "C04", "title": "A propagator instance is reusable after any propagation", "statement": "After for_duration/until_epoch returns (normally, on a stop condition, or with an error) the instance's step size has the sign it had before the call and the fixed/adaptive flag is unchanged, so a following propagation in either direction behaves like one from a fresh instance.", "quantifier": "every call history of forward/backward propagations, early stops and errors", "why_tests_cant": "State leaks between calls show only for particular sequences of calls and failure points.", "anchors": ["nyx-core/src/propagators/instance.rs: PropInstance::propagate, set_step, until_event"]}
{"id": "C05", "title": "A zero duration propagation is the identity", "statement": "for_duration(0) returns the current state, takes no integrator step, publishes nothing and leaves step size and flag unchanged.", "quantifier": "every state, step size, direction flag", "why_tests_cant": "Needs all configurations; an early branch could still mutate the instance.", "anchors": ["nyx-core/src/propagators/instance.rs: PropInstance::propagate"]}
{"id": "C06", "title": "Adaptive step control honours tolerance, minimum and maximum step", "statement": "When propagating forward with an adaptive step, an accepted step either meets the error tolerance, or is at the minimum step, or the allowed number of attempts has been used; the next step size is within [min_step, max_step].", "quantifier": "every error estimate sequence, every current step in range, every tolerance/attempt configuration", "why_tests_cant": "The controller is a feedback loop over arbitrary error estimates.", "anchors": ["nyx-core/src/propagators/instance.rs: PropInstance::derive", "nyx-core/src/propagators/options.rs: IntegratorOptions"]}
{"id": "C07", "title": "Backward adaptive propagation has the same error control as forward", "statement": "With an adaptive step, a backward step is accepted only if the tolerance is met, or the step magnitude is at the minimum, or the attempts are exhausted.", "quantifier": "every backward step and error estimate", "why_tests_cant": "Tests compare final states with loose tolerances and do not observe acceptance decisions.", "anchors": ["nyx-core/src/propagators/instance.rs: PropInstance::derive"]}
{"id": "C08", "title": "Each step uses a bounded number of attempts", "statement": "derive returns (or errors) after at most max(1, attempts) Runge-Kutta evaluations when propagating with any error estimates.", "quantifier": "every sequence of error estimates and step proposals", "why_tests_cant": "Termination of the retry loop over arbitrary estimates.", "anchors": ["nyx-core/src/propagators/instance.rs: PropInstance::derive"]}
{"id": "C09", "title": "The trajectory of a propagation does not depend on thread interleaving", "statement": "for_duration_with_traj returns a trajectory whose states are strictly increasing in epoch, contain the start and the final state and every intermediate state exactly once, and is the same for every order in which the receiving thread pool delivers the states.", "quantifier": "every delivery order (permutation) of the published states, every propagation", "why_tests_cant": "Schedules cannot be enumerated by tests.", "anchors": ["nyx-core/src/propagators/instance.rs: for_duration_with_traj, until_epoch_with_traj", "nyx-core/src/md/trajectory/traj.rs: Traj::finalize"]}
{"id": "C10", "title": "Fixed step propagation visits exactly the step grid", "statement": "With a fixed step h > 0 a forward propagation over d publishes exactly the epochs start + k*h for k*h < d (k>=1), followed by start + d.", "quantifier": "every start, every d > 0, every h > 0", "why_tests_cant": "Off by one at exact multiples of the step.", "anchors": ["nyx-core/src/propagators/instance.rs: PropInstance::propagate, single_step"]}
{"id": "C11", "title": "Fixed step propagation composes", "statement": "With a fixed step h, propagating d1 (a multiple of h) and then d2 gives the same final state as propagating d1 + d2 at once (autonomous deterministic dynamics, no stop condition).", "quantifier": "every dynamics, h > 0, d1 = k*h, d2 > 0", "why_tests_cant": "Equality for every split point and every dynamics.", "anchors": ["nyx-core/src/propagators/instance.rs: PropInstance::propagate"]}
{"id": "C12", "title": "Every shipped Runge-Kutta tableau is consistent and integrates polynomials exactly to its order", "statement": "For each integrator method, one step on x' = p(t) with p any polynomial of degree below the method's order returns exactly the integral of p; the weights of the main and embedded formulas sum to one.", "quantifier": "every polynomial of degree below the order, every step size, every initial value, each shipped method", "why_tests_cant": "Floating point tests of trajectories cannot isolate a wrong coefficient in a 16 stage table.", "anchors": ["nyx-core/src/propagators/rk_methods/*.rs: RK::A_COEFFS, B_COEFFS", "nyx-core/src/propagators/instance.rs: derive"]}
{"id": "C13", "title": "Runge-Kutta propagation preserves linear invariants", "statement": "If a linear functional of the state has zero derivative along the dynamics at every point, every RK step (any tableau) leaves it unchanged; in particular quantities with zero derivative such as the dry parameters stay constant over any number of steps.", "quantifier": "every tableau, dynamics, state, step size, number of steps", "why_tests_cant": "Universal over dynamics and step sequences.", "anchors": ["nyx-core/src/propagators/instance.rs: PropInstance::derive"]}
{"id": "C14", "title": "The propagated state transition matrix is the derivative of the propagated state", "statement": "After propagating with STM enabled, the STM equals the Jacobian of the final state with respect to the initial state (to the accuracy of the integrator); STMs of consecutive arcs compose as Phi(t2,t0) = Phi(t2,t1) Phi(t1,t0).", "quantifier": "every dynamics gradient sequence and every step sequence", "why_tests_cant": "Tests compare with finite differences at loose tolerances for slowly varying gradients.", "anchors": ["nyx-core/src/dynamics/spacecraft.rs: SpacecraftDynamics::eom", "nyx-core/src/propagators/instance.rs: derive"]}
{"id": "C15", "title": "Finalised trajectories are sorted and complete", "statement": "finalize leaves the states in non-decreasing epoch order, keeps at least one state for every epoch that was present, invents none, and is idempotent on epochs; when no two states share an epoch it is a permutation.", "quantifier": "every list of states", "why_tests_cant": "All lists, all orders.", "anchors": ["nyx-core/src/md/trajectory/traj.rs: Traj::finalize"]}
{"id": "C16", "title": "Trajectory lookup is safe and brackets the requested epoch", "statement": "at(epoch) on a finalised trajectory: returns the stored state when the epoch is stored; errors outside [first,last]; otherwise interpolates from a contiguous in-range window of at most 13 states which contains states on both sides of the epoch; it never indexes out of bounds.", "quantifier": "every strictly sorted trajectory of any length and every epoch", "why_tests_cant": "Index arithmetic with saturating subtraction has many boundary cases.", "anchors": ["nyx-core/src/md/trajectory/traj.rs: Traj::at"]}
{"id": "C17", "title": "Trajectory iteration covers the interval on the grid", "statement": "every(step) / every_between yields exactly the states at start + k*step within [start, end], in order, stopping at the first epoch out of the trajectory.", "quantifier": "every step > 0, start, end", "why_tests_cant": "Off-by-one at the inclusive end for all ratios.", "anchors": ["nyx-core/src/md/trajectory/traj.rs: every, every_between", "nyx-core/src/md/trajectory/traj_it.rs: TrajIterator::next"]}
{"id": "C18", "title": "Filtering a trajectory keeps exactly the states in the range", "statement": "filter_by_epoch returns exactly the states whose epoch is in the range, in order; filter_by_offset returns exactly those whose offset from the first epoch is in the range.", "quantifier": "every trajectory, every range bound kind", "why_tests_cant": "All bound kinds and positions.", "anchors": ["nyx-core/src/md/trajectory/traj.rs: filter_by_epoch, filter_by_offset"]}
{"id": "C19", "title": "Concatenating trajectories keeps a sorted, non overlapping history", "statement": "t1 + t2 errors when frames differ; otherwise it contains all states of t1 and exactly the states of t2 after the end of t1, sorted.", "quantifier": "every pair of finalised trajectories", "why_tests_cant": "All overlaps.", "anchors": ["nyx-core/src/md/trajectory/traj.rs: impl Add for Traj"]}
{"id": "C20", "title": "Interpolated propellant mass lies between the bracketing masses", "statement": "Interpolating a spacecraft trajectory between two stored states gives a propellant mass between (linear in time) the masses of the bracketing states.", "quantifier": "every window, every epoch between first and last", "why_tests_cant": "Tests use constant mass or long burns with loose tolerance.", "anchors": ["nyx-core/src/md/trajectory/interpolatable.rs: Spacecraft::interpolate"]}
{"id": "C21", "title": "Sorting a tracking arc conserves data and makes keys unique", "statement": "After sort: epochs (and trackers within an epoch) are strictly increasing; every (epoch, tracker, type) present before is present after and vice versa, with a value that one of the inputs had; a measurement is rejected iff one of its sources was.", "quantifier": "every list of measurements", "why_tests_cant": "All duplicates and orders.", "anchors": ["nyx-core/src/od/msr/trackingdata/mod.rs: TrackingDataArc::sort"]}
{"id": "C22", "title": "Combining tracking arcs is order independent and loses nothing", "statement": "arc1 + arc2 equals arc2 + arc1 when no (epoch, tracker, type) is measured in both with different values; all measurements and the moduli of both arcs are kept.", "quantifier": "every pair of arcs without conflicting measurements", "why_tests_cant": "All interleavings of two arcs.", "anchors": ["nyx-core/src/od/msr/trackingdata/mod.rs: impl Add, AddAssign for TrackingDataArc"]}
{"id": "C23", "title": "Chunking partitions a tracking arc", "statement": "chunk(max_duration) returns non-empty consecutive arcs whose concatenation is the original, each spanning at most max_duration, and a new chunk starts only when the next measurement is more than max_duration after the chunk's start.", "quantifier": "every sorted arc and max_duration >= 0", "why_tests_cant": "All gap patterns.", "anchors": ["nyx-core/src/od/msr/trackingdata/mod.rs: TrackingDataArc::chunk"]}
{"id": "C24", "title": "Epoch and offset filters of tracking arcs keep exactly the requested interval", "statement": "filter_by_epoch keeps exactly the measurements in the range and exclude_by_epoch exactly the others; filter_by_offset keeps exactly the measurements whose offset is in the range, in particular an unbounded range keeps everything.", "quantifier": "every sorted arc and every kind of range bound", "why_tests_cant": "All bound kinds and arcs.", "anchors": ["nyx-core/src/od/msr/trackingdata/mod.rs: filter_by_epoch, exclude_by_epoch, filter_by_offset, resolve_bounds"]}
{"id": "C25", "title": "Downsampling never mixes trackers and keeps rejections", "statement": "Every downsampled measurement attributed to a tracker is computed only from that tracker's measurements, rejected measurements stay rejected or are ignored, and ambiguity moduli are kept.", "quantifier": "every arc and target sampling", "why_tests_cant": "Interleaved trackers of every pattern.", "anchors": ["nyx-core/src/od/msr/trackingdata/mod.rs: TrackingDataArc::downsample"]}
{"id": "C26", "title": "Writing and reading a CCSDS TDM preserves the measurements", "statement": "to_tdm_file followed by from_tdm gives back, for every supported measurement type, the same trackers, epochs and values (up to the printed precision), including the two way scaling and the moduli.", "quantifier": "every arc of range, Doppler, angle measurements", "why_tests_cant": "All combinations of trackers, types and epochs.", "anchors": ["nyx-core/src/od/msr/trackingdata/io_ccsds_tdm.rs: to_tdm_file, from_tdm, parse_measurement_line"]}
{"id": "C27", "title": "Measurement equality is symmetric", "statement": "m1 == m2 if and only if m2 == m1.", "quantifier": "every pair of measurements", "why_tests_cant": "Only measurements with different type sets expose it.", "anchors": ["nyx-core/src/od/msr/measurement.rs: impl PartialEq for Measurement"]}
{"id": "C28", "title": "The filter covariance stays symmetric positive semi-definite", "statement": "From a symmetric PSD initial covariance, after any sequence of time updates and (accepted or rejected) measurement updates the covariance is symmetric PSD.", "quantifier": "every sequence of STMs, sensitivities, PSD measurement and process noises, residuals, any state and measurement dimension", "why_tests_cant": "Histories are unbounded and the inputs are real matrices.", "anchors": ["nyx-core/src/od/kalman/filtering.rs: KalmanFilter::time_update, measurement_update"]}
{"id": "C29", "title": "The Kalman gain is optimal and updates never increase the covariance", "statement": "The updated covariance equals the standard (I - K H) P form, is no larger (Loewner order) than the predicted covariance, and no other gain gives a smaller covariance.", "quantifier": "every predicted PSD covariance, sensitivity, positive definite noise, and every alternative gain", "why_tests_cant": "Matrix inequality over all real matrices.", "anchors": ["nyx-core/src/od/kalman/filtering.rs: measurement_update"]}
{"id": "C30", "title": "A rejected measurement leaves exactly the time update", "statement": "When the residual ratio exceeds the rejection threshold, the resulting estimate, covariance and filter memory are exactly those of a time update to that epoch, and the residual is flagged rejected; otherwise it is not flagged.", "quantifier": "every filter state, measurement and threshold", "why_tests_cant": "All states and thresholds.", "anchors": ["nyx-core/src/od/kalman/filtering.rs: measurement_update, time_update"]}
{"id": "C31", "title": "The residual ratio is the normalised innovation statistic", "statement": "The ratio used for rejection squared times the measurement size equals the Mahalanobis distance y^T S^-1 y; it does not depend on the Cholesky factor and is invariant under invertible rescaling of the measurement (units).", "quantifier": "every residual, innovation covariance, Cholesky factor and rescaling", "why_tests_cant": "All matrices.", "anchors": ["nyx-core/src/od/kalman/filtering.rs: measurement_update", "nyx-core/src/od/estimate/residual.rs: Residual::nis"]}
{"id": "C32", "title": "Force-rejected arcs never influence the estimate", "statement": "When an arc is processed with force_reject set, no measurement changes the state estimate or the covariance beyond the time updates.", "quantifier": "every measurement history", "why_tests_cant": "Only residuals exactly at the boundary expose it.", "anchors": ["nyx-core/src/od/process/mod.rs: KalmanODProcess::process_arc", "nyx-core/src/od/kalman/filtering.rs"]}
{"id": "C33", "title": "Process noise is applied only inside its validity window and keeps covariances PSD", "statement": "A process noise matrix is added only if its start time has passed and the time since the last update does not exceed its disable time, at most one (the last configured applicable) is used, and the added term is symmetric PSD.", "quantifier": "every list of noise configurations, epochs and time steps", "why_tests_cant": "All configurations and times.", "anchors": ["nyx-core/src/od/snc.rs: ProcessNoise::to_matrix, propagate", "nyx-core/src/od/kalman/filtering.rs"]}
{"id": "C34", "title": "Range ambiguity resolution picks the nearest ambiguity interval", "statement": "With a modulus m, the resolved observation differs from the raw one by an integer multiple of m and from the predicted one by at most m/2.", "quantifier": "every predicted value, raw observation in [0,m), modulus m > 0", "why_tests_cant": "Wrap-around cases only.", "anchors": ["nyx-core/src/od/process/mod.rs: process_arc (moduli)"]}
{"id": "C35", "title": "Orbit determination processes all measurements in order and terminates", "statement": "process_arc visits the measurements in epoch order, advances time by steps of at most the configured maximum, produces one update per accepted/rejected measurement of known trackers, time updates in between, and terminates.", "quantifier": "every sorted arc, step policy with positive bounds", "why_tests_cant": "Unbounded arcs and step sequences.", "anchors": ["nyx-core/src/od/process/mod.rs: KalmanODProcess::process_arc"]}
{"id": "C36", "title": "predict_until stops at the requested epoch", "statement": "predict_until(step, end) produces a solution whose last estimate is at the end epoch, with estimates every step.", "quantifier": "every start, step, end", "why_tests_cant": "All ratios of interval and step.", "anchors": ["nyx-core/src/od/process/mod.rs: predict_until, predict_for"]}
{"id": "C37", "title": "Orbit determination solutions keep their columns aligned", "statement": "At every time the numbers of estimates, residuals, gains and filter/smoother ratios of a solution are equal, and operations push, filter, exclude, split, merge keep entry i of each column about the same update.", "quantifier": "every sequence of operations", "why_tests_cant": "Sequences of operations are unbounded.", "anchors": ["nyx-core/src/od/process/solution/mod.rs", "nyx-core/src/od/process/solution/filter_data.rs"]}
{"id": "C38", "title": "Merging solutions yields a time ordered permutation", "statement": "merge returns exactly the union of the two solutions' updates, each once, ordered by epoch, with the columns still aligned.", "quantifier": "every pair of solutions", "why_tests_cant": "In place cycle permutation over any index permutation.", "anchors": ["nyx-core/src/od/process/solution/filter_data.rs: ODSolution::merge"]}
{"id": "C39", "title": "The smoother keeps residuals attached to their epochs", "statement": "After smoothing, entry k of the solution has the smoothed estimate of epoch k and the residual of epoch k.", "quantifier": "every filtered solution", "why_tests_cant": "Only visible on long arcs with distinct residuals.", "anchors": ["nyx-core/src/od/process/solution/smooth.rs: ODSolution::smooth"]}
{"id": "C40", "title": "Batch least squares solves the weighted normal equations", "statement": "Without an a priori covariance, the correction solves (sum H^T W H) dx = sum H^T W y over all measurements of the arc and the reported covariance is the inverse of the information matrix.", "quantifier": "every arc, sensitivity, weight", "why_tests_cant": "All arcs; bias is hidden by iteration tolerance.", "anchors": ["nyx-core/src/od/blse/mod.rs: BatchLeastSquares::estimate"]}
{"id": "C41", "title": "RMS statistics are over the residuals they describe", "statement": "The RMS pre/post-fit residuals equal the root of the mean square over the measurement residuals of the solution.", "quantifier": "every solution", "why_tests_cant": "Only solutions mixing time updates and measurements expose it.", "anchors": ["nyx-core/src/od/process/solution/stats.rs: rms_prefit_residuals, rms_postfit_residuals, rms_residual_ratios"]}
{"id": "C42", "title": "An estimate built from dispersions describes the dispersed state", "statement": "KfEstimate::disperse_from_diag/from dispersions returns an estimate whose state() is the dispersed state and whose covariance is PSD.", "quantifier": "every nominal state and every sampled dispersion", "why_tests_cant": "Random samples hide a mirrored sign.", "anchors": ["nyx-core/src/od/estimate/kfestimate.rs: KfEstimate::disperse_from_diag, disperse_from"]}
{"id": "C43", "title": "The measurement sensitivity is the derivative of the measurement model", "statement": "Row i of the sensitivity returned for a set of measurement types is the gradient of measurement i with respect to the state; rows without measurement are zero.", "quantifier": "every geometry, set of types", "why_tests_cant": "Derivatives at all geometries; unused rows.", "anchors": ["nyx-core/src/od/msr/sensitivity.rs: ScalarSensitivity, TrackerSensitivity::h_tilde"]}
{"id": "C44", "title": "A configured constant bias is used", "statement": "with_msr_bias_constant(type, c) makes the device's noise for that type have constant bias c.", "quantifier": "every device configuration", "why_tests_cant": "Tests call the builder but do not observe samples.", "anchors": ["nyx-core/src/od/ground_station/mod.rs: GroundStation::with_msr_bias_constant"]}
{"id": "C45", "title": "Schedules contain only usable strands", "statement": "Every strand of a generated schedule lies in a visibility arc, is aligned when requested, and has at least the minimum number of samples.", "quantifier": "every set of visibility arcs and scheduler configuration", "why_tests_cant": "All arc patterns.", "anchors": ["nyx-core/src/od/simulator/arc.rs: TrackingArcSim::generate_schedule"]}
{"id": "C46", "title": "Handoff removes overlaps between trackers", "statement": "After the handoff pass (Eager or Greedy) no two strands overlap.", "quantifier": "every set of strands", "why_tests_cant": "Only three way overlaps expose the failure.", "anchors": ["nyx-core/src/od/simulator/arc.rs: generate_schedule", "nyx-core/src/od/simulator/scheduler.rs: Handoff"]}
{"id": "C47", "title": "Simulated measurements are inside their strands and sorted", "statement": "Without noise on the time tags, generate_measurements returns measurements whose epochs are in a strand of their tracker on its sampling grid, and the arc is sorted.", "quantifier": "every set of strands, samplings, device failures", "why_tests_cant": "All schedules and failures.", "anchors": ["nyx-core/src/od/simulator/arc.rs: generate_measurements"]}
{"id": "C48", "title": "The spacecraft vector encoding round trips", "statement": "set(epoch, to_vector()) restores orbit, Cr, Cd, propellant mass; the stored Cr is always clamped to [0,2].", "quantifier": "every spacecraft state and vector", "why_tests_cant": "All vectors.", "anchors": ["nyx-core/src/cosmic/spacecraft.rs: State::to_vector, set"]}
{"id": "C49", "title": "Guidance mode survives its numeric encoding", "statement": "Decoding the number a guidance mode is stored as gives back the mode, and distinct modes have distinct encodings.", "quantifier": "every mode and every number", "why_tests_cant": "All numbers in decode ranges.", "anchors": ["nyx-core/src/cosmic/spacecraft.rs: GuidanceMode, From<f64>"]}
{"id": "C50", "title": "Propellant never increases and never goes negative", "statement": "During propagation with finite burns propellant mass is non increasing, and any state returned Ok has non negative propellant, otherwise FuelExhausted is returned.", "quantifier": "every guidance law, throttle sequence, thrust, isp, number of steps", "why_tests_cant": "Any burn history.", "anchors": ["nyx-core/src/dynamics/spacecraft.rs: SpacecraftDynamics::eom, finally"]}
{"id": "C51", "title": "A finite burn thrusts only inside its window", "statement": "A maneuver's guidance mode is Thrust exactly when its start <= epoch <= end and its throttle is zero otherwise; replay uses the maneuver containing the epoch.", "quantifier": "every maneuver and epoch", "why_tests_cant": "Boundary instants.", "anchors": ["nyx-core/src/dynamics/guidance/mnvr.rs: Maneuver::next, throttle", "nyx-core/src/dynamics/guidance/replay.rs"]}
{"id": "C52", "title": "Ruggiero efficiencies are in [0,1]", "statement": "The efficiency returned for each supported element lies in [0,1] for every closed orbit.", "quantifier": "every eccentricity in [0,1), anomaly, argument of periapsis", "why_tests_cant": "Continuous ranges.", "anchors": ["nyx-core/src/dynamics/guidance/ruggiero.rs: Ruggiero::efficiency"]}
{"id": "C53", "title": "Control laws steer toward their targets and stop when achieved", "statement": "The Ruggiero weighting of an objective has the sign of (target - current), is zero inside the tolerance; the returned direction is a unit vector or zero, and is zero when all objectives are achieved.", "quantifier": "every state and objective set", "why_tests_cant": "Any state.", "anchors": ["nyx-core/src/dynamics/guidance/ruggiero.rs: weighting, direction, throttle", "nyx-core/src/dynamics/guidance/kluever.rs: direction"]}
{"id": "C54", "title": "No thrust in eclipse when an eclipse limit is set", "statement": "With a maximum eclipse percentage configured, the guidance mode after next() is not Thrust while the spacecraft is in a deeper eclipse.", "quantifier": "every state, law and eclipse percentage", "why_tests_cant": "Eclipse entry combined with objective states.", "anchors": ["nyx-core/src/dynamics/guidance/ruggiero.rs: next", "nyx-core/src/dynamics/guidance/kluever.rs: next"]}
{"id": "C55", "title": "Angle normalisation returns the congruent angle in range", "statement": "between_0_360 returns the angle congruent mod 360 in [0,360); between_pm_180 the congruent one in (-180,180].", "quantifier": "every finite angle", "why_tests_cant": "All magnitudes (loops).", "anchors": ["nyx-core/src/utils.rs: between_0_360, between_pm_180"]}
{"id": "C56", "title": "Elementary rotations and vector projections satisfy their algebra", "statement": "r1,r2,r3 are orthonormal with determinant one, additive in the angle; rotv preserves norms and fixes the axis; projv + perpv = identity, orthogonal; the tilde matrix computes the cross product.", "quantifier": "every angle and vector", "why_tests_cant": "All real inputs.", "anchors": ["nyx-core/src/utils.rs: r1, r2, r3, rotv, perpv, projv, tilde_matrix"]}
{"id": "C57", "title": "Gooding's Lambert solution lies on one conic through both points", "statement": "The velocities returned for r1, r2 give the same angular momentum, the same energy and the same eccentricity vector at both ends, hence one Kepler orbit through both positions, for any universal variable iterate.", "quantifier": "every pair of non collinear positions and every accepted iterate", "why_tests_cant": "Continuous geometry.", "anchors": ["nyx-core/src/tools/lambert/godding.rs: gooding"]}
{"id": "C58", "title": "Izzo's Lambert velocities lie on one conic", "statement": "The reconstructed velocities have equal angular momentum and equal energy at both ends.", "quantifier": "every geometry and iterate x", "why_tests_cant": "Continuous geometry.", "anchors": ["nyx-core/src/tools/lambert/izzo.rs: izzo, reconstruct"]}
{"id": "C59", "title": "Targeting succeeds only when all objectives are met", "statement": "If try_achieve_fd returns Ok, every objective's assessed error is within its tolerance at the achieved state; it performs at most iterations+1 propagations of the nominal and otherwise errors.", "quantifier": "every dynamics, variables, objectives", "why_tests_cant": "Iterates are arbitrary.", "anchors": ["nyx-core/src/md/opti/raphson_finite_diff.rs: Targeter::try_achieve_fd", "nyx-core/src/md/objective.rs: Objective::assess_value"]}
{"id": "C60", "title": "The corrected state of a targeting solution reproduces the achieved state", "statement": "Propagating the returned corrected state to the achievement epoch gives the achieved state.", "quantifier": "every correction frame, number of iterations", "why_tests_cant": "Only multi iteration corrections in a local frame expose it.", "anchors": ["nyx-core/src/md/opti/raphson_finite_diff.rs: try_achieve_fd"]}
{"id": "C61", "title": "Targeting respects variable bounds", "statement": "The total correction of each variable stays within its minimum and maximum value.", "quantifier": "every iteration history", "why_tests_cant": "Unbounded histories.", "anchors": ["nyx-core/src/md/opti/target_variable.rs: Variable", "nyx-core/src/md/opti/raphson_finite_diff.rs"]}
{"id": "C62", "title": "Equidistant nodes are equidistant", "statement": "The multiple shooting nodes are evenly spaced on the segment from start to target, end at the target, with evenly spaced increasing epochs.", "quantifier": "every node count and pair of positions", "why_tests_cant": "All counts.", "anchors": ["nyx-core/src/md/opti/multipleshooting/equidistant_heuristic.rs: equidistant_nodes"]}
{"id": "C63", "title": "Monte Carlo results do not depend on scheduling", "statement": "For a given generator and seed, the results are the same, ordered by run index, whatever the order in which worker threads finish.", "quantifier": "every completion order, number of runs", "why_tests_cant": "Schedules.", "anchors": ["nyx-core/src/mc/montecarlo.rs: MonteCarlo::run_until_epoch, resume_run_until_epoch"]}
{"id": "C64", "title": "Resuming a Monte Carlo run continues the original numbering", "statement": "Resuming after skipping k runs gives the same dispersed states and indices as runs k.. of the original campaign.", "quantifier": "every seed stream, k, n", "why_tests_cant": "All k.", "anchors": ["nyx-core/src/mc/montecarlo.rs: generate_states, resume_run_until_epoch"]}
{"id": "C65", "title": "Dispersions report what was added", "statement": "template + actual_dispersions = dispersed state, and the covariance of the generator has the configured variance at the configured parameter.", "quantifier": "every template and sample", "why_tests_cant": "Random sampling hides signs and indices.", "anchors": ["nyx-core/src/mc/multivariate.rs: MvnSpacecraft", "nyx-core/src/mc/generator.rs: DispersedState"]}
{"id": "C66", "title": "Polynomial evaluation is correct", "statement": "eval, eval_deriv and eval_n_deriv return the value and derivative of the polynomial with the given coefficients.", "quantifier": "every coefficient list and abscissa", "why_tests_cant": "All degrees.", "anchors": ["nyx-core/src/polyfit/polynomial.rs: Polynomial::eval_n_deriv"]}
{"id": "C67", "title": "Setting a polynomial coefficient is observable at the same order", "statement": "with_val_in_order(v,k).coeff_in_order(k) = v and other coefficients are unchanged; add_val_in_order likewise adds.", "quantifier": "every polynomial kind, order, value", "why_tests_cant": "All kinds and orders.", "anchors": ["nyx-core/src/polyfit/polynomial.rs: CommonPolynomial::with_val_in_order, add_val_in_order, coeff_in_order"]}
{"id": "C68", "title": "Gravity field evaluation accesses only valid indices", "statement": "For every degree and order of the loaded field and of the request, all (unchecked) matrix and vector accesses of the spherical harmonics acceleration are in bounds.", "quantifier": "every degree and order", "why_tests_cant": "Unchecked accesses are undefined behaviour only at specific sizes.", "anchors": ["nyx-core/src/dynamics/gravity_field.rs: GravityField::new, GravityField::eom, GravityField::gradient"]}
{"id": "C69", "title": "Gravity recursions compute complex powers", "statement": "The recursively computed terms are the real and imaginary parts of (s + i t)^m for every order m.", "quantifier": "every direction cosines and order", "why_tests_cant": "All orders.", "anchors": ["nyx-core/src/dynamics/gravity_field.rs: GravityField::eom"]}
{"id": "C70", "title": "Solar pressure pushes away from the Sun with an inverse square law", "statement": "The acceleration is parallel to the Sun-to-spacecraft direction with non negative factor, scales as 1/r^2, vanishes in full shadow, is linear in Cr and area.", "quantifier": "every geometry", "why_tests_cant": "Continuous geometry.", "anchors": ["nyx-core/src/dynamics/solarpressure.rs: SolarPressure::eom"]}
{"id": "C71", "title": "Drag opposes the motion", "statement": "The drag acceleration does non positive work: a . v <= 0.", "quantifier": "every state, density", "why_tests_cant": "Continuous.", "anchors": ["nyx-core/src/dynamics/drag.rs: ConstantDrag, Drag"]}
{"id": "C72", "title": "B-plane frame is orthonormal and B lies in the plane", "statement": "For every hyperbolic orbit S, T, R form an orthonormal right handed frame, B is orthogonal to S, |B|^2 = BT^2 + BR^2 and the linearised time of flight reported matches B.S/v = 0.", "quantifier": "every hyperbolic orbit", "why_tests_cant": "Continuous.", "anchors": ["nyx-core/src/cosmic/bplane.rs: BPlane::from_dual"]}
{"id": "C73", "title": "Mission sequences validate before they run", "statement": "A sequence that passes validation can be propagated without panicking: phases are executed in chronological order until the terminating phase.", "quantifier": "every sequence and start state", "why_tests_cant": "All sequences.", "anchors": ["nyx-core/src/dynamics/sequence/mod.rs: SpacecraftSequence::validate, propagate"]}
{"id": "C74", "title": "Configuration encodings round trip", "statement": "DER encoding then decoding of scheduler, cadence, strand and tracking configurations returns the original.", "quantifier": "every configuration", "why_tests_cant": "All values.", "anchors": ["nyx-core/src/od/simulator/scheduler.rs", "nyx-core/src/od/simulator/trkconfig.rs"]}
{"id": "C75", "title": "Noise samples decay as documented", "statement": "A Gauss-Markov bias with zero noise decays exponentially with the configured time constant from its initial sample; constructors reject non positive time constants and negative sigmas; covariance is non negative.", "quantifier": "every parameter set and sampling history", "why_tests_cant": "Histories.", "anchors": ["nyx-core/src/od/noise/gauss_markov.rs", "nyx-core/src/od/noise/white.rs"]}
{"id": "C76", "title": "The result of a propagation is in the frame of its start state", "statement": "Whatever integration frame is configured, the state returned by a propagation (completed or ended by its stop condition) is expressed in the frame of the start state.", "quantifier": "every integration frame, frame of the start state, duration, stop condition", "why_tests_cant": "Only propagations with an integration frame that end early expose it.", "anchors": ["nyx-core/src/propagators/instance.rs: PropInstance::propagate"]}
{"id": "C77", "title": "Smoothing of the differences between two trajectories is a median filter of the original samples", "statement": "When RIC differences are smoothed, there are as many smoothed samples as samples, and each smoothed value is the median of the original values in the window around it; in particular it lies between the smallest and the largest original values of that window.", "quantifier": "every sequence of samples, of any length and any values", "why_tests_cant": "The result of an in place filter differs from the filter only for particular data.", "anchors": ["nyx-core/src/md/trajectory/mod.rs: smooth_state_diff_in_place"]}
{"id": "C78", "title": "Applying ambiguity moduli wraps values and nothing else", "statement": "apply_moduli replaces every value whose type has a modulus by the value congruent to it modulo the modulus, smaller in magnitude than the modulus and of the same sign; every other value, tracker, epoch and flag is unchanged; applying twice is the same as once. Moduli set through set_moduli are never zero.", "quantifier": "every arc, every set of moduli, every value", "why_tests_cant": "Holds for all real values and all combinations of types with and without moduli.", "anchors": ["nyx-core/src/od/msr/trackingdata/mod.rs: set_moduli, apply_moduli"]}
{"id": "C79", "title": "Tracker and type filters of tracking arcs keep exactly what they say", "statement": "filter_by_tracker and exclude_tracker split an arc; reject_by_tracker flags exactly that tracker's measurements; filter_by_measurement_type keeps exactly the values of that type and exclude_measurement_type exactly the values of other types; no filter leaves a measurement without any value.", "quantifier": "every arc, tracker and measurement type", "why_tests_cant": "Arcs with measurements of mixed type sets, in any order.", "anchors": ["nyx-core/src/od/msr/trackingdata/mod.rs: filter_by_tracker, exclude_tracker, reject_by_tracker, filter_by_measurement_type, exclude_measurement_type"]}
{"id": "C80", "title": "Frequencies in TDM files are converted to the range rate of the same tracker", "statement": "When a TDM file contains transmitted (possibly ramped) and received frequencies, each received frequency becomes the range rate that explains the two way Doppler shift with respect to the frequency transmitted by the same tracker; all frequency records disappear and other values are kept.", "quantifier": "every sequence of frequency, rate and other records of every tracker", "why_tests_cant": "Ramps and interleavings of trackers of every pattern.", "anchors": ["nyx-core/src/od/msr/trackingdata/io_ccsds_tdm.rs: TrackingDataArc::from_tdm"]}
{"id": "C81", "title": "Simultaneous measurements may be processed one at a time or together", "statement": "In deviation tracking, processing two simultaneous measurements with independent noises one after the other gives the same state deviation and covariance as processing them in one update.", "quantifier": "every predicted estimate with positive definite covariance, every pair of measurements of any sizes, every process noise list", "why_tests_cant": "Equality of two different computations over all matrices of all sizes.", "anchors": ["nyx-core/src/od/kalman/filtering.rs: KalmanFilter::measurement_update", "nyx-core/src/od/process/mod.rs: process_arc"]}
{"id": "C82", "title": "A measurement update returns the weighted least squares optimum", "statement": "The state deviation after an accepted measurement is the unique minimiser of the distance to the prediction weighted by its covariance plus the measurement residual weighted by its noise.", "quantifier": "every prediction, measurement, sensitivity, positive definite covariance and noise, every competitor", "why_tests_cant": "Optimality quantifies over every alternative estimate.", "anchors": ["nyx-core/src/od/kalman/filtering.rs: KalmanFilter::measurement_update"]}
{"id": "C83", "title": "Process noise given in a local frame is rotated to the state frame", "statement": "A process noise configured in a local frame acts as the same noise expressed in the frame of the state, that is with covariance R Q R^T.", "quantifier": "every rotation and noise diagonal", "why_tests_cant": "Every attitude.", "anchors": ["nyx-core/src/od/snc.rs: ProcessNoise::propagate"]}
{"id": "C84", "title": "A configured process noise never makes the filter panic", "statement": "Any process noise built by the public constructors and given to the filter or to the orbit determination process by the public functions can be used in every update without panicking.", "quantifier": "every list of noises, every way to configure them, every history of updates", "why_tests_cant": "Every history of configuration calls and updates.", "anchors": ["nyx-core/src/od/snc.rs: with_decay, to_matrix, propagate", "nyx-core/src/od/kalman/initializers.rs: initialize_process_noises", "nyx-core/src/od/kalman/filtering.rs: set_process_noise", "nyx-core/src/od/process/mod.rs: predict_until"]}
{"id": "C85", "title": "A stop condition stops at the first state that satisfies it", "statement": "When a propagation with a stop condition returns, either the condition was true of exactly the returned state and false of every state published before it (each tested once, in order), or the stop epoch was reached and no published state but the last, untested one, satisfied it.", "quantifier": "every dynamics, condition with memory, duration, step control and direction", "why_tests_cant": "Quantifies over all closures and all step sequences.", "anchors": ["nyx-core/src/propagators/instance.rs: PropInstance::propagate"]}
{"id": "C86", "title": "until_nth_event searches the interval of the n-th event and reports a missing event", "statement": "until_nth_event searches for the event between the last published state before the requested sign change and the state after it, on the complete trajectory in time order; NthEventError is returned exactly when the event did not occur the requested number of times within the maximum duration.", "quantifier": "every dynamics, event function, number of occurrences, duration (forward and backward), delivery order of the channel", "why_tests_cant": "The events found depend on every step taken; all delivery orders of the channel.", "anchors": ["nyx-core/src/propagators/event.rs: until_event, until_nth_event"]}
{"id": "C87", "title": "Each estimate of a solution carries the transition matrix from the previous estimate", "statement": "In the solution of process_arc and predict_until, the state transition matrix of each estimate is the transition from the epoch of the previous estimate (the initial estimate for the first) to its own epoch, whatever happened in between: unknown trackers, skipped measurements, several updates at the same epoch, updates of the reference.", "quantifier": "every arc, device set, filter variant, step size, linear flow computed by the propagator", "why_tests_cant": "Depends on the history of resets along unbounded arcs.", "anchors": ["nyx-core/src/od/process/mod.rs: process_arc, predict_until", "nyx-core/src/od/kalman/filtering.rs: time_update, measurement_update"]}
{"id": "C88", "title": "All covariances of an orbit determination solution are symmetric positive semi-definite", "statement": "From a symmetric positive semi-definite initial covariance, every estimate in the solution of process_arc has a symmetric positive semi-definite covariance.", "quantifier": "every arc, device set with positive semi-definite measurement covariances, process noises with non negative densities, propagator, thresholds", "why_tests_cant": "All histories of accepted and rejected measurements.", "anchors": ["nyx-core/src/od/process/mod.rs: process_arc", "nyx-core/src/od/kalman/filtering.rs"]}
{"id": "C89", "title": "The smoothed estimate uses all later measurements", "statement": "After smoothing, the estimate of entry k is the last estimate of the arc mapped back to epoch k (for dynamics without process noise), so that it uses the measurements after k + 1 too.", "quantifier": "every filtered solution", "why_tests_cant": "Visible only on solutions of three entries or more; all matrices.", "anchors": ["nyx-core/src/od/process/solution/smooth.rs: ODSolution::smooth"]}
{"id": "C90", "title": "The smoother returns sane covariances and consistency ratios", "statement": "Smoothed covariances are symmetric positive semi-definite if the filter's are; the ratio of a component is the difference of the states divided by the root of the difference of the variances, defined when the filter's variance is the greater; the smoother returns on every solution of two or more entries with invertible transition matrices, known trackers and devices that do not fail.", "quantifier": "every filtered solution, device set", "why_tests_cant": "All matrices.", "anchors": ["nyx-core/src/od/process/solution/smooth.rs: ODSolution::smooth"]}
{"id": "C91", "title": "Residual statistics only count measurements", "statement": "residual_ratio_within_threshold is the share of measurement residuals within the threshold, in [0, 1], monotone in the threshold, an error exactly without residuals; accepted and rejected residuals partition the residuals.", "quantifier": "every solution and threshold", "why_tests_cant": "All solutions.", "anchors": ["nyx-core/src/od/process/solution/stats.rs: residual_ratio_within_threshold", "nyx-core/src/od/process/solution/mod.rs: accepted_residuals, rejected_residuals"]}
{"id": "C92", "title": "The normality test bounds the distance to the normal law", "statement": "ks_test_normality returns a statistic in [0, 1] that bounds the distance between the empirical distribution of the whitened accepted residuals and the fitted normal law at every point, up to one over the number of values.", "quantifier": "every solution, every point of the real line", "why_tests_cant": "The supremum over all reals.", "anchors": ["nyx-core/src/od/process/solution/stats.rs: ks_test_normality"]}
{"id": "C93", "title": "Consistency verdicts are exclusive and NIS and NEES are what they claim", "statement": "nis_consistency sums the squared norms of the whitened accepted residuals with n m degrees of freedom, its bounds are ordered; consistent, underconfident and overconfident exclude each other and cover everything but the bounds; each NEES term is non negative and is the error weighted by the inverse covariance when the covariance is not near singular.", "quantifier": "every solution, level, covariance", "why_tests_cant": "All matrices and sums.", "anchors": ["nyx-core/src/od/process/solution/stats.rs: NormalizedConsistency, nis_consistency, nees_consistency", "nyx-core/src/od/estimate/residual.rs: nis"]}
{"id": "C94", "title": "Levenberg Marquardt steps decrease the cost or increase the damping", "statement": "An accepted step decreases the RMS and divides the damping, a rejected one leaves the state unchanged and multiplies the damping, within the configured bounds, so that the solver makes progress until it converges.", "quantifier": "every arc, configuration, state", "why_tests_cant": "Sequences of rejected steps of any length.", "anchors": ["nyx-core/src/od/blse/mod.rs: BatchLeastSquares::estimate"]}
{"id": "C95", "title": "The reported RMS is that of the returned state", "statement": "final_rms of a batch solution is the weighted RMS of the residuals computed with the returned state.", "quantifier": "every arc and solver", "why_tests_cant": "Equality of two computations over arbitrary arcs.", "anchors": ["nyx-core/src/od/blse/mod.rs: BatchLeastSquares::estimate, BatchLeastSquares::evaluate", "nyx-core/src/od/blse/solution.rs: BLSSolution"]}
{"id": "C96", "title": "Converting a batch solution to a filter estimate keeps a valid covariance", "statement": "The conversion of a batch least squares solution to a Kalman filter estimate has a symmetric positive semi-definite covariance whenever the batch covariance is positive definite.", "quantifier": "every covariance", "why_tests_cant": "All matrices.", "anchors": ["nyx-core/src/od/blse/solution.rs: From<BLSSolution> for KfEstimate"]}
{"id": "C97", "title": "Batch least squares terminates and reports its iterations and convergence", "statement": "estimate returns after at most max_iterations iterations, reports how many were made, and sets converged exactly when the position correction of the last one is below the tolerance.", "quantifier": "every arc, tolerance, propagator with positive steps", "why_tests_cant": "All executions.", "anchors": ["nyx-core/src/od/blse/mod.rs: BatchLeastSquares::estimate"]}
{"id": "C98", "title": "The estimates of a solution continue one another", "statement": "Without process noise, the predicted covariance of each estimate of a filter run or of a prediction is the covariance of the previous estimate mapped by the transition matrix of the estimate (the first continues the initial estimate); where no measurement is used the covariance and the deviation are only mapped.", "quantifier": "every arc, device set, propagator, initial estimate", "why_tests_cant": "All sequences of updates; no reference exists for intermediate covariances.", "anchors": ["nyx-core/src/od/process/mod.rs: KalmanODProcess::process_arc, KalmanODProcess::predict_until", "nyx-core/src/od/kalman/filtering.rs: time_update, measurement_update"]}
{"id": "C99", "title": "The error estimate of the adaptive step bounds the error it accepts", "statement": "For every error control, a step accepted because its estimate is within the tolerance has an integration error within the tolerance, absolute or relative to the change (or to the state); the estimate is non-negative, scales with the error, does not depend on the orientation of the axes (mirror image), and the Cartesian controls depend on position and velocity only.", "quantifier": "every error vector, candidate, state, tolerance, control", "why_tests_cant": "Thresholds between absolute and relative errors and all directions of motion.", "anchors": ["nyx-core/src/propagators/error_ctrl.rs: ErrorControl::estimate"]}
{"id": "C100", "title": "Replaying the thrust directions of a trajectory reproduces its burns", "statement": "The state after a propagation step stores the thrust direction commanded from its epoch on, and ThrustDirectionReplay on the recorded trajectory commands at each epoch what was commanded in the recorded propagation.", "quantifier": "every maneuver, trajectory, epoch", "why_tests_cant": "Alignment of samples and modes at every epoch.", "anchors": ["nyx-core/src/dynamics/guidance/replay.rs: ThrustDirectionReplay", "nyx-core/src/dynamics/spacecraft.rs: SpacecraftDynamics::finally"]}
{"id": "C101", "title": "A state parameter reads back what was written", "statement": "For every parameter that set_value accepts, value returns the number written and the other parameters are unchanged.", "quantifier": "every spacecraft, parameter and value", "why_tests_cant": "All parameters and values.", "anchors": ["nyx-core/src/cosmic/spacecraft.rs: State::value, State::set_value"]}
{"id": "C102", "title": "The DER encoding of a spacecraft round trips", "statement": "Decoding the encoding of a spacecraft gives back the spacecraft, and leaves the rest of the input.", "quantifier": "every spacecraft", "why_tests_cant": "All optional fields.", "anchors": ["nyx-core/src/cosmic/spacecraft.rs: der::Encode for Spacecraft, der::Decode for Spacecraft"]}
{"id": "C103", "title": "Spherical coordinates round trip and setting a magnitude keeps the direction", "statement": "Converting a vector to spherical coordinates and back restores it, and writing Rmag or Vmag sets the norm and keeps the direction.", "quantifier": "every vector and range", "why_tests_cant": "All vectors, including the axes and the poles.", "anchors": ["nyx-core/src/utils.rs: cartesian_to_spherical, spherical_to_cartesian", "nyx-core/src/cosmic/spacecraft.rs: State::set_value"]}
{"id": "C104", "title": "A direction round trips through its angles", "statement": "The unit vector of a pair of angles has unit norm, and reading the angles of that vector gives back the pair, for right ascension/declination and for the in-plane/out-of-plane angles.", "quantifier": "every pair of angles and unit vector", "why_tests_cant": "All angles, quadrants.", "anchors": ["nyx-core/src/dynamics/guidance/mod.rs: unit_vector_from_ra_dec, ra_dec_from_unit_vector, unit_vector_from_plane_angles, plane_angles_from_unit_vector"]}
{"id": "C105", "title": "The pseudo inverse solves the correction problem", "statement": "With fewer objectives than variables pseudo_inverse gives the solution of least norm, otherwise the least squares one; it errors exactly when the Jacobian does not have full rank.", "quantifier": "every matrix of every size", "why_tests_cant": "All matrices.", "anchors": ["nyx-core/src/utils.rs: pseudo_inverse"]}
{"id": "C106", "title": "The scalar and vector helpers satisfy their documentation", "statement": "normalize and denormalize are inverse; is_diagonal, mag_order, unitize and rss_errors compute what they document.", "quantifier": "every input", "why_tests_cant": "All reals.", "anchors": ["nyx-core/src/utils.rs: normalize, denormalize, is_diagonal, mag_order, unitize, rss_errors"]}
{"id": "C107", "title": "Polynomial arithmetic", "statement": "The sum, difference and scaling of polynomials evaluate to the sum, difference and scaling of the evaluations; a sum panics exactly when documented.", "quantifier": "every pair of polynomials", "why_tests_cant": "All sizes.", "anchors": ["nyx-core/src/polyfit/polynomial.rs: Add, Sub, Mul for Polynomial"]}
{"id": "C108", "title": "Each targeting variable varies what it names", "statement": "A targeter corrects the component of the position, velocity, thrust direction, its rate or acceleration, or of the thrust angles that the variable names, and no other.", "quantifier": "every variable, value and maneuver", "why_tests_cant": "Nineteen kinds of variables with shared index arithmetic.", "anchors": ["nyx-core/src/md/opti/target_variable.rs: Vary::vec_index, Vary::is_finite_burn", "nyx-core/src/md/opti/raphson_finite_diff.rs: try_achieve_fd"]}
{"id": "C109", "title": "An affine targeting problem is solved by one correction", "statement": "If the objectives are affine functions of the varied state components and the Jacobian has full rank, the targeter succeeds with at most one correction whenever the exact correction is within the step and value limits.", "quantifier": "every affine problem, number of variables and objectives", "why_tests_cant": "All problems.", "anchors": ["nyx-core/src/md/opti/raphson_finite_diff.rs: try_achieve_fd", "nyx-core/src/md/objective.rs: Objective", "nyx-core/src/utils.rs: pseudo_inverse"]}
{"id": "C110", "title": "apply accepts every solution of the targeter", "statement": "Targeter::apply on a solution returned by the same targeter succeeds and ends on the achieved orbit.", "quantifier": "every targeter and solution", "why_tests_cant": "All frames, factors and histories.", "anchors": ["nyx-core/src/md/opti/targeter.rs: Targeter::apply, Targeter::apply_with_traj"]}
{"id": "C111", "title": "Finite burn targeting corrects the burn that it reports", "statement": "The correction of the duration or thrust level moves the burn towards the objective, and the maneuver of the solution (to_mnvr) is the one that achieved it.", "quantifier": "every finite burn problem", "why_tests_cant": "All problems.", "anchors": ["nyx-core/src/md/opti/raphson_finite_diff.rs: try_achieve_fd", "nyx-core/src/md/opti/solution.rs: TargeterSolution::to_mnvr"]}
{"id": "C112", "title": "The targeter with the state transition matrix returns solutions of its problem", "statement": "If try_achieve_dual returns a solution, propagating the corrected state gives the achieved state, which meets every objective, and the corrected state is the initial one plus the reported correction, in the correction frame.", "quantifier": "every dynamics, variables and objectives", "why_tests_cant": "All histories.", "anchors": ["nyx-core/src/md/opti/raphson_hyperdual.rs: Targeter::try_achieve_dual"]}
{"id": "C113", "title": "A multiple shooting solution is a continuous chain of targeted legs", "statement": "If solve returns, each leg starts from the state achieved by the previous one with an impulsive maneuver, arrives within tolerance of its node at its epoch, the last node is the target, and build_trajectories reproduces the legs.", "quantifier": "every number of nodes, dynamics and cost", "why_tests_cant": "All iterations.", "anchors": ["nyx-core/src/md/opti/multipleshooting/multishoot.rs: MultipleShooting::solve, MultipleShootingSolution::build_trajectories"]}
{"id": "C114", "title": "The outer Jacobian of multiple shooting is the derivative of the maneuvers", "statement": "Each entry of the Jacobian computed by solve is the finite difference of a component of a maneuver when a component of a node is moved by the tolerance.", "quantifier": "every number of nodes, node and component", "why_tests_cant": "All entries.", "anchors": ["nyx-core/src/md/opti/multipleshooting/multishoot.rs: MultipleShooting::solve"]}
{"id": "C115", "title": "Multivariate generators draw the statistics that are configured", "statement": "MvnSpacecraft::new draws states that reproduce, linearized, the mean and standard deviation configured for each parameter, independently; from_spacecraft_cov draws the given mean and covariance and refuses a matrix with a negative variance; parameters that are documented are accepted.", "quantifier": "every template, list of dispersions, covariance, decomposition and standard draws", "why_tests_cant": "Tests compare a few sample statistics of a few elements.", "anchors": ["nyx-core/src/mc/multivariate.rs: MvnSpacecraft::new, zero_mean, from_spacecraft_cov, sample", "nyx-core/src/md/param.rs: is_orbital, is_b_plane"]}
{"id": "C116", "title": "Monte Carlo reports give the values of each run in order", "statement": "first_values_of, last_values_of, every_value_of, dispersion_values_of and the export give, for each run in order, the values of that run (or the default), labelled with its index.", "quantifier": "every list of runs", "why_tests_cant": "All combinations of failures.", "anchors": ["nyx-core/src/mc/results.rs: Results"]}
{"id": "C117", "title": "Execution errors turn and scale the maneuver as configured", "statement": "unit_vector_from_seed gives unit vectors; dv_pointing_error turns the maneuver without changing its size; dv_execution_error gives it the size that is drawn.", "quantifier": "every maneuver, direction and value drawn", "why_tests_cant": "All directions and draws.", "anchors": ["nyx-core/src/mc/helpers.rs: unit_vector_from_seed, dv_pointing_error, dv_execution_error"]}
{"id": "C118", "title": "The covariance of a noise is the variance of its samples", "statement": "For every white noise, Gauss-Markov process and their sum, covariance(epoch) is the variance of sample(epoch) and the mean of the samples is the mean of the white noise plus the constant bias, for the first and for every later sample.", "quantifier": "every process, epochs and number of samples", "why_tests_cant": "A test draws finitely many samples of a few processes.", "anchors": ["nyx-core/src/od/noise/mod.rs: StochasticNoise::covariance, sample", "nyx-core/src/od/noise/gauss_markov.rs: Stochastics for GaussMarkov", "nyx-core/src/od/noise/white.rs: Stochastics for WhiteNoise"]}
{"id": "C119", "title": "Scaling a noise scales its samples", "statement": "The product of a stochastic noise and a factor k has k squared times the covariance and its samples are k times the samples.", "quantifier": "every noise, factor and draws", "why_tests_cant": "All noises.", "anchors": ["nyx-core/src/od/noise/mod.rs: Mul<f64> for StochasticNoise", "nyx-core/src/od/noise/gauss_markov.rs: Mul<f64>", "nyx-core/src/od/noise/white.rs: Mul<f64>"]}
{"id": "C120", "title": "Simulating a noise gives the rows documented", "statement": "simulate gives, for each run in order (25 by default), one row per minute of a day except strictly between the sixth and the twelfth hour, with the samples of that noise from the seed of the run.", "quantifier": "every noise, start, number of runs and seeds", "why_tests_cant": "All runs and seeds.", "anchors": ["nyx-core/src/od/noise/mod.rs: StochasticNoise::simulate"]}
{"id": "C121", "title": "The noise of a link has the documented variance", "statement": "from_hardware_range_km and from_hardware_doppler_km_s give noises whose covariance is thermal noise plus clock noise, which decrease with the signal to noise ratio, the chip rate, the carrier and the integration time; the presets are the values in dB-Hz documented.", "quantifier": "every clock, chip rate, carrier, integration time and ratio", "why_tests_cant": "Monotonicity over all values.", "anchors": ["nyx-core/src/od/noise/link_specific.rs: SN0, CN0, StochasticNoise::from_hardware_range_km, from_hardware_doppler_km_s"]}
{"id": "C122", "title": "Adding and removing types keeps a station consistent", "statement": "After any sequence of with_msr_type, without_msr_type, with_integration_time and with_msr_bias_constant, the types of a ground station have no duplicates and each one has a noise; adding a type then sets exactly that noise, removing it removes the type and its noise, and nothing else changes.", "quantifier": "every sequence of builder calls and arguments", "why_tests_cant": "All sequences.", "anchors": ["nyx-core/src/od/ground_station/mod.rs: GroundStation::with_msr_type, without_msr_type, with_integration_time, with_msr_bias_constant"]}
{"id": "C123", "title": "An instantaneous measurement is the geometry plus the noise of each type", "statement": "When the elevation reaches the mask, the measurement has the name of the station, the epoch of the state plus the time noise, the types of the station in order, and each value is the corresponding quantity plus the noise drawn for its type in that order; otherwise there is no measurement and nothing is drawn. Without generator the values are exact.", "quantifier": "every station built, state, generator and geometry", "why_tests_cant": "All sets of types, noises and draws.", "anchors": ["nyx-core/src/od/ground_station/trk_device.rs: measure_instantaneous", "nyx-core/src/od/ground_station/mod.rs: noises", "nyx-core/src/od/msr/types.rs: compute_one_way"]}
{"id": "C124", "title": "A measurement over an integration time is the mean of both ends", "statement": "With an integration time, the measurement is at the middle of the states at both ends, both have to be above the mask, range and Doppler are the means of both ends plus the noise, whose variance is the covariance the device declares.", "quantifier": "every station, states and noises", "why_tests_cant": "All states and draws.", "anchors": ["nyx-core/src/od/ground_station/trk_device.rs: measure", "nyx-core/src/od/msr/types.rs: compute_two_way"]}
{"id": "C125", "title": "A position device reports the coordinates of its types", "statement": "Each value of the measurement of a position device is the coordinate named by its type plus the noise of that type.", "quantifier": "every device built, state and generator", "why_tests_cant": "All lists of types.", "anchors": ["nyx-core/src/od/position/trk_device.rs: measure_instantaneous, measurement_bias", "nyx-core/src/od/position/mod.rs: PositionDevice"]}
{"id": "C126", "title": "A link between spacecraft measures the distance and its rate", "statement": "The range of an interlink is the distance of both spacecraft and its Doppler the derivative of this distance, plus the noise; there is no measurement when the line of sight is obstructed.", "quantifier": "every pair of states and motions through them", "why_tests_cant": "All relative motions.", "anchors": ["nyx-core/src/od/interlink/trk_device.rs: measure_instantaneous"]}
{"id": "C127", "title": "A constant bias does not change the residual", "statement": "If a device simulates its measurements with a constant bias in its noise, and the same device is used to process them, the bias is removed: the prefit residual is that of the same measurement without bias.", "quantifier": "every device, bias and state", "why_tests_cant": "All biases.", "anchors": ["nyx-core/src/od/process/mod.rs: process_arc", "nyx-core/src/od/blse/mod.rs: accumulate", "nyx-core/src/od/ground_station/trk_device.rs: measurement_bias"]}
{"id": "C128", "title": "An initial uncertainty in a local frame is rotated to the inertial frame", "statement": "SpacecraftUncertainty::to_estimate refuses negative uncertainties, and otherwise returns an estimate whose covariance is that of the inertial components of a vector with independent components of the given standard deviations in the chosen frame; it is positive semi-definite.", "quantifier": "every nominal state, frame and uncertainties", "why_tests_cant": "All orientations and uncertainties; the tests only use equal uncertainties on the three axes.", "anchors": ["nyx-core/src/od/estimate/sc_uncertainty.rs: SpacecraftUncertainty::to_estimate"]}
{"id": "C129", "title": "The uncertainty of an orbital element is that of its first order change", "statement": "sigma_for(element) squared is the variance of the first order change of the element under an error with the covariance of the estimate; keplerian_covar is the covariance of the six elements and has these variances on its diagonal.", "quantifier": "every estimate with a covariance, element and error law", "why_tests_cant": "All covariances and gradients.", "anchors": ["nyx-core/src/od/estimate/kfestimate.rs: sigma_for, keplerian_covar"]}
{"id": "C130", "title": "within_sigma is the test on each component", "statement": "within_sigma(k) is true exactly when each component of the deviation is at most k times its standard deviation in absolute value.", "quantifier": "every estimate and bound", "why_tests_cant": "All deviations and covariances.", "anchors": ["nyx-core/src/od/estimate/mod.rs: Estimate::within_sigma, within_3sigma"]}
{"id": "C131", "title": "The sigmas displayed are standard deviations", "statement": "The values printed as sigmas by Display and LowerExp of an estimate are its standard deviations in the unit printed.", "quantifier": "every estimate", "why_tests_cant": "All covariances.", "anchors": ["nyx-core/src/od/estimate/kfestimate.rs: Display, LowerExp"]}
{"id": "C132", "title": "Setters and scaling of an estimate change what they name", "statement": "set_state_deviation, set_covar and set_epoch change this part of the estimate and nothing else; the product by k multiplies the standard deviations by k.", "quantifier": "every estimate and arguments", "why_tests_cant": "All values.", "anchors": ["nyx-core/src/od/estimate/mod.rs: set_epoch, state", "nyx-core/src/od/estimate/kfestimate.rs: set_state_deviation, set_covar, Mul<f64>"]}
{"id": "C133", "title": "A residual gives the component of the type asked", "statement": "prefit, postfit, trk_noise, real_obs, computed_obs and whitened_resid return the component at the place of the type, or nothing when the type is absent; rejected residuals are marked; nis is the squared norm of the whitened residual.", "quantifier": "every residual and type", "why_tests_cant": "All types and sizes.", "anchors": ["nyx-core/src/od/estimate/residual.rs: Residual"]}
{"id": "C134", "title": "The random variable of an estimate has its statistics", "statement": "to_random_variable generates states with the covariance of the estimate and zero mean about its nominal state; to_estimate_randomized moves the nominal state by a sample of the initial uncertainty.", "quantifier": "every estimate with a covariance", "why_tests_cant": "Statistics over all draws.", "anchors": ["nyx-core/src/od/estimate/kfestimate.rs: to_random_variable", "nyx-core/src/od/estimate/sc_uncertainty.rs: to_estimate_randomized"]}
{"id": "C135", "title": "Devices with an invalid configuration take no measurement", "statement": "sanity_check accepts exactly the configurations with a scheduler and no strands, or no scheduler and strands that are chronological and last a sampling period; a device that fails it is ignored by the simulator.", "quantifier": "every set of devices and configurations", "why_tests_cant": "All configurations.", "anchors": ["nyx-core/src/od/simulator/trkconfig.rs: TrkConfig::sanity_check", "nyx-core/src/od/simulator/arc.rs: TrackingArcSim::with_rng, generate_measurements"]}
{"id": "C136", "title": "The time series of the simulator fits every device", "statement": "The step of the time series of the simulator is the greatest common divisor of the sampling periods of the valid devices; the simulator is refused exactly when there is none.", "quantifier": "every set of devices and configurations", "why_tests_cant": "All sets of periods.", "anchors": ["nyx-core/src/od/simulator/arc.rs: TrackingArcSim::with_rng"]}
{"id": "C137", "title": "The constructors of Ruggiero accept what the law can control", "statement": "Ruggiero::from_\u03b7thresholds (and simple) accept exactly one to five objectives on the semi major axis, eccentricity, inclination, RAAN and argument of periapsis, with at least as many thresholds, each objective taking the threshold at its position; the law built never fails on an orbit with elements.", "quantifier": "every list of objectives and thresholds", "why_tests_cant": "All lists.", "anchors": ["nyx-core/src/dynamics/guidance/ruggiero.rs: simple, from_\u03b7thresholds, from_max_eclipse, weighting, direction"]}
{"id": "C138", "title": "The shadow model reports the deepest eclipse", "statement": "ShadowModel::compute returns the largest of the percentages of its bodies, and zero when no body shades.", "quantifier": "every list of bodies and percentages", "why_tests_cant": "All lists.", "anchors": ["nyx-core/src/cosmic/eclipse.rs: ShadowModel::compute"]}
{"id": "C139", "title": "Ruggiero moves its element towards the target as fast as possible", "statement": "With one objective outside its tolerance and above its efficiency threshold, the thrust direction moves the element towards the target, and no unit thrust moves it faster.", "quantifier": "every closed orbit, element and objective", "why_tests_cant": "Continuous ranges of orbits and directions.", "anchors": ["nyx-core/src/dynamics/guidance/ruggiero.rs: direction"]}
{"id": "C140", "title": "Kluever thrusts along the blend of its objectives", "statement": "In the thrust mode the direction is the unit vector along the weighted sum of the directions of the objectives outside their tolerance, with full throttle; in the other modes direction and throttle are zero.", "quantifier": "every spacecraft, objectives and weights", "why_tests_cant": "Any number of objectives.", "anchors": ["nyx-core/src/dynamics/guidance/kluever.rs: direction, throttle"]}
{"id": "C141", "title": "Kluever moves a single element towards its target as fast as possible", "statement": "With one objective of positive weight outside its tolerance, the thrust direction moves the element towards the target, and no unit thrust moves it faster.", "quantifier": "every closed orbit, element and objective", "why_tests_cant": "Continuous ranges of orbits and directions.", "anchors": ["nyx-core/src/dynamics/guidance/kluever.rs: direction"]}
{"id": "C142", "title": "Gooding's solver fails only for documented reasons", "statement": "For states away from the centre and a time of flight above the tolerance, gooding returns a solution, or one of three errors (several revolutions, targets too close, iterations exhausted): the error on the unreasonable phi does not occur and no square root of a negative number is taken.", "quantifier": "every positions, time of flight, gravitational parameter and kind of transfer", "why_tests_cant": "A continuum of geometries and a bisection loop.", "anchors": ["nyx-core/src/tools/lambert/godding.rs: gooding"]}
{"id": "C143", "title": "Gooding's solution reaches the target in the time asked for", "statement": "The two body motion that starts at the first position with the first velocity arrives at the second position with the second velocity after the time of flight within the tolerance of the solver.", "quantifier": "every solution returned", "why_tests_cant": "Needs the solution of a differential equation.", "anchors": ["nyx-core/src/tools/lambert/godding.rs: gooding"]}
{"id": "C144", "title": "Degenerate transfers are reported", "statement": "Aligned positions, equal positions and a zero time of flight are errors of gooding and izzo and not solutions that are not numbers, nor panics.", "quantifier": "every degenerate input", "why_tests_cant": "Measure zero inputs.", "anchors": ["nyx-core/src/tools/lambert/godding.rs: gooding", "nyx-core/src/tools/lambert/izzo.rs: izzo, find_xy", "nyx-core/src/tools/lambert/mod.rs: LambertInput::from_planetary_states"]}
{"id": "C145", "title": "Izzo's solution reaches the target", "statement": "The two body motion that starts at the first position with the first velocity of the solution of izzo arrives at the second position with the second velocity.", "quantifier": "every solution returned", "why_tests_cant": "Needs the solution of a differential equation, for all geometries, directions and numbers of revolutions.", "anchors": ["nyx-core/src/tools/lambert/izzo.rs: izzo, reconstruct, tof_equation, hyp2f1b"]}
{"id": "C146", "title": "Izzo's iteration is the method of Householder on the time of flight", "statement": "Each step of householder uses the time of flight of Lancaster and Blanchard and its exact first, second and third derivatives, whether the series or the closed form is evaluated; halley minimises the time of flight.", "quantifier": "every x above -1 other than 1, lambda and number of revolutions", "why_tests_cant": "Derivatives of transcendental functions.", "anchors": ["nyx-core/src/tools/lambert/izzo.rs: householder, halley, tof_equation_p, tof_equation_p2, tof_equation_p3, hyp2f1b"]}
{"id": "C147", "title": "The departure asymptote and C3", "statement": "The transfer and arrival orbits differ from the planetary states only by their velocity; c3 is the square of the excess velocity at departure, whose declination and right ascension are reported; v_inf_outgoing and v_inf_incoming are the velocities of the transfer relative to the planets.", "quantifier": "every solution", "why_tests_cant": "Continuous ranges of velocities.", "anchors": ["nyx-core/src/tools/lambert/mod.rs: LambertSolution, LambertInput::from_planetary_states"]}
{"id": "C148", "title": "The phases of a mission sequence are entered at their epochs", "statement": "Each enabled phase is entered, and its discrete event applied, at the epoch at which it is planned; it lasts until the epoch of the next entry.", "quantifier": "every sequence, start state and propagator", "why_tests_cant": "All sequences of phases.", "anchors": ["nyx-core/src/dynamics/sequence/mod.rs: SpacecraftSequence::propagate"]}
{"id": "C149", "title": "The phase in progress is flown first", "statement": "When the epoch of the state is inside a phase, that phase is the first one flown.", "quantifier": "every sequence and start state", "why_tests_cant": "All epochs.", "anchors": ["nyx-core/src/dynamics/sequence/mod.rs: SpacecraftSequence::propagate"]}
{"id": "C150", "title": "Setting a sequence up builds what it needs", "statement": "setup never panics; it succeeds exactly when the sequence is valid and the configurations that enabled phases use can be built; it then builds those and no others, and a second call changes nothing.", "quantifier": "every sequence and configurations", "why_tests_cant": "All sequences.", "anchors": ["nyx-core/src/dynamics/sequence/mod.rs: SpacecraftSequence::setup, validate"]}
{"id": "C151", "title": "Staging and docking are exact and inverse of each other", "statement": "Staging removes and docking adds exactly the properties of the event and the velocity of the maneuver, and nothing else; docking what was staged, with the opposite maneuver, restores the state; a change of frame alters only the orbit.", "quantifier": "every state and event", "why_tests_cant": "Continuous ranges, all combinations of optional fields.", "anchors": ["nyx-core/src/dynamics/sequence/mod.rs: SpacecraftSequence::propagate", "nyx-core/src/dynamics/sequence/discrete_event.rs"]}
{"id": "C152", "title": "Impulsive maneuvers are applied in their local frame", "statement": "The velocity change of an impulsive maneuver of a discrete event is its vector expressed in the local frame which it names.", "quantifier": "every state, local frame and vector", "why_tests_cant": "Continuous ranges.", "anchors": ["nyx-core/src/dynamics/sequence/mod.rs: SpacecraftSequence::propagate", "nyx-core/src/dynamics/guidance/mnvr.rs: ImpulsiveManeuver"]}
{"id": "C153", "title": "Staging never leaves a negative mass", "statement": "An event that would remove more mass or area than the spacecraft has is an error.", "quantifier": "every state and event", "why_tests_cant": "Continuous ranges.", "anchors": ["nyx-core/src/dynamics/sequence/mod.rs: SpacecraftSequence::propagate"]}
{"id": "C154", "title": "The phases survive serialization", "statement": "Writing the phases as pairs and reading them back gives the same map; whatever the pairs read, the epochs are sorted and each holds the last phase given for it.", "quantifier": "every map and list of pairs", "why_tests_cant": "All maps.", "anchors": ["nyx-core/src/dynamics/sequence/mod.rs: map_as_pairs, pairs_as_map"]}
{"id": "C155", "title": "A propagator has exactly the models of its configuration", "statement": "The dynamics built from a configuration have one model for each one configured, none else, decrement the mass and have no guidance law; the build fails exactly when the gravity field cannot be loaded.", "quantifier": "every configuration", "why_tests_cant": "All combinations.", "anchors": ["nyx-core/src/dynamics/sequence/config.rs: Dynamics::build, PropagatorConfig::build"]}
{"id": "C156", "title": "Ground stations and their noises survive the DER encoding", "statement": "Decoding the DER encoding of a noise or of a ground station returns the original; the announced length is the number of bytes written, trailing bytes are refused.", "quantifier": "every noise and station", "why_tests_cant": "All values and combinations of optional fields.", "anchors": ["nyx-core/src/od/noise/mod.rs: StochasticNoise", "nyx-core/src/od/noise/gauss_markov.rs", "nyx-core/src/od/noise/white.rs", "nyx-core/src/od/ground_station/mod.rs: GroundStation"]}
{"id": "C157", "title": "Thrusters and guidance modes survive the DER encoding", "statement": "Decoding the DER encoding of a thruster or of a guidance mode returns the original.", "quantifier": "every thruster and mode", "why_tests_cant": "All values.", "anchors": ["nyx-core/src/cosmic/spacecraft.rs: Encode, Decode for Spacecraft", "nyx-core/src/dynamics/guidance/mod.rs: Thruster"]}
{"id": "C158", "title": "The gradient of an orbit is the derivative of its equations of motion", "statement": "OrbitalDynamics::dual_eom returns the derivative computed by eom, and its matrix is the derivative of eom with respect to position and velocity, whatever the acceleration models, if the gradients of these are exact.", "quantifier": "every orbit, list of acceleration models", "why_tests_cant": "Infinitely many states; a derivative is a limit, finite differences only approximate it.", "anchors": ["nyx-core/src/dynamics/orbital.rs: OrbitalDynamics::eom, OrbitalDynamics::dual_eom"]}
{"id": "C159", "title": "Point masses: acceleration and exact partials", "statement": "The acceleration of the point masses is the sum over the bodies other than the center of the difference between their pulls on the spacecraft and on the center; the gradient is its derivative with respect to the position.", "quantifier": "every orbit, list of bodies", "why_tests_cant": "Infinitely many states.", "anchors": ["nyx-core/src/dynamics/orbital.rs: PointMasses::eom, PointMasses::gradient"]}
{"id": "C160", "title": "Solar pressure: exact partials, and what the constructors set", "statement": "The gradient of the solar pressure is the derivative of the force with respect to position and to the coefficient of reflectivity; the constructors use the flux and every shadow body given.", "quantifier": "every spacecraft and almanac", "why_tests_cant": "Infinitely many states.", "anchors": ["nyx-core/src/dynamics/solarpressure.rs: SolarPressure::gradient, SolarPressure::new, SolarPressure::with_flux, SolarPressure::default_no_estimation"]}
{"id": "C161", "title": "Densities of the atmosphere", "statement": "The densities are positive; the exponential model has its reference density at its reference altitude, with parameters in meters; the standard atmosphere is the fit below its limit and the tail above.", "quantifier": "every altitude", "why_tests_cant": "Continuous.", "anchors": ["nyx-core/src/dynamics/drag.rs: AtmDensity, Drag::earth_exp, Drag::std_atm1976"]}
{"id": "C162", "title": "The gradient of a spacecraft is the derivative of its equations of motion", "statement": "With a state transition matrix, the derivative of the state is the same as without, and the matrix is the derivative of the equations of motion with respect to the nine components.", "quantifier": "every spacecraft, list of acceleration and force models", "why_tests_cant": "Infinitely many states; a derivative is a limit.", "anchors": ["nyx-core/src/dynamics/spacecraft.rs: SpacecraftDynamics::eom, SpacecraftDynamics::dual_eom"]}
{"id": "C163", "title": "The acceleration of a gravity field is the gradient of its potential", "statement": "The equations of motion of a gravity field return the gradient, at the position in the frame of the field, of the potential of spherical harmonics with normalized coefficients and Legendre functions, rotated into the frame of the orbit.", "quantifier": "every degree, order, coefficients, position other than the center", "why_tests_cant": "All degrees and orders; a gradient is a limit.", "anchors": ["nyx-core/src/dynamics/gravity_field.rs: GravityField::new, GravityField::eom"]}
{"id": "C164", "title": "The partials of a gravity field are exact and symmetric", "statement": "The gradient of a gravity field returns its acceleration and the derivative of this acceleration with respect to the position, a symmetric matrix in the frame of the field.", "quantifier": "every degree, order, coefficients, position other than the center", "why_tests_cant": "All degrees and orders; a derivative is a limit.", "anchors": ["nyx-core/src/dynamics/gravity_field.rs: GravityField::gradient"]}
{"id": "C165", "title": "Loading a gravity field truncates it to the degree and order requested", "statement": "The potential of a field that is loaded is that of the coefficients in the file up to the degree and order requested, whatever the file has beyond; the loading does not panic.", "quantifier": "every file, degree and order", "why_tests_cant": "Unboundedly many files.", "anchors": ["nyx-core/src/io/gravity.rs: GravityFieldData::from_shadr, GravityFieldData::from_cof, GravityFieldData::load"]}
{"id": "C166", "title": "The coefficients of gravity files are read as they are written", "statement": "Each line of a SHADR or COF file gives its degree, order and coefficients; from_config reads each of the two formats.", "quantifier": "every line, path", "why_tests_cant": "Unboundedly many lines.", "anchors": ["nyx-core/src/io/gravity.rs: GravityFieldData::from_config, GravityFieldData::from_cof, GravityFieldData::load"]}
{"id": "C167", "title": "A field from J2 is that of the oblateness", "statement": "The field of from_j2 has the potential of a body with the oblateness J2.", "quantifier": "every J2 and position", "why_tests_cant": "Continuous.", "anchors": ["nyx-core/src/io/gravity.rs: GravityFieldData::from_j2"]}
{"id": "C168", "title": "The jacobian of the B-plane is its derivative with respect to the velocity", "statement": "The partials of B dot T, B dot R and the linearized time of flight are their derivatives; the jacobian has those with respect to the velocity as rows, and jacobian2 leaves out one component of the velocity.", "quantifier": "every hyperbolic orbit", "why_tests_cant": "A derivative is a limit.", "anchors": ["nyx-core/src/cosmic/bplane.rs: BPlane::from_dual, BPlane::jacobian, BPlane::jacobian2"]}
{"id": "C169", "title": "A correction to the B-plane achieves its target", "statement": "try_achieve_b_plane returns a correction of the velocity which leads to the plane returned, within the tolerances of the target on B dot T, B dot R and the time of flight; each step is the smallest one that makes up for the errors to the first order.", "quantifier": "every orbit and target", "why_tests_cant": "Unboundedly many orbits.", "anchors": ["nyx-core/src/cosmic/bplane.rs: try_achieve_b_plane, BPlaneTarget"]}
{"id": "C170", "title": "The solid tides accelerate along the potential of the bulges", "statement": "The acceleration of the solid tides is the gradient, rotated into the frame of the orbit, of the sum over the bodies of their tidal potentials k_n mu_b R^(2n+1) / (d^(n+1) r^(n+1)) P_n, of degree 2 and of degree 3 if asked for; on the sphere each is the Love number times the term of that degree of the potential of the body.", "quantifier": "every set of perturbers, position and epoch", "why_tests_cant": "The potential is a function of continuous positions.", "anchors": ["nyx-core/src/dynamics/solid_tides.rs: SolidTides::eom, SolidTides::accumulate_deltas, TidalPerturber::compute_pert"]}
{"id": "C171", "title": "The partials of the solid tides are exact", "statement": "The gradient of the solid tides is the derivative of their acceleration with respect to the position, with the same acceleration, and is symmetric.", "quantifier": "every set of perturbers, position and epoch", "why_tests_cant": "A derivative is a limit.", "anchors": ["nyx-core/src/dynamics/solid_tides.rs: SolidTides::gradient"]}
{"id": "C172", "title": "The tides of the Earth and Moon use frames with all their constants", "statement": "earth_moon_system succeeds if and only if each of the three frames, as given or fetched from the almanac if it has no gravitational parameter, has a gravitational parameter and a radius; it then has the Moon with degree 3 and the Sun without.", "quantifier": "every almanac and frames", "why_tests_cant": "Unboundedly many almanacs.", "anchors": ["nyx-core/src/dynamics/solid_tides.rs: SolidTides::earth_moon_system"]}
{"id": "C173", "title": "The jacobian of a ground asset is the derivative of its cartesian state", "statement": "geodetic_to_cartesian_jacobian is the derivative of the position and velocity of the asset on the ellipsoid with respect to latitude, longitude, height and their rates; the velocity is the derivative of the position when the coordinates follow the rates.", "quantifier": "every asset and every ellipsoid", "why_tests_cant": "A derivative is a limit.", "anchors": ["nyx-core/src/od/groundpnt/mod.rs: GroundAsset::geodetic_to_cartesian_jacobian"]}
{"id": "C174", "title": "A ground asset has the velocity it is given", "statement": "velocity_sez_m_s is the velocity of the place of the asset along south, east and zenith, in meters per second; after with_velocity_sez_m_s it is the velocity given, and the place is the same.", "quantifier": "every asset and velocity", "why_tests_cant": "Continuous.", "anchors": ["nyx-core/src/od/groundpnt/mod.rs: GroundAsset::with_velocity_sez_m_s, GroundAsset::velocity_sez_m_s, latlongalt_rate, velocity_sez_from_latlongalt_rate"]}
{"id": "C175", "title": "The great circle distance is an angle times the radius", "statement": "great_circle_distance_km is the mean equatorial radius times the angle between the verticals of both assets: it is symmetric, satisfies the triangle inequality and is zero only for the same vertical.", "quantifier": "every pair of assets, including antipodes and longitudes beyond a turn", "why_tests_cant": "Continuous.", "anchors": ["nyx-core/src/od/groundpnt/mod.rs: GroundAsset::great_circle_distance_km"]}
{"id": "C176", "title": "The vector of a ground asset determines its state", "statement": "set after to_vector gives the same asset at the epoch asked for, to_vector after set gives the vector when there is a state transition matrix, a deviation is added component by component, and the exported parameters are those with a value.", "quantifier": "every asset, vector and epoch", "why_tests_cant": "Unboundedly many states.", "anchors": ["nyx-core/src/od/groundpnt/mod.rs: GroundAsset::to_vector, GroundAsset::set, GroundAsset::add, GroundAsset::value, GroundAsset::export_params"]}
{"id": "C177", "title": "Interpolated ground assets stay on their line", "statement": "interpolate between states of an asset which moves at constant rates gives that asset at the epoch asked for.", "quantifier": "every list of at most thirteen states", "why_tests_cant": "Unboundedly many states.", "anchors": ["nyx-core/src/od/groundpnt/mod.rs: GroundAsset::interpolate"]}
{"id": "C178", "title": "A propagated ground asset moves at constant rates", "statement": "A propagation with GroundDynamics keeps the rates and adds to latitude, longitude and height the elapsed seconds times their rates, with any method and any sequence of steps.", "quantifier": "every asset, method and sequence of steps", "why_tests_cant": "Unboundedly many steps.", "anchors": ["nyx-core/src/od/groundpnt/ground_dynamics.rs: GroundDynamics::eom", "nyx-core/src/propagators/instance.rs: PropInstance::single_step, PropInstance::derive"]}
{"id": "C179", "title": "The state transition matrix of a ground asset is the derivative of its motion", "statement": "After a propagation, the state transition matrix maps a deviation of the state before it to the deviation after it; the gradient of dual_eom is the derivative of the equations of motion.", "quantifier": "every asset, deviation and sequence of steps", "why_tests_cant": "Unboundedly many steps.", "anchors": ["nyx-core/src/od/groundpnt/ground_dynamics.rs: GroundDynamics::eom, GroundDynamics::dual_eom"]}
{"id": "C180", "title": "The sensitivity of a ground asset is the derivative of its measurement", "statement": "The row of a range (of a Doppler) is the derivative of the distance between asset and transmitter (of its rate) with respect to the state of the asset.", "quantifier": "every asset, transmitter and measurement", "why_tests_cant": "A derivative is a limit.", "anchors": ["nyx-core/src/od/groundpnt/sensitivity.rs: ScalarSensitivity::new"]}
{"id": "C181", "title": "The sensitivity of a Doppler depends on what the Doppler depends on", "statement": "The sensitivity of the Doppler of a ground asset with respect to its rates is that of the measurement computed by the device.", "quantifier": "every asset and transmitter", "why_tests_cant": "Every function of the coordinates.", "anchors": ["nyx-core/src/od/groundpnt/sensitivity.rs: ScalarSensitivity::new", "nyx-core/src/od/groundpnt/trk_device.rs: InterlinkTxSpacecraft::measure_instantaneous"]}
{"id": "C182", "title": "A type which a ground asset did not measure has no sensitivity", "statement": "Each row of h_tilde is the row of its type if the measurement has it, and zero otherwise.", "quantifier": "every measurement and list of types", "why_tests_cant": "Unboundedly many lists.", "anchors": ["nyx-core/src/od/groundpnt/sensitivity.rs: InterlinkTxSpacecraft::h_tilde"]}
{"id": "C183", "title": "An instantaneous measurement of a ground asset is what is seen of the transmitter", "statement": "measure_instantaneous gives nothing below the horizon and otherwise the range and range rate seen from the location of the asset plus the noise of each enabled type, at the epoch of the asset plus that of the timestamp.", "quantifier": "every asset, device and generator", "why_tests_cant": "Unboundedly many states.", "anchors": ["nyx-core/src/od/groundpnt/trk_device.rs: InterlinkTxSpacecraft::measure_instantaneous"]}
{"id": "C184", "title": "An integrated measurement of a ground asset is a mean", "statement": "measure with an integration time gives the mean of both ends plus the noise over the square root of two, nothing if an end is missing or below the horizon, and without one the instantaneous measurement.", "quantifier": "every trajectory, device and generator", "why_tests_cant": "Unboundedly many states.", "anchors": ["nyx-core/src/od/groundpnt/trk_device.rs: InterlinkTxSpacecraft::measure"]}
{"id": "C185", "title": "A measurement of a ground asset does not panic", "statement": "measure_instantaneous succeeds if the ephemerides and noises are there, whatever the types of the device.", "quantifier": "every asset and device", "why_tests_cant": "Unboundedly many states.", "anchors": ["nyx-core/src/od/groundpnt/trk_device.rs: InterlinkTxSpacecraft::measure_instantaneous"]}
{"id": "C186", "title": "A tracking arc written to a parquet file is read as it was", "statement": "from_parquet of the file written by to_parquet gives the same measurements, in the same order: same tracker, epoch and values of each type, and no others.", "quantifier": "every arc, with any mix of types", "why_tests_cant": "Only arcs whose measurements do not all have the same types expose it.", "anchors": ["nyx-core/src/od/msr/trackingdata/io_parquet.rs: TrackingDataArc::from_parquet, TrackingDataArc::to_parquet"]}
{"id": "C187", "title": "The bounds of an export of an arc are inclusive", "statement": "to_parquet with bounds writes the measurements between both; without an end bound up to the last one.", "quantifier": "every arc and bounds", "why_tests_cant": "The last measurement must be checked.", "anchors": ["nyx-core/src/od/msr/trackingdata/io_parquet.rs: TrackingDataArc::to_parquet"]}
{"id": "C188", "title": "A trajectory written to a parquet file is read as it was", "statement": "from_parquet of the file of a spacecraft trajectory gives the same states.", "quantifier": "every trajectory", "why_tests_cant": "Every parameter of a state.", "anchors": ["nyx-core/src/md/trajectory/traj.rs: Traj::to_parquet", "nyx-core/src/md/trajectory/sc_traj.rs: Traj<Spacecraft>::from_parquet"]}
{"id": "C189", "title": "The thrust direction of a trajectory survives its file", "statement": "The thrust direction of each state is read as it was written.", "quantifier": "every direction", "why_tests_cant": "Every direction of the sphere.", "anchors": ["nyx-core/src/md/trajectory/sc_traj.rs: Traj<Spacecraft>::from_parquet", "nyx-core/src/cosmic/spacecraft.rs: Spacecraft::set_value"]}
{"id": "C190", "title": "A trajectory exported with selected fields can be read", "statement": "A file with only some of the fields can be read, or the export refuses.", "quantifier": "every list of fields", "why_tests_cant": "Every selection.", "anchors": ["nyx-core/src/md/trajectory/traj.rs: Traj::to_parquet", "nyx-core/src/md/trajectory/sc_traj.rs: Traj<Spacecraft>::from_parquet"]}
{"id": "C191", "title": "An orbit determination solution can be exported within bounds", "statement": "to_parquet refuses solutions whose parts are not aligned, and otherwise writes the estimates within the bounds.", "quantifier": "every solution and bounds", "why_tests_cant": "Every window.", "anchors": ["nyx-core/src/od/process/solution/export.rs: ODSolution::to_parquet"]}
{"id": "C192", "title": "The estimates of a solution survive its file", "statement": "from_parquet of the file of a solution gives the same estimates.", "quantifier": "every solution", "why_tests_cant": "Every field of each estimate.", "anchors": ["nyx-core/src/od/process/solution/export.rs: ODSolution::to_parquet", "nyx-core/src/od/process/solution/import.rs: ODSolution::from_parquet"]}
{"id": "C193", "title": "The residuals of a solution survive its file", "statement": "from_parquet gives the same residuals: ratio, rejection, tracker, and the prefit, postfit, noise, real and computed values and whitened residual of each type.", "quantifier": "every solution, any order of the hash map of types", "why_tests_cant": "The order of a hash map is not reproducible.", "anchors": ["nyx-core/src/od/process/solution/export.rs: ODSolution::to_parquet", "nyx-core/src/od/process/solution/import.rs: ODSolution::from_parquet", "nyx-core/src/od/estimate/residual.rs: Residual"]}
{"id": "C194", "title": "The gains and ratios of a solution survive its file", "statement": "from_parquet gives the same filter gains and filter-smoother ratios.", "quantifier": "every solution", "why_tests_cant": "Every mix of types.", "anchors": ["nyx-core/src/od/process/solution/export.rs: ODSolution::to_parquet", "nyx-core/src/od/process/solution/import.rs: ODSolution::from_parquet"]}
{"id": "C195", "title": "The uncertainties exported in the RIC frame are those along its axes", "statement": "The columns of the RIC uncertainties are the standard deviations of the deviation along the radial, in-track and cross-track axes.", "quantifier": "every covariance and orientation", "why_tests_cant": "All orientations.", "anchors": ["nyx-core/src/od/process/solution/export.rs: ODSolution::to_parquet"]}
{"id": "C196", "title": "A solution for a ground asset can be exported", "statement": "to_parquet of the solution for a ground asset writes its estimates within the bounds, with each column as named.", "quantifier": "every solution and bounds", "why_tests_cant": "Every number of types.", "anchors": ["nyx-core/src/od/groundpnt/solution.rs: ODSolution::to_parquet"]}
{"id": "C197", "title": "Izzo refuses exactly the numbers of revolutions that are impossible", "statement": "For a time of flight of the problem without dimensions, find_xy answers that a number of revolutions is not feasible exactly if no elliptic transfer with that number of revolutions takes that time.", "quantifier": "every geometry parameter, time of flight, number of revolutions and tolerance", "why_tests_cant": "Quantifies over all ellipses; the error is near the least time of flight.", "anchors": ["nyx-core/src/tools/lambert/izzo.rs: find_xy, compute_t_min, halley"]}
{"id": "C198", "title": "A schedule of maneuvers is followed", "statement": "With maneuvers given in chronological order to ImpulsiveBurns and next called at successive epochs, ctrl_vector is the vector of the maneuver whose span holds the epoch, rotated from the VNC frame, and zero outside of all spans.", "quantifier": "every schedule and sequence of epochs", "why_tests_cant": "Every sequence of calls.", "anchors": ["nyx-core/src/dynamics/deltavctrl.rs: ImpulsiveBurns::ctrl_vector, ImpulsiveBurns::next"]}
{"id": "C199", "title": "The altitude heuristic builds nodes towards the final altitude", "statement": "linear_altitude_heuristic refuses fewer than three nodes; the nodes are equally spaced in time, their altitudes change linearly to the final altitude, and the last node is at the final altitude.", "quantifier": "every start, end, number of nodes, almanac and trajectory", "why_tests_cant": "All trajectories.", "anchors": ["nyx-core/src/md/opti/multipleshooting/altitude_heuristic.rs: linear_altitude_heuristic"]}
{"id": "C200", "title": "The options of the integrator stay consistent", "statement": "The constructors and setters of IntegratorOptions keep min_step <= init_step <= max_step, and with_max_step starts with the maximal step, as documented.", "quantifier": "every constructor and sequence of setters", "why_tests_cant": "Every sequence of setters.", "anchors": ["nyx-core/src/propagators/options.rs: IntegratorOptions::with_adaptive_step, with_fixed_step, with_max_step, with_tolerance, set_max_step, set_min_step", "nyx-core/src/propagators/propagator.rs: Propagator::set_max_step, set_min_step", "nyx-core/src/propagators/python.rs: IntegratorOptions::py_new"]}
{"id": "C201", "title": "A trajectory in another frame, or at other epochs, is the same motion", "statement": "to_frame gives each state in the new frame at the same epoch with all its other data, and rebuild gives the states of the trajectory at the requested epochs; the name is kept.", "quantifier": "every trajectory, transformation and list of epochs", "why_tests_cant": "Every trajectory.", "anchors": ["nyx-core/src/md/trajectory/sc_traj.rs: Traj<Spacecraft>::to_frame", "nyx-core/src/md/trajectory/traj.rs: Traj::rebuild"]}
{"id": "C202", "title": "A trajectory from an SPK file samples it on the requested grid", "statement": "from_bsp has one state at each start + k step up to and including the end, with the orbit of the file at that epoch and the template for the rest; the bounds default to the domain of the file.", "quantifier": "every file, bounds, step and template", "why_tests_cant": "Every grid.", "anchors": ["nyx-core/src/md/trajectory/sc_traj.rs: Traj<Spacecraft>::from_bsp"]}
{"id": "C203", "title": "A trajectory survives its ephemeris", "statement": "to_ephemeris has one record for each epoch, and reading it back as an OEM file gives the same trajectory.", "quantifier": "every trajectory and template", "why_tests_cant": "Every trajectory.", "anchors": ["nyx-core/src/md/trajectory/sc_traj.rs: Traj<Spacecraft>::to_ephemeris, from_oem_file", "nyx-core/src/od/process/solution/export.rs: ODSolution::to_ephemeris"]}
{"id": "C204", "title": "The file of the difference of two trajectories holds their differences", "statement": "ric_diff_to_parquet writes, at the epochs of the common window, the difference of the two trajectories in the RIC frame and the difference of each requested parameter, first minus second.", "quantifier": "every two trajectories, list of fields and step", "why_tests_cant": "Every pair of trajectories.", "anchors": ["nyx-core/src/md/trajectory/traj.rs: Traj::ric_diff_to_parquet"]}
{"id": "C205", "title": "An update of the filter uses only what was measured", "statement": "When process_arc processes a measurement, each window of measurement types updates the filter with the values which the measurement holds for these types: components of the state are not observed by rows for which there is no measurement.", "quantifier": "every process with tracking devices, arc, measurement, size of the measurements and state of the filter", "why_tests_cant": "The number of types of a device, the size of the measurements and the types present in each measurement vary independently; the effect is in the covariance.", "anchors": ["nyx-core/src/od/process/mod.rs: KalmanODProcess::process_arc", "nyx-core/src/od/msr/sensitivity.rs: h_tilde", "nyx-core/src/od/interlink/sensitivity.rs: h_tilde", "nyx-core/src/od/simulator/trackdata.rs: measurement_covar_matrix, measurement_bias_vector", "nyx-core/src/od/msr/measurement.rs: observation"]}
{"id": "C206", "title": "The noise covariance of a window is diagonal and positive semi-definite", "statement": "measurement_covar_matrix is the diagonal of the variances of the enabled types of the window and is symmetric positive semi-definite; hence all the covariances of a solution obtained with tracking devices are symmetric positive semi-definite.", "quantifier": "every list of types, variances, process and arc", "why_tests_cant": "Every process and arc.", "anchors": ["nyx-core/src/od/simulator/trackdata.rs: measurement_covar_matrix", "nyx-core/src/od/process/mod.rs: KalmanODProcess::process_arc"]}
{"id": "C207", "title": "Spacecraft which compare equal are the same", "statement": "PartialEq for Spacecraft is an equivalence, and spacecraft which compare equal have the same masses, surfaces, coefficients, thruster, guidance mode and thrust direction, up to the tolerances, so that the same dynamics act on them in the same way.", "quantifier": "every pair or triple of spacecraft, every comparison of orbits", "why_tests_cant": "Quantifies over all states and dynamics.", "anchors": ["nyx-core/src/cosmic/spacecraft.rs: impl PartialEq for Spacecraft"]}
{"id": "C208", "title": "The thrust angles are those of the thrust", "statement": "thrust_angles_deg returns the in-plane and out-of-plane angles, in degrees, of the stored thrust direction in the given local frame, in the convention in which the guidance laws build a direction from these angles.", "quantifier": "every spacecraft, orthogonal frame and direction", "why_tests_cant": "Every direction and frame.", "anchors": ["nyx-core/src/cosmic/spacecraft.rs: Spacecraft::thrust_angles_deg", "nyx-core/src/dynamics/guidance/mod.rs: plane_angles_from_unit_vector, unit_vector_from_plane_angles"]}
{"id": "C209", "title": "Process noise from a velocity error over a duration", "statement": "The noise built by from_velocity_km_s from a velocity error v (km/s) over a duration T adds, whenever a time T has elapsed, the square of v to the variance of the velocity along each axis, whatever the number of updates made meanwhile.", "quantifier": "every velocity error, duration, disable time, cadence of updates and size of the state", "why_tests_cant": "Every cadence; the unit test of the code compares a single value.", "anchors": ["nyx-core/src/od/snc.rs: ProcessNoise3D::from_velocity_km_s, propagate", "nyx-core/src/od/kalman/filtering.rs: time_update"]}
{"id": "C210", "title": "Every shipped method has the order it announces on non linear problems", "statement": "One step of size h of a method of order p on x' = f(tau, x), f any polynomial map, is the Taylor polynomial of degree p of the solution plus terms of degree more than p in h; the error estimate starts at the degree p' + 1 with p' the order of the embedded formula (p - 1, and p for the classical method). For the two tables whose coefficients are rounded (Runge Kutta 8-9 and Dormand Prince 7-8) the terms of lower degree have a defect of at most 1e-17 per elementary differential (3e-17 for the estimate).", "quantifier": "every polynomial vector field of any degree in any dimension, every initial state and step size, each shipped method", "why_tests_cant": "A wrong coefficient shows only in the rate of convergence, which needs all rooted trees (486 for order nine) and all vector fields.", "anchors": ["nyx-core/src/propagators/rk_methods/*.rs: RK::A_COEFFS, B_COEFFS, ORDER", "nyx-core/src/propagators/instance.rs: derive"]}
{"id": "C211", "title": "The consistency test against the truth", "statement": "The test of the normalized estimation errors over a solution and a truth trajectory fails exactly with fewer than two estimates or if the truth does not cover one of them, never panics, and otherwise compares the sum over the estimates of the squared errors weighted by the inverse covariances, restricted to the estimated components, with the bounds for the number of estimates times the number of estimated components; a filter whose errors are larger than its covariance allows is found over confident.", "quantifier": "every solution, every truth trajectory, every size of the state of at least six", "why_tests_cant": "All covariances, including singular ones, and all lists of estimates.", "anchors": ["nyx-core/src/od/process/solution/stats.rs: ODSolution::nees_consistency"]}
{"id": "C212", "title": "The verdict of the normality test", "statement": "The normality test at a level alpha accepts exactly if the probability of the Kolmogorov-Smirnov distance of the whitened residuals, for as many values as are in the sample, is at least alpha; a higher level rejects more; it fails exactly without accepted residuals and panics exactly if all values are equal.", "quantifier": "every solution, every level, every size of the measurements", "why_tests_cant": "All samples and levels; the unit tests use scalar measurements, for which the two counts agree.", "anchors": ["nyx-core/src/od/process/solution/stats.rs: ODSolution::is_normal, ks_test_normality"]}
{"id": "C213", "title": "The covariance of the filter is the covariance of its errors", "statement": "For a filter in deviation tracking over a history of time and measurement updates without rejection, with true deviations which follow the transition matrices and the process noises, and observations of the true deviations with measurement noises: if the initial covariance is the second moment of the initial error, the noises have the second moments which the filter uses and all are uncorrelated, then the covariance reported at the end is the second moment of the error at the end, and the error has zero mean if the initial error and the noises have.", "quantifier": "every probability space, history, state size, measurement sizes, noises and sequence of gains", "why_tests_cant": "A statement over probability distributions and all histories; simulations estimate it with a statistical error.", "anchors": ["nyx-core/src/od/kalman/filtering.rs: KalmanFilter::time_update, measurement_update", "nyx-core/src/od/snc.rs: ProcessNoise::propagate"]}
{"id": "C214", "title": "The residual ratios of a consistent filter have mean square one", "statement": "If the covariance of the filter is that of its errors, which have zero mean, the mean square of the residual ratio of the next measurement is one, so that the rejection threshold is a number of standard deviations.", "quantifier": "every probability space, filter, measurement size and noise", "why_tests_cant": "A statement over distributions; the unit tests use one noise realisation.", "anchors": ["nyx-core/src/od/kalman/filtering.rs: KalmanFilter::measurement_update"]}
{"id": "C215", "title": "The error of a propagation is bounded by the errors of its steps", "statement": "For equations of motion with a Lipschitz bound, two states which are stepped alike separate by at most a factor 1 + h K per step, with K given by the coefficients of the method; after n steps the error is at most exp(K T) times the initial error plus the sum of the errors of the steps, so that steps with errors of order p + 1 give an error of order p.", "quantifier": "every Lipschitz vector field in every normed space, every sequence of steps, each shipped method", "why_tests_cant": "All vector fields and numbers of steps; the unit tests compare one orbit at one epoch.", "anchors": ["nyx-core/src/propagators/instance.rs: derive", "nyx-core/src/propagators/rk_methods/*.rs: RK::A_COEFFS, B_COEFFS"]}
{"id": "C216", "title": "The error of a step on smooth equations of motion is of the order of the method plus one", "statement": "Along a trajectory of equations of motion which have p continuous derivatives, one step of size h of a method of order p from a state of the trajectory ends within a constant times h ^ (p + 1) of the trajectory, plus h times the rounding of the coefficients of the method; the constant is the same for all states of the trajectory.", "quantifier": "every smooth vector field in every Banach space, every trajectory over a bounded time, each shipped method, steps of both signs", "why_tests_cant": "All smooth equations of motion, hence all force models; a unit test can only compare values on one orbit.", "anchors": ["nyx-core/src/propagators/instance.rs: derive", "nyx-core/src/propagators/rk_methods/*.rs: RK::A_COEFFS, B_COEFFS, ORDER"]}
{"id": "C217", "title": "A propagation converges to the exact trajectory with the order of the method", "statement": "With steps of at most H over a bounded time, the error at the end of a propagation with a method of order p is at most a constant times the initial error plus H ^ p, up to the rounding of the coefficients (zero for four of the methods) and of the epochs, plus the sum of the errors with which the steps themselves are computed, for example in floating point.", "quantifier": "every smooth vector field in every Banach space, every trajectory over a bounded time, each shipped method, every sequence of steps", "why_tests_cant": "A limit over all step sizes; a unit test sees one or two of them.", "anchors": ["nyx-core/src/propagators/instance.rs: derive, single_step", "nyx-core/src/propagators/rk_methods/*.rs: RK::A_COEFFS, B_COEFFS, ORDER"]}
{"id": "C218", "title": "All states of a propagation are close to the exact trajectory", "statement": "A propagation with a shipped method of order p and steps of at most H, forward or backward, fixed or adaptive, with any stop condition: the state returned and every state sent over the channel are within a constant times (initial error + H ^ p) of the exact trajectory at their own epochs, up to the rounding of the coefficients, for adaptive steps a relative rounding of the time of one nanosecond over the minimum step, and for each step the error with which it is computed. The constant depends only on the equations and the trajectory.", "quantifier": "every smooth dynamics, trajectory, method, duration, stop condition, step control and number of steps", "why_tests_cant": "The composition of the loop, the last shortened step, the step control and the method over all runs.", "anchors": ["nyx-core/src/propagators/instance.rs: propagate, single_step, derive, for_duration, until_epoch", "nyx-core/src/propagators/rk_methods/*.rs"]}
{"id": "C219", "title": "A propagation forward and back returns to the initial state", "statement": "Propagating over a duration and then, with the same instance, over the opposite duration comes back to the initial epoch exactly, with a state which differs from the initial one by at most a constant times the step to the power of the order of the method.", "quantifier": "every smooth dynamics and trajectory, every duration of either sign, each method with exact coefficients, every fixed step short enough", "why_tests_cant": "All orbits and durations; the tests of the code do this for a few orbits with a tolerance.", "anchors": ["nyx-core/src/propagators/instance.rs: propagate, for_duration"]}
{"id": "C220", "title": "The propagated transition matrix converges to the derivative of the flow", "statement": "As the steps shrink, the transition matrix carried by a propagation which starts with the identity converges to the state transition matrix of the trajectory, the derivative of the final state by the initial state.", "quantifier": "every smooth dynamics and trajectory, each shipped method, forward or backward, fixed or adaptive steps, every stop condition", "why_tests_cant": "A limit over all step sizes for all dynamics; a unit test compares one matrix with a tolerance.", "anchors": ["nyx-core/src/dynamics/spacecraft.rs: SpacecraftDynamics::eom", "nyx-core/src/propagators/instance.rs: propagate, single_step, derive", "nyx-core/src/cosmic/spacecraft.rs: Spacecraft::to_vector, set"]}
{"id": "C221", "title": "The accuracy of a trajectory between its stored states", "statement": "If the stored states are close to a smooth motion, the state which Traj::at returns at any epoch of its span, stored or not, is at this epoch, and its position and velocity are within the error of the Hermite interpolation with 12 or 13 states: a power of the spacing of the states (24 or 26 for the position), plus the errors of the stored states times a factor which depends only on the ratio of the largest to the smallest spacing.", "quantifier": "every trajectory, motion with 26 derivatives, spacing of the states, errors of the states, epoch", "why_tests_cant": "All motions and epochs; a unit test compares a few epochs of one orbit.", "anchors": ["nyx-core/src/md/trajectory/interpolatable.rs: Interpolatable::interpolate", "nyx-core/src/md/trajectory/traj.rs: Traj::at"]}
{"id": "C222", "title": "The accuracy of a propagated and interpolated trajectory", "statement": "A propagation with a fixed step of a method of order p, from a state of a smooth trajectory, stored with for_duration_with_traj: at every epoch of its span, the position returned by Traj::at is within a constant times the step to the power p of the exact trajectory, and the velocity within a constant times the step to the power p - 1, whatever the order in which the states were delivered.", "quantifier": "every smooth dynamics and trajectory, each method with exact coefficients, every step short enough, number of steps from eleven, epoch and order of delivery", "why_tests_cant": "The composition of the integrator, the loop, the channel, the ordering and the interpolation, over all steps and epochs.", "anchors": ["nyx-core/src/propagators/instance.rs: for_duration_with_traj", "nyx-core/src/md/trajectory/traj.rs: Traj::at", "nyx-core/src/md/trajectory/interpolatable.rs: Interpolatable::interpolate"]}
{"id": "C223", "title": "The targeters converge near a solution", "statement": "If the objectives are smooth functions of the varied components of the state with a Jacobian of full rank, and the first error is small enough with respect to the curvature, the perturbations and the tolerances, both targeters succeed. The number of corrections is bounded by the rate of contraction, the correction by the size of the first error, and the errors decrease at the rate of Newton's method with an inexact Jacobian.", "quantifier": "every smooth problem, number of variables and objectives, factor, perturbation, and error of the state transition matrix", "why_tests_cant": "All problems; a unit test is one problem.", "anchors": ["nyx-core/src/md/opti/raphson_finite_diff.rs: try_achieve_fd", "nyx-core/src/md/opti/raphson_hyperdual.rs: try_achieve_dual", "nyx-core/src/utils.rs: pseudo_inverse"]}
{"id": "C224", "title": "The targeters can lay out their log for every problem", "statement": "Before its first iteration, a targeter computes the width of the columns of its log from the desired values and tolerances; this does not fail, whatever the objectives.", "quantifier": "every list of objectives", "why_tests_cant": "All values and tolerances.", "anchors": ["nyx-core/src/md/opti/raphson_finite_diff.rs: try_achieve_fd (max_obj_val, max_obj_tol, width)", "nyx-core/src/md/opti/raphson_hyperdual.rs: try_achieve_dual"]}
{"id": "C225", "title": "The navigation trajectory passes through the final estimate at each epoch", "statement": "ODSolution::to_traj builds a trajectory which, evaluated at the epoch of an estimate, returns the estimated state after all the measurements of this epoch. It fails only for a solution without estimates.", "quantifier": "every solution", "why_tests_cant": "All solutions; a unit test would have to compare the trajectory with estimates made of several measurements at one epoch.", "anchors": ["nyx-core/src/od/process/solution/mod.rs: ODSolution::to_traj", "nyx-core/src/md/trajectory/traj.rs: Traj::finalize, at"]}
{"id": "C226", "title": "Equality of orbit determination solutions", "statement": "== on solutions is reflexive, symmetric and transitive, and equal solutions have estimates at the same epochs.", "quantifier": "all solutions", "why_tests_cant": "Relations between all pairs and triples.", "anchors": ["nyx-core/src/od/process/solution/mod.rs: PartialEq for ODSolution"]}
{"id": "C227", "title": "Many spacecraft propagated from Python have their results at their positions", "statement": "many_until_epoch, many_for_duration and many_until_event return for the i-th spacecraft what the call for this spacecraft alone returns, and report a failure.", "quantifier": "every list of spacecraft, every outcome of the propagations, every way in which the parallel iterator splits the work", "why_tests_cant": "All splits of the work and all sets of failures.", "anchors": ["nyx-py/src/py_md.rs: Propagator.many_until_epoch, many_for_duration, many_until_event"]}
{"id": "C228", "title": "States pushed to a Python trajectory are found at their epochs", "statement": "After Trajectory.push or append, at returns each added state at its epoch, and the other states are kept.", "quantifier": "every trajectory and added states", "why_tests_cant": "All epochs, in particular those already in the trajectory.", "anchors": ["nyx-py/src/py_md.rs: PyTrajectory.push, append", "nyx-core/src/md/trajectory/traj.rs: Traj::finalize, at"]}
{"id": "C229", "title": "Process noise from accelerations has the size of the accelerations", "statement": "ProcessNoise.from_accel_m_s2 with the acceleration a adds, in an update after dt, the variance (a dt)^2 to the velocity, decaying with the time constants which are given.", "quantifier": "all accelerations, decays, epochs and intervals", "why_tests_cant": "All values; a unit test compares one matrix.", "anchors": ["nyx-py/src/py_od.rs: PyProcessNoise.from_accel_m_s2", "nyx-core/src/od/snc.rs: ProcessNoise::from_diagonal, propagate, to_matrix"]}
{"id": "C230", "title": "Covariances read from Python are those of the estimate", "statement": "The array SpacecraftEstimate.covariance has at row i and column j the covariance of components i and j; SpacecraftEstimate.from_diag accepts exactly nine values and puts them on the diagonal.", "quantifier": "every estimate and array", "why_tests_cant": "All matrices, also the ones which are not symmetric, for which an error in the order would show.", "anchors": ["nyx-py/src/py_od.rs: PySpacecraftEstimate.covariance, from_diag", "nyx-core/src/od/estimate/kfestimate.rs: KfEstimate::from_diag"]}
{"id": "C231", "title": "Gooding's solver finds every transfer of less than one turn", "statement": "If a transfer of less than one turn exists between the two positions, in the direction and time asked for, then lambert::gooding returns a solution.", "quantifier": "all pairs of positions, times of flight and gravitational parameters", "why_tests_cant": "All transfers; the few for which the solver gives up lie in a window which no list of samples hits.", "anchors": ["nyx-core/src/tools/lambert/godding.rs: gooding"]}
{"id": "C232", "title": "The Dhall schemas are those of what is written and read", "statement": "Every configuration serializes to a value of the type which its static_type declares, and a Dhall document of the declared type can be read with from_dhall.", "quantifier": "every PointMasses, AccelModels, ForceModels, PropagatorConfig, IntegratorOptions, Maneuver, Phase and SpacecraftSequence; every document", "why_tests_cant": "All values of the structures; the tests with annotations are ignored in the test suite.", "anchors": ["nyx-core/src/dynamics/sequence/config.rs: AccelModels::static_type, ForceModels::static_type, Phase::static_type", "nyx-core/src/dynamics/sequence/mod.rs: SpacecraftSequence::static_type, map_as_pairs", "nyx-core/src/io/gravity.rs: GravityFieldConfig::static_type", "nyx-core/src/dynamics/orbital.rs: PointMasses::static_type", "nyx-core/src/propagators/options.rs: IntegratorOptions::static_type", "nyx-core/src/dynamics/guidance/mnvr.rs: Maneuver::static_type, MnvrRepr::static_type", "nyx-core/src/dynamics/sequence/python.rs: SpacecraftSequence.from_dhall"]}
{"id": "C233", "title": "The stability test and the warning of the dual targeter mean what they say", "statement": "utils::are_eigenvalues_stable returns true for the eigenvalues of a matrix A exactly if all the motions of x' = A x stay bounded, and try_achieve_dual warns that the linearization is wrong only for propagations whose transition matrix is bad.", "quantifier": "every real matrix and its eigenvalues; every propagation with the transition matrix, whatever the forces, the integrator and the steps", "why_tests_cant": "The motions are functions on an unbounded interval of time; the tests check lists of eigenvalues and never the warning.", "anchors": ["nyx-core/src/utils.rs: are_eigenvalues_stable", "nyx-core/src/md/opti/raphson_hyperdual.rs: Targeter::try_achieve_dual", "nyx-core/src/dynamics/spacecraft.rs: SpacecraftDynamics::dual_eom"]}
{"id": "C234", "title": "The objectives made from a B-plane target are that target", "statement": "A plane which meets the objectives made by to_objectives, to_objectives_with_tolerance or to_all_objectives_with_tolerance is on the target, to the tolerances of the target, and the tolerances shown with the target are those tolerances.", "quantifier": "every target, tolerance and plane", "why_tests_cant": "The target, the tolerance and the plane are any reals.", "anchors": ["nyx-core/src/cosmic/bplane.rs: BPlaneTarget::to_objectives, to_objectives_with_tolerance, to_all_objectives_with_tolerance, from_targets, from_bt_br, Display", "nyx-core/src/md/objective.rs: Objective::within_tolerance, assess_value"]}
{"id": "C235", "title": "Timestamped exports keep their names apart", "statement": "With the timestamp option a file is written beside the path given, under its stem, a dash, the time and its extension, so that two files exported to different paths do not overwrite one another; without it, to the path given.", "quantifier": "every directory, stem, extension and stamp", "why_tests_cant": "All file names; no test exports with a timestamp.", "anchors": ["nyx-core/src/io/mod.rs: ExportCfg::actual_path, ExportCfg::timestamped"]}
{"id": "C236", "title": "Tracking configurations survive their text and refuse unreadable entries", "statement": "A TrkConfig written to YAML and read back is the same, and a document with a duration that is not readable is refused.", "quantifier": "every configuration, scheduler and document; any printing and parsing of durations and epochs which invert one another", "why_tests_cant": "All configurations and documents.", "anchors": ["nyx-core/src/io/mod.rs: duration_to_str, duration_from_str, maybe_duration_to_str, maybe_duration_from_str, epoch_to_str, epoch_from_str", "nyx-core/src/od/simulator/scheduler.rs: Scheduler, Cadence", "nyx-core/src/od/simulator/trkconfig.rs: TrkConfig, Strand"]}
{"id": "C237", "title": "Shooting nodes survive their text and become the objectives of their position", "statement": "Nodes written and read back are the same in the same order, a text that is not readable is an error, and the objectives of a node are met by exactly the orbits at its position (and speed), whichever component was updated.", "quantifier": "every node, list of nodes, component and orbit", "why_tests_cant": "All nodes and orbits; one test reads one node.", "anchors": ["nyx-core/src/md/opti/multipleshooting/ctrlnodes.rs: NodesSerde::to_node_vec, NodeSerde::to_node, Node, update_component"]}
{"id": "C238", "title": "Objective::new gives the documented tolerance to every parameter that can be targeted", "statement": "The objective made without a tolerance is met within a tenth of the unit of its parameter, for every parameter that a targeter accepts.", "quantifier": "every parameter and desired value", "why_tests_cant": "All parameters and values.", "anchors": ["nyx-core/src/md/objective.rs: Objective::new", "nyx-core/src/md/param.rs: StateParameter::default_event_precision"]}
{"id": "C239", "title": "A link between spacecraft measures over its integration time and says what it lacks", "statement": "With an integration time, InterlinkTxSpacecraft::measure gives the range and Doppler over that time with the noise of one draw, and nothing when one end is not visible; covariance, bias and location are returned or are an error.", "quantifier": "every link, trajectory, epoch, integration time, noise and generator", "why_tests_cant": "Trajectories and noises are arbitrary functions; the tests use one geometry.", "anchors": ["nyx-core/src/od/interlink/trk_device.rs: measure, measurement_covar, measurement_bias, location", "nyx-core/src/od/groundpnt/trk_device.rs: location, measurement_covar"]}
{"id": "C240", "title": "Exact data leave a filter on the truth", "statement": "A Kalman process that starts on the true state with no deviation, whose propagator follows the truth and whose measurements are those of the truth, stays on the truth: every estimate is the true state at its epoch, every residual is zero and no measurement is rejected.", "quantifier": "every configuration, variant, noise, device, arc and truth", "why_tests_cant": "The truth, the devices and the propagator are arbitrary functions and the arc is of any length.", "anchors": ["nyx-core/src/od/process/mod.rs: KalmanODProcess::process_arc", "nyx-core/src/od/kalman/filtering.rs: time_update, measurement_update"]}
{"id": "C241", "title": "Exact data leave the batch least squares on the truth", "statement": "BatchLeastSquares::estimate given the true state and measurements of the truth converges in its first iteration, with no correction and a zero residual.", "quantifier": "every configuration, solver, device, arc and truth", "why_tests_cant": "The truth, the devices and the propagator are arbitrary functions and the arc is of any length.", "anchors": ["nyx-core/src/od/blse/mod.rs: BatchLeastSquares::estimate, evaluate", "nyx-core/src/od/blse/solution.rs: BLSSolution"]}
{"id": "C242", "title": "A filter run can be resumed from its last estimate", "statement": "Processing the second part of the data from the last estimate of the solution of the first part continues the solution: the two solutions one after the other are that of the whole. A prediction from that estimate starts from its state.", "quantifier": "every configuration, initial estimate, arc and cut", "why_tests_cant": "All runs of any length, cut anywhere.", "anchors": ["nyx-core/src/od/process/mod.rs: KalmanODProcess::process_arc, predict_until", "nyx-core/src/od/kalman/filtering.rs: time_update, measurement_update", "nyx-core/src/od/snc.rs: ProcessNoise"]}
{"id": "C243", "title": "A targeter starts from the initial guesses of its variables", "statement": "The first state or maneuver that a targeter tries is the one of the guesses: guesses that meet the objectives are the solution, without any iteration, and the correction reported is the one that was flown.", "quantifier": "every targeter, guess, objective and state", "why_tests_cant": "All targeters and guesses; the tests start from no guess.", "anchors": ["nyx-core/src/md/opti/targeter.rs: Targeter::delta_v, delta_r, vnc, thrust_dir, vnc_with_components", "nyx-core/src/md/opti/raphson_finite_diff.rs: try_achieve_fd", "nyx-core/src/md/opti/target_variable.rs: Variable::from, Vary"]}
{"id": "C244", "title": "Simulated noise-free data processed by an estimator started on the truth give the truth", "statement": "When the data of TrackingArcSim::generate_measurements without noise, along a trajectory, are processed by a filter or by the batch estimator with the same trackers and dynamics, started on that trajectory, every residual is zero and every estimate is on the trajectory.", "quantifier": "every trajectory, set of trackers, schedule, sort, generator, configuration of the estimators", "why_tests_cant": "Whole chains of simulation, sort and estimation of any length, with arbitrary devices.", "anchors": ["nyx-core/src/od/simulator/arc.rs: TrackingArcSim::generate_measurements", "nyx-core/src/od/msr/trackingdata/mod.rs: TrackingDataArc::sort", "nyx-core/src/od/process/mod.rs: KalmanODProcess::process_arc", "nyx-core/src/od/blse/mod.rs: BatchLeastSquares::estimate"]}
{"id": "C245", "title": "Exact data bring the batch least squares from a wrong guess to the truth on a linear problem", "statement": "If the dynamics and the measurements are linear, the data are exact and determine the state, then a converged BatchLeastSquares solution is the true state, up to the tolerance divided by the information of the data.", "quantifier": "all linear problems, arcs, guesses and numbers of iterations", "why_tests_cant": "All linear problems and guesses; the tests start close to the truth, where the wrong rows still lead to it.", "anchors": ["nyx-core/src/od/blse/mod.rs: BatchLeastSquares::estimate"]}
{"id": "C246", "title": "Adding a tracker to a simulation leaves the data of the others unchanged", "statement": "With the same seed and configurations, TrackingArcSim::generate_measurements gives the same data of a tracker whether or not other trackers are simulated with it.", "quantifier": "all devices, configurations, generators and seeds", "why_tests_cant": "All sets of trackers and seeds; tests compare a simulation with itself.", "anchors": ["nyx-core/src/od/simulator/arc.rs: TrackingArcSim::with_seed, TrackingArcSim::generate_measurements"]}
{"id": "C247", "title": "A noise on the time tags moves measurements without losing any", "statement": "When a device has a noise on its time tags, the simulated arc still has every measurement that is taken, with its values, and each tag misses the epoch of the measurement by at most the noise.", "quantifier": "all devices, configurations, noises and generators", "why_tests_cant": "All sequences of noises; a collision of two tags needs particular draws.", "anchors": ["nyx-core/src/od/simulator/arc.rs: TrackingArcSim::generate_measurements", "nyx-core/src/od/ground_station/trk_device.rs: measure, measure_instantaneous", "nyx-core/src/od/msr/trackingdata/mod.rs: TrackingDataArc::sort"]}
{"id": "C248", "title": "A filter without process noise gives the least squares solution of the whole arc", "statement": "Without process noise and without rejection, the last estimate of KalmanODProcess::process_arc with deviation tracking is the estimate that a single least squares fit of the initial estimate and of all the measurements gives: its deviation is the flow of the only minimiser of the total cost and its covariance is the inverse of the total information. With exact data that determine the state, an error of the initial estimate is forgotten in proportion to that information.", "quantifier": "every arc of any length, configuration, device, initial estimate and transition", "why_tests_cant": "All lengths of arcs, all matrices and data; tests compare a few arcs with a stored truth.", "anchors": ["nyx-core/src/od/process/mod.rs: KalmanODProcess::process_arc", "nyx-core/src/od/kalman/filtering.rs: time_update, measurement_update"]}
{"id": "C249", "title": "Deviation tracking and reference updates agree on linear problems", "statement": "On a linear problem, KalmanODProcess::process_arc gives the same estimated states, covariances and accepted measurements with KalmanVariant::DeviationTracking and with KalmanVariant::ReferenceUpdate.", "quantifier": "all linear problems, arcs, devices, noises and initial estimates", "why_tests_cant": "A relation between two whole runs of any length; tests run one variant at a time.", "anchors": ["nyx-core/src/od/process/mod.rs: KalmanODProcess::process_arc", "nyx-core/src/od/kalman/filtering.rs: time_update, measurement_update", "nyx-core/src/od/kalman/mod.rs: KalmanVariant"]}
{"id": "C250", "title": "The values of the measurements do not change the covariances of a deviation tracking filter", "statement": "With KalmanVariant::DeviationTracking and without a rejection threshold, two arcs with the same trackers, epochs and types, of any values, lead KalmanODProcess::process_arc to the same nominal states, covariances and gains, and the deviations and residuals are affine in the values: a covariance analysis needs no real data.", "quantifier": "all arcs, values, devices, noises and initial estimates", "why_tests_cant": "A relation between runs for all values; a test fixes the values.", "anchors": ["nyx-core/src/od/process/mod.rs: KalmanODProcess::process_arc", "nyx-core/src/od/kalman/filtering.rs: time_update, measurement_update", "nyx-core/src/od/msr/sensitivity.rs: ScalarSensitivity::new"]}
{"id": "C251", "title": "A ground station made in Python simulates the same data for the same seed", "statement": "GroundStation(name, location, stochastic_noises, \u2026) called twice in Python with equal arguments gives stations with the same types, noises and measurements; in particular a simulation with a seed is reproducible from one run of a script to the next.", "quantifier": "all dictionaries of noises, orders of a hash map, spacecraft, epochs and generators", "why_tests_cant": "The order in which a hash map iterates changes at random from run to run; a test on one type, or one run, does not see it.", "anchors": ["nyx-core/src/od/ground_station/python.rs: GroundStation::py_new", "nyx-core/src/od/ground_station/mod.rs: noises", "nyx-core/src/od/ground_station/trk_device.rs: measure, measure_instantaneous"]}
{"id": "C252", "title": "A ground station edited in Python stays able to measure", "statement": "After any sequence of the Python methods and properties of GroundStation which add, remove and set measurement types and noises, the station measures exactly the enabled types, each with its noise.", "quantifier": "all sequences of edits, types, noises, spacecraft and generators", "why_tests_cant": "The sequences of edits are unbounded.", "anchors": ["nyx-core/src/od/ground_station/python.rs: add_measurement_type, remove_measurement_type, set_measurement_types, clear_measurement_types, set_stochastic_noise, remove_stochastic_noise, clear_stochastic_noises", "nyx-core/src/od/ground_station/trk_device.rs: measure_instantaneous, measurement_covar"]}
{"id": "C253", "title": "A continuous thrust targeter burns during the whole segment", "statement": "Targeter::thrust_dir, thrust_dir_rate and thrust_profile apply a continuous thrust for the whole duration of the segment, as documented: each maneuver which they propagate, nominal or perturbed, and that of to_mnvr, lasts from the correction to the achievement epoch with a thrust level between 0 and 1; to_mnvr succeeds for every solution.", "quantifier": "all propagators, objectives, states, epochs, numbers of iterations and corrections", "why_tests_cant": "All the maneuvers tried inside of the targeter, over any number of iterations, none of which is visible from outside.", "anchors": ["nyx-core/src/md/opti/targeter.rs: Targeter::thrust_dir, thrust_dir_rate, thrust_profile", "nyx-core/src/md/opti/raphson_finite_diff.rs: try_achieve_fd", "nyx-core/src/md/opti/solution.rs: TargeterSolution::to_mnvr", "nyx-core/src/dynamics/guidance/mnvr.rs: set_direction_and_rates"]}
{"id": "C254", "title": "Generating the measurements again gives another sample of the same noise", "statement": "generate_measurements may be called several times on the same simulator to generate different measurements, as documented: each call gives measurements at the same epochs, with further draws of noises of the same law.", "quantifier": "all noises, epochs, numbers of calls and generators", "why_tests_cant": "A property of the distribution of the measurements, over any number of calls and any arc.", "anchors": ["nyx-core/src/od/simulator/arc.rs: TrackingArcSim::generate_measurements", "nyx-py/src/py_od.rs: GroundTrackingArcSim::generate_measurements", "nyx-core/src/od/ground_station/mod.rs: GroundStation::noises", "nyx-core/src/od/noise/gauss_markov.rs: sample"]}
{"id": "C255", "title": "Appending a field to an export configuration adds a column", "statement": "ExportCfg::append_field adds the field to those which the configuration already exports, all possible fields when none is set: the file of the trajectory keeps every column it had, and gains that of the new field when a state has a value for it.", "quantifier": "all configurations, fields, writers, trajectories and windows", "why_tests_cant": "All lists of fields and all trajectories; a test looks at the columns of one file.", "anchors": ["nyx-core/src/io/mod.rs: ExportCfg, append_field", "nyx-core/src/md/trajectory/traj.rs: Traj::to_parquet"]}
{"id": "C256", "title": "The metadata given to an export are in the file", "statement": "The file of a trajectory exported with ExportCfg::from_metadata has, beside the entries of the writer, the last entry given for each key and no other, with the purpose set to trajectory data unless it is given.", "quantifier": "all lists of entries", "why_tests_cant": "All lists of entries with repeated keys.", "anchors": ["nyx-core/src/io/mod.rs: ExportCfg::from_metadata", "nyx-core/src/md/trajectory/traj.rs: Traj::to_parquet", "nyx-core/src/io/watermark.rs: pq_writer"]}
{"id": "C257", "title": "The ground track has the latitude, longitude and height only", "statement": "Traj::to_groundtrack_parquet writes, as documented, only the epoch, the geodetic latitude, longitude and height, at one state per minute from the first epoch to the last.", "quantifier": "all trajectories, frames and metadata", "why_tests_cant": "All trajectories; the columns of a file are not compared by a test.", "anchors": ["nyx-core/src/md/trajectory/sc_traj.rs: to_groundtrack_parquet", "nyx-core/src/md/trajectory/traj.rs: Traj::to_parquet"]}
{"id": "C258", "title": "Two seeds give two simulations", "statement": "MonteCarlo with two different seeds, and TrackingArcSim::with_seed with two different seeds, give different random draws, so that a study repeated with several seeds has as many samples.", "quantifier": "all pairs of seeds, samplers and numbers of runs", "why_tests_cant": "All pairs of seeds; a test compares a run with itself.", "anchors": ["nyx-core/src/mc/montecarlo.rs: MonteCarlo::generate_states", "nyx-core/src/od/simulator/arc.rs: TrackingArcSim::with_seed"]}
{"id": "C259", "title": "Asking for more samples keeps the first ones", "statement": "With a seed, MvnSpacecraft.sample(count, seed) in Python gives count states, of which the first ones do not depend on count, and MonteCarlo::generate_states with more runs starts with the same runs.", "quantifier": "all samplers, generators and counts", "why_tests_cant": "All counts and samplers.", "anchors": ["nyx-core/src/mc/python.rs: MvnSpacecraft::sample", "nyx-core/src/mc/montecarlo.rs: MonteCarlo::generate_states"]}
{"id": "C260", "title": "An arc cut in Python keeps its measurements", "statement": "TrackingDataArc.filter_by_epoch(None, e) and filter_by_epoch(e, None) in Python split the arc in two parts whose sum is the arc; so do filter_by_offset(None, d) and filter_by_offset(d, None).", "quantifier": "all arcs, epochs and offsets", "why_tests_cant": "All cuts of all arcs.", "anchors": ["nyx-core/src/od/msr/trackingdata/python.rs: py_new, py_filter_by_epoch, py_filter_by_offset, py_exclude_by_epoch", "nyx-core/src/od/msr/trackingdata/mod.rs: filter_by_epoch, filter_by_offset, exclude_by_epoch, add"]}
{"id": "C261", "title": "The covariance and the bias of a transmitter for ground assets are those configured", "statement": "For InterlinkTxSpacecraft tracking a GroundAsset, measurement_covar gives the variance of the noise of the type (white noise plus bias) and measurement_bias its constant bias, or an error when they are not configured; the filter removes that bias from the residual.", "quantifier": "all noises, types, assets and generators", "why_tests_cant": "All biases and configurations.", "anchors": ["nyx-core/src/od/groundpnt/trk_device.rs: measurement_covar, measurement_bias, measure_instantaneous", "nyx-core/src/od/process/mod.rs: process_arc"]}
{"id": "C262", "title": "A constant bias of a link between spacecraft is removed by the filter", "statement": "When the only noise of a measurement type of an InterlinkTxSpacecraft is a constant bias, its measurements of a spacecraft have that bias, measurement_bias gives it, and the residual of the filter at the true state is zero.", "quantifier": "all links, biases, receivers, integration times and generators", "why_tests_cant": "All biases, geometries and integration times.", "anchors": ["nyx-core/src/od/interlink/trk_device.rs: measure, measure_instantaneous, measurement_bias", "nyx-core/src/od/process/mod.rs: process_arc"]}
