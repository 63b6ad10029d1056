{
 "claims": [
  {
   "property": "C01",
   "status": "proved",
   "theorems": [
    "Verif.Propagate.forDuration_arrives",
    "Verif.Propagate.untilEpoch_arrives"
   ],
   "note": "No assumption on step sizes; the dynamics and almanac must not change the epoch."
  },
  {
   "property": "C02",
   "status": "proved",
   "theorems": [
    "Verif.Propagate.propagate_published_ordered",
    "Verif.Propagate.forDuration_completed"
   ],
   "note": "Backward needs steps of at least 2 ns: with a minimum step of 1 ns a proposal of -0.9 ns truncates to 0 and the clamp makes it positive."
  },
  {
   "property": "C03",
   "status": "proved",
   "theorems": [
    "Verif.Propagate.propagate_terminates"
   ],
   "note": ""
  },
  {
   "property": "C04",
   "status": "partial",
   "theorems": [
    "Verif.Propagate.reusable_partial",
    "Verif.Propagate.forDuration_completed",
    "Verif.Propagate.backward_stop_leaks_negative_step",
    "Verif.Propagate.negative_step_diverges",
    "Verif.Propagate.reuse_false",
    "Verif.Propagate.final_step_error_leaks"
   ],
   "note": "Proved for all histories of completed propagations. Refuted: a backward propagation ended by its stop condition leaves a negative step (the next forward propagation never returns); an error in the last step leaves the shortened fixed step."
  },
  {
   "property": "C05",
   "status": "proved",
   "theorems": [
    "Verif.Propagate.propagate_zero"
   ],
   "note": ""
  },
  {
   "property": "C06",
   "status": "proved",
   "theorems": [
    "Verif.Propagate.derive_forward_control",
    "Verif.Propagate.derive_forward_tries_decrease"
   ],
   "note": ""
  },
  {
   "property": "C07",
   "status": "partial",
   "theorems": [
    "Verif.Propagate.derive_backward_always_accepts",
    "Verif.Propagate.backward_error_control_false",
    "Verif.Propagate.backward_error_control_partial"
   ],
   "note": "Refuted: the signed step is compared with min_step so every backward step is accepted at once."
  },
  {
   "property": "C08",
   "status": "proved",
   "theorems": [
    "Verif.Propagate.derive_attempts_reported",
    "Verif.Propagate.derive_evaluations_bounded"
   ],
   "note": ""
  },
  {
   "property": "C09",
   "status": "proved",
   "theorems": [
    "Verif.Traj.for_duration_with_traj_deterministic",
    "Verif.Traj.withTraj_eq"
   ],
   "note": "Every interleaving of the channel delivers a permutation of the published states; the result does not depend on it."
  },
  {
   "property": "C10",
   "status": "proved",
   "theorems": [
    "Verif.Propagate.fixed_step_grid",
    "Verif.Propagate.mem_gridEpochs"
   ],
   "note": ""
  },
  {
   "property": "C11",
   "status": "proved",
   "theorems": [
    "Verif.Propagate.fixed_step_composes"
   ],
   "note": ""
  },
  {
   "property": "C12",
   "status": "partial",
   "theorems": [
    "Verif.Rk.step_order",
    "Verif.Rk.step_exact_partial",
    "Verif.Rk.quadrature_close",
    "Verif.Rk.quadrature_exact_partial",
    "Verif.Rk.ballistic_exact_partial",
    "Verif.Rk.weights_sum",
    "Verif.Rk.error_estimate_zero_partial",
    "Verif.Rk.dormand78_not_exact",
    "Verif.Rk.method_shaped"
   ],
   "note": "Exact for RK4, Cash Karp 4-5, Dormand Prince 4-5 and Verner 5-6, on quadrature and on linear problems of degree up to the order; refuted for Runge Kutta 8-9 and Dormand Prince 7-8, whose coefficients are approximated: the defects are bounded by 1e-17 and 1e-16. Non linear problems: see C210."
  },
  {
   "property": "C13",
   "status": "proved",
   "theorems": [
    "Verif.Rk.linear_rate",
    "Verif.Rk.linear_invariant",
    "Verif.Rk.rkStep_map"
   ],
   "note": ""
  },
  {
   "property": "C14",
   "status": "partial",
   "theorems": [
    "Verif.Rk.stm_step",
    "Verif.Rk.stm_steps",
    "Verif.Rk.stm_state_unchanged",
    "Verif.Rk.stm_constant_gradient",
    "Verif.Rk.stm_drift_partial",
    "Verif.Rk.stm_not_jacobian",
    "Verif.Rk.stm_not_composed"
   ],
   "note": "Exact characterisation of the STM that is computed; it is the Jacobian for drifts. Refuted in general: the derivative of the STM is the STM of the start of the step times the gradient, so that the STM is first order whatever the method and the factors of successive steps are multiplied in the wrong order."
  },
  {
   "property": "C15",
   "status": "partial",
   "theorems": [
    "Verif.Traj.finalize_sorted_complete_partial",
    "Verif.Traj.finalize_idem_of_sorted",
    "Verif.Traj.finalize_unique_false"
   ],
   "note": "Sorted and every epoch kept; uniqueness needs no two states with the same epoch, refuted because dedup runs before the sort."
  },
  {
   "property": "C16",
   "status": "partial",
   "theorems": [
    "Verif.Traj.at_stored",
    "Verif.Traj.at_outside",
    "Verif.Traj.at_never_panics",
    "Verif.Traj.at_brackets_partial",
    "Verif.Traj.at_brackets_false",
    "Verif.Traj.at_extrapolates"
   ],
   "note": "Stored states exact, errors outside, no panic; the window brackets the epoch except with 13 states at index 1 (refuted)."
  },
  {
   "property": "C17",
   "status": "proved",
   "theorems": [
    "Verif.Traj.every_between_grid",
    "Verif.Traj.resample_grid",
    "Verif.Traj.every_between_prefix"
   ],
   "note": "Interpolation is assumed to succeed with the requested epoch."
  },
  {
   "property": "C18",
   "status": "partial",
   "theorems": [
    "Verif.Traj.filter_by_epoch_exact",
    "Verif.Traj.filter_by_offset_partial",
    "Verif.Traj.filter_by_offset_false"
   ],
   "note": "Refuted for exclusive offset bounds."
  },
  {
   "property": "C19",
   "status": "proved",
   "theorems": [
    "Verif.Traj.add_concat",
    "Verif.Traj.add_frame_mismatch",
    "Verif.Traj.add_empty_panics"
   ],
   "note": "Both trajectories non empty; an empty operand panics (proved)."
  },
  {
   "property": "C20",
   "status": "partial",
   "theorems": [
    "Verif.Traj.interpMass_constant_partial",
    "Verif.Traj.interpMass_affine_error",
    "Verif.Traj.interpMass_between_false"
   ],
   "note": "Refuted during burns."
  },
  {
   "property": "C21",
   "status": "proved",
   "theorems": [
    "Verif.Tracking.sort_conserves",
    "Verif.Tracking.sort_idempotent"
   ],
   "note": "For every behaviour of the unstable sort on equal keys."
  },
  {
   "property": "C22",
   "status": "partial",
   "theorems": [
    "Verif.Tracking.add_comm_partial",
    "Verif.Tracking.add_assoc_partial",
    "Verif.Tracking.add_empty",
    "Verif.Tracking.add_moduli_false",
    "Verif.Tracking.sort_conflict_ambiguous"
   ],
   "note": "Measurements proved (also associativity); moduli of the right arc are lost (refuted)."
  },
  {
   "property": "C23",
   "status": "proved",
   "theorems": [
    "Verif.Tracking.chunk_partitions",
    "Verif.Tracking.chunk_none"
   ],
   "note": ""
  },
  {
   "property": "C24",
   "status": "partial",
   "theorems": [
    "Verif.Tracking.epoch_filters_exact",
    "Verif.Tracking.filter_by_offset_partial",
    "Verif.Tracking.filter_by_offset_false"
   ],
   "note": "Epoch filters proved; offsets refuted for unbounded and inclusive ends and exclusive starts."
  },
  {
   "property": "C25",
   "status": "partial",
   "theorems": [
    "Verif.Tracking.downsample_single_tracker_partial",
    "Verif.Tracking.downsample_noop",
    "Verif.Tracking.downsample_mixes_trackers",
    "Verif.Tracking.downsample_uses_rejected",
    "Verif.Tracking.downsample_simultaneous_collapses"
   ],
   "note": "Refuted for several trackers, rejected measurements, moduli and simultaneous measurements."
  },
  {
   "property": "C26",
   "status": "partial",
   "theorems": [
    "Verif.Tracking.tdm_roundtrip_partial",
    "Verif.Tracking.tdm_never_rejected",
    "Verif.Tracking.tdm_roundtrip_types_false"
   ],
   "note": "Proved on tokenised lines, the formatting of numbers being a parameter with a rounding bound; refuted for the types which the format does not carry."
  },
  {
   "property": "C27",
   "status": "partial",
   "theorems": [
    "Verif.Tracking.msr_eq_symm_partial",
    "Verif.Tracking.msr_eq_symm_false"
   ],
   "note": "Refuted for different type sets."
  },
  {
   "property": "C28",
   "status": "proved",
   "theorems": [
    "Verif.Kalman.covariance_psd"
   ],
   "note": "Real arithmetic. No assumption on the Cholesky decomposition."
  },
  {
   "property": "C29",
   "status": "proved",
   "theorems": [
    "Verif.Kalman.gain_optimal",
    "Verif.Kalman.singular_innovation"
   ],
   "note": "Real arithmetic; specification of nalgebra's Cholesky assumed (someChol_spec shows it satisfiable). Also: which updates succeed."
  },
  {
   "property": "C30",
   "status": "proved",
   "theorems": [
    "Verif.Kalman.rejected_is_time_update",
    "Verif.Kalman.no_threshold_no_rejection"
   ],
   "note": ""
  },
  {
   "property": "C31",
   "status": "proved",
   "theorems": [
    "Verif.Kalman.ratio_mahalanobis",
    "Verif.Kalman.units_invariance"
   ],
   "note": ""
  },
  {
   "property": "C32",
   "status": "partial",
   "theorems": [
    "Verif.Kalman.force_reject_partial",
    "Verif.Kalman.force_reject_accepts_exact"
   ],
   "note": "Refuted: a measurement with zero prefit is accepted and shrinks the covariance."
  },
  {
   "property": "C33",
   "status": "proved",
   "theorems": [
    "Verif.Kalman.process_noise_window",
    "Verif.Kalman.process_noise_value",
    "Verif.Kalman.noises_after_update",
    "Verif.Kalman.noise_disabled_after_gap"
   ],
   "note": "Closed form of the contribution for three dimensional noises, decaying ones included; the previous epoch stored at each update disables a noise after a gap."
  },
  {
   "property": "C34",
   "status": "partial",
   "theorems": [
    "Verif.Process.resolve_integer",
    "Verif.Process.resolve_same_interval_partial",
    "Verif.Process.resolve_not_nearest"
   ],
   "note": "Integer multiple and same ambiguity interval proved; the nearest claim is refuted at the wrap boundary."
  },
  {
   "property": "C35",
   "status": "proved",
   "theorems": [
    "Verif.Process.process_trace",
    "Verif.Process.process_terminates",
    "Verif.Process.process_refuses",
    "Verif.Process.solution_residuals",
    "Verif.Process.nonfinite_no_solution",
    "Verif.Process.zero_precision_diverges",
    "Verif.Process.propAdv_arrives"
   ],
   "note": "The specification Solves is independent of the loop. Propagator: anything that arrives with positive steps (propAdv_arrives: the model of the propagator does). Positive precision needed: zero_precision_diverges."
  },
  {
   "property": "C36",
   "status": "partial",
   "theorems": [
    "Verif.Process.predict_grid",
    "Verif.Process.predict_end_partial",
    "Verif.Process.predict_for_partial",
    "Verif.Process.predict_terminates",
    "Verif.Process.predict_end_false",
    "Verif.Process.predict_zero_false",
    "Verif.Process.predict_zero_step_diverges"
   ],
   "note": "Grid, overshoot of less than one step, exact end iff the interval is a multiple of the step. Refuted in general; zero step never returns."
  },
  {
   "property": "C37",
   "status": "proved",
   "theorems": [
    "Verif.Solution.operations_keep_rows",
    "Verif.Solution.split_spec",
    "Verif.Solution.built_aligned",
    "Verif.Solution.at_spec"
   ],
   "note": "All operations; at on chronological solutions, binary search by its specification."
  },
  {
   "property": "C38",
   "status": "partial",
   "theorems": [
    "Verif.Solution.merge_permutes_partial",
    "Verif.Solution.merge_fuel",
    "Verif.Solution.merge_places",
    "Verif.Solution.merge_after_partial",
    "Verif.Solution.merge_not_chronological"
   ],
   "note": "Whole entries, each once, columns aligned, termination: proved. Chronological order is refuted: the cycle loop applies the inverse of the sorting permutation (epochs [3] merged with [1, 2] give [2, 3, 1]); proved when the second solution follows the first."
  },
  {
   "property": "C39",
   "status": "partial",
   "theorems": [
    "Verif.Solution.smoother_epochs_partial",
    "Verif.Solution.smoother_residuals_shifted",
    "Verif.Solution.smoother_witness"
   ],
   "note": "Estimates proved; residuals are shifted by one entry (refuted for every solution)."
  },
  {
   "property": "C40",
   "status": "partial",
   "theorems": [
    "Verif.Blse.estimate_normal_partial",
    "Verif.Blse.gather_uses",
    "Verif.Blse.gather_fresh",
    "Verif.Blse.normal_step",
    "Verif.Blse.info_posDef",
    "Verif.Blse.ridge_minimum",
    "Verif.Blse.accumulated_matrix",
    "Verif.Blse.normal_equations_refuted",
    "Verif.Blse.normal_equations_witness",
    "Verif.Blse.stm_double_count",
    "Verif.Blse.measurement_counted_twice"
   ],
   "note": "Proved: which measurements enter the sums, what is solved and that it is a ridge least squares minimum. Refuted: an identity matrix is added to the information, the state transition matrix of every step is composed twice, simultaneous measurements are dropped, a measurement reached in two steps is counted twice."
  },
  {
   "property": "C41",
   "status": "partial",
   "theorems": [
    "Verif.Solution.rms_partial",
    "Verif.Solution.rms_exact_partial",
    "Verif.Solution.rms_postfit_nan",
    "Verif.Solution.rms_counts_time_updates"
   ],
   "note": "Divided by the number of entries including time updates (refuted); exact without time updates. One rejected residual makes the postfit value NaN."
  },
  {
   "property": "C42",
   "status": "partial",
   "theorems": [
    "Verif.Estimate.dispersions_partial",
    "Verif.Estimate.dispersions_mirrored"
   ],
   "note": "Covariance: proved. Refuted: the state of the estimate is the mirror image of the dispersed state."
  },
  {
   "property": "C43",
   "status": "partial",
   "theorems": [
    "Verif.Device.station_sensitivity_partial",
    "Verif.Device.link_sensitivity_partial",
    "Verif.Device.range_row_scaled",
    "Verif.Device.missing_row",
    "Verif.Device.elevation_row_unit",
    "Verif.Device.azimuth_row_unit",
    "Verif.Device.link_doppler_row",
    "Verif.Device.position_sensitivity",
    "Verif.Device.position_sensitivity_mismatch"
   ],
   "note": "Range and Doppler with geometric values in the measurement, and the rows of the position device: proved. Refuted: the row of a range is scaled by the ratio to the observed range, missing rows are rows of the identity, rows of angles are per radian for values in degrees and ignore the horizon of the station, the Doppler row of a link is not the gradient of the Doppler it computes, the rows of a position device do not match the values it computes."
  },
  {
   "property": "C44",
   "status": "partial",
   "theorems": [
    "Verif.Device.bias_constant_partial",
    "Verif.Device.bias_constant_ignored"
   ],
   "note": "Refuted: the call never changes the bias of any type (the constant is set on a copy); exact statement of what it changes."
  },
  {
   "property": "C45",
   "status": "partial",
   "theorems": [
    "Verif.Sched.continuous_strands_partial",
    "Verif.Sched.strands_within_partial",
    "Verif.Sched.schedule_partial",
    "Verif.Sched.strand_outside_arc",
    "Verif.Sched.strand_too_short",
    "Verif.Sched.strand_backward"
   ],
   "note": "Inside an arc up to half of the alignment, cadence respected, exact list of strands for continuous tracking: proved. Refuted: rounding leaves the arc, an intermittent cadence and the handoff leave short, unaligned or backward strands."
  },
  {
   "property": "C46",
   "status": "partial",
   "theorems": [
    "Verif.Sched.handoff_partial",
    "Verif.Sched.greedy_overlap",
    "Verif.Sched.eager_gap",
    "Verif.Sched.eager_backward",
    "Verif.Sched.handoff_to_nobody",
    "Verif.Sched.explicit_strand_changed",
    "Verif.Sched.never_visible_panics"
   ],
   "note": "Proved when all trackers are Eager, and for Eager and Greedy trackers when no strand is left backward. Refuted for three Greedy trackers."
  },
  {
   "property": "C47",
   "status": "proved",
   "theorems": [
    "Verif.Sched.measurements_exact",
    "Verif.Sched.schedule_required",
    "Verif.Sched.nonpositive_sampling_loops"
   ],
   "note": "Exact set of measurements, sorted without duplicates; needs positive samplings."
  },
  {
   "property": "C48",
   "status": "partial",
   "theorems": [
    "Verif.Spacecraft.set_to_vector_partial",
    "Verif.Spacecraft.set_to_vector_clamps",
    "Verif.Spacecraft.to_vector_set",
    "Verif.Spacecraft.set_untouched",
    "Verif.Spacecraft.add_add",
    "Verif.Spacecraft.add_vector",
    "Verif.Spacecraft.add_neg_clamped"
   ],
   "note": "Round trip exact for 0 <= Cr <= 2; refuted otherwise (Cr is clamped when the vector is set)."
  },
  {
   "property": "C49",
   "status": "proved",
   "theorems": [
    "Verif.Spacecraft.mode_round_trip",
    "Verif.Spacecraft.mode_decode",
    "Verif.Spacecraft.mode_tag_is_not_number"
   ],
   "note": "The number of value(GuidanceMode); the tag used by the DER encoding is another number."
  },
  {
   "property": "C50",
   "status": "partial",
   "theorems": [
    "Verif.Spacecraft.prop_step",
    "Verif.Spacecraft.prop_nonincreasing_partial",
    "Verif.Spacecraft.nonneg_weights",
    "Verif.Spacecraft.prop_never_negative",
    "Verif.Spacecraft.mnvr_step",
    "Verif.Spacecraft.prop_increases",
    "Verif.Spacecraft.shortBurn_runs"
   ],
   "note": "Never negative: any law and method. Non increasing: methods with weights that are not negative (RK4, Cash Karp, Verner) and any law, or any method and a maneuver. Refuted: Dormand Prince 4-5 with a law that depends on the epoch can add propellant, since a weight is negative."
  },
  {
   "property": "C51",
   "status": "partial",
   "theorems": [
    "Verif.Spacecraft.mnvr_step",
    "Verif.Spacecraft.mnvr_window_partial",
    "Verif.Spacecraft.burn_overruns",
    "Verif.Spacecraft.burn_starts_late",
    "Verif.Spacecraft.antichronological_iff"
   ],
   "note": "A step thrusts iff it starts in the window. Refuted: the thrust goes on to the end of the step, and the initial mode is not updated."
  },
  {
   "property": "C52",
   "status": "proved",
   "theorems": [
    "Verif.Guide.efficiency_range",
    "Verif.Guide.efficiency_at_periapsis",
    "Verif.Guide.efficiency_zero"
   ],
   "note": ""
  },
  {
   "property": "C53",
   "status": "partial",
   "theorems": [
    "Verif.Guide.weight_spec",
    "Verif.Guide.ruggiero_direction_partial",
    "Verif.Guide.achieved_but_steering",
    "Verif.Guide.kluever_thrusts_when_achieved",
    "Verif.Guide.weight_divides_by_zero"
   ],
   "note": "Weights: proved for positive tolerances. Direction of Ruggiero: proved with objectives strictly inside their tolerances; refuted at the edge. Refuted for Kluever, which thrusts along track when nothing is demanded."
  },
  {
   "property": "C54",
   "status": "partial",
   "theorems": [
    "Verif.Guide.kluever_next",
    "Verif.Guide.ruggiero_next_partial",
    "Verif.Guide.ruggiero_thrusts_in_eclipse"
   ],
   "note": "Proved for Kluever. Refuted for Ruggiero: the mode set from the eclipse is overwritten."
  },
  {
   "property": "C55",
   "status": "partial",
   "theorems": [
    "Verif.MathU.between_0_360_spec",
    "Verif.MathU.between_pm_x_partial",
    "Verif.MathU.pm_180_not_unique",
    "Verif.MathU.fmod_spec"
   ],
   "note": "Over the reals (rounding of tiny negative angles to 360 is not modelled). between_pm_180 keeps both 180 and -180: refuted as a half open range."
  },
  {
   "property": "C56",
   "status": "partial",
   "theorems": [
    "Verif.MathU.tilde_cross",
    "Verif.MathU.elementary_rotations",
    "Verif.MathU.rotv_spec",
    "Verif.MathU.elementary_are_rotv",
    "Verif.MathU.projections_partial",
    "Verif.MathU.projection_lost"
   ],
   "note": "Refuted for projections on small vectors only."
  },
  {
   "property": "C57",
   "status": "proved",
   "theorems": [
    "Verif.Lambert.gooding_conic"
   ],
   "note": "For positions which are not aligned. Also the sense of the motion."
  },
  {
   "property": "C58",
   "status": "proved",
   "theorems": [
    "Verif.Lambert.izzo_conserves",
    "Verif.Lambert.izzo_momentum_energy"
   ],
   "note": "For positions which are not aligned."
  },
  {
   "property": "C59",
   "status": "proved",
   "theorems": [
    "Verif.Target.objectives_met",
    "Verif.Target.gives_up_after"
   ],
   "note": "With the factors of the objective as the code applies them."
  },
  {
   "property": "C60",
   "status": "partial",
   "theorems": [
    "Verif.Target.corrected_reproduces_partial",
    "Verif.Target.finite_burn_corrected",
    "Verif.Target.achieved_keeps_mass",
    "Verif.Target.vnc_solution_not_reproduced",
    "Verif.Target.achieved_mass_wrong"
   ],
   "note": "Proved without finite burn variables when the rotation of the correction frame does not depend on the velocity. Refuted in the VNC frame (the sum of corrections in successive frames is applied in the first one) and for finite burns (the achieved state has the masses of the start)."
  },
  {
   "property": "C61",
   "status": "partial",
   "theorems": [
    "Verif.Target.total_bounded_partial",
    "Verif.Target.total_exceeds_bounds"
   ],
   "note": "Bound by the number of iterations times the step. Refuted: the bounds limit each step and not the total."
  },
  {
   "property": "C62",
   "status": "proved",
   "theorems": [
    "Verif.Shooting.equidistant",
    "Verif.Shooting.equidistant_refused",
    "Verif.Shooting.equidistant_epoch"
   ],
   "note": "The division of durations of hifitime is a parameter; the last epoch is exact if the division is."
  },
  {
   "property": "C63",
   "status": "proved",
   "theorems": [
    "Verif.Mc.results_order_independent",
    "Verif.Mc.resume_order_independent"
   ],
   "note": "Any order of completion is a permutation of the runs sent."
  },
  {
   "property": "C64",
   "status": "partial",
   "theorems": [
    "Verif.Mc.resume_states_partial",
    "Verif.Mc.resume_renumbers"
   ],
   "note": "States and results: proved. Refuted for the indices, which restart at zero."
  },
  {
   "property": "C65",
   "status": "partial",
   "theorems": [
    "Verif.Mc.reported_opposite_partial",
    "Verif.Mc.reported_sign",
    "Verif.Mc.sample_only_coordinates"
   ],
   "note": "Refuted: the dispersion reported is template minus state, the opposite of what is documented. The covariance is C115."
  },
  {
   "property": "C66",
   "status": "proved",
   "theorems": [
    "Verif.Poly.eval_spec",
    "Verif.Poly.eval_empty",
    "Verif.Poly.common_eval"
   ],
   "note": "Derivative in the sense of analysis (HasDerivAt)."
  },
  {
   "property": "C67",
   "status": "partial",
   "theorems": [
    "Verif.Poly.coeff_spec",
    "Verif.Poly.with_val_partial",
    "Verif.Poly.with_val_wrong_order"
   ],
   "note": "Refuted: the orders are reversed when writing."
  },
  {
   "property": "C68",
   "status": "proved",
   "theorems": [
    "Verif.Gravity.field_checked"
   ],
   "note": "For a field whose coefficients are in its matrices; the loading (C165) and from_j2 provide them. The unchecked accesses are modelled as checked ones that never fail."
  },
  {
   "property": "C69",
   "status": "proved",
   "theorems": [
    "Verif.Gravity.powers_complex"
   ],
   "note": ""
  },
  {
   "property": "C70",
   "status": "partial",
   "theorems": [
    "Verif.Force.srp_force",
    "Verif.Force.srp_magnitude",
    "Verif.Force.srp_shadow",
    "Verif.Force.srp_away_partial",
    "Verif.Force.srp_towards_sun"
   ],
   "note": "Magnitude, inverse square and shadow: proved. Direction: proved when the axes of the frame of the Sun are those of the integration frame; refuted otherwise, as the force is not rotated."
  },
  {
   "property": "C71",
   "status": "partial",
   "theorems": [
    "Verif.Force.drag_constant_partial",
    "Verif.Force.drag_other_spec",
    "Verif.Force.drag_same_frame",
    "Verif.Force.drag_accelerates"
   ],
   "note": "Proved in the drag frame for a constant density. Refuted for the exponential and standard atmospheres: the velocity used is the difference between the two frames, which is zero in the same frame and of the wrong sign on a retrograde orbit."
  },
  {
   "property": "C72",
   "status": "proved",
   "theorems": [
    "Verif.BPlane.dcm_rotation",
    "Verif.BPlane.plane_asymptote",
    "Verif.BPlane.plane_angle",
    "Verif.BPlane.new_err_iff",
    "Verif.BPlane.new_nan_iff",
    "Verif.BPlane.Asymptote.unique"
   ],
   "note": "The elements of the crate anise are modelled by their definitions. The plane is not made of numbers exactly if the asymptote is along the third axis of the frame."
  },
  {
   "property": "C73",
   "status": "partial",
   "theorems": [
    "Verif.Sequence.propagate_iff",
    "Verif.Sequence.flights_chrono",
    "Verif.Sequence.flown_names",
    "Verif.Sequence.setup_then_propagate_partial",
    "Verif.Sequence.propagate_panic_iff",
    "Verif.Sequence.validate_iff",
    "Verif.Sequence.not_set_up_panics",
    "Verif.Sequence.empty_sequence_panics",
    "Verif.Sequence.valid_not_set_up_panics"
   ],
   "note": "Order and content of what is flown: proved. After setup, propagate panics exactly when no phase is at or after the epoch of the state. Refuted as stated: validation alone is not enough, and an empty sequence is valid."
  },
  {
   "property": "C74",
   "status": "proved",
   "theorems": [
    "Verif.Der.cadence_trips",
    "Verif.Der.scheduler_trips",
    "Verif.Der.strand_trips",
    "Verif.Der.trkConfig_trips",
    "Verif.Der.trips_der",
    "Verif.Der.trips_injective",
    "Verif.Der.trailing_refused",
    "Verif.Der.cadence_unknown"
   ],
   "note": "The primitive encodings of the crate der are parameters with laws."
  },
  {
   "property": "C75",
   "status": "partial",
   "theorems": [
    "Verif.Noise.gm_decay_partial",
    "Verif.Noise.gm_never_decays",
    "Verif.Noise.constructors",
    "Verif.Noise.negative_sigma_accepted",
    "Verif.Noise.covariance_nonneg"
   ],
   "note": "Constructors: exactly what they accept; covariance: proved. Refuted: the decay restarts from the initial sample at each step, so regular samples stay at the first decay for ever; negative standard deviations are accepted."
  },
  {
   "property": "C76",
   "status": "partial",
   "theorems": [
    "Verif.Propagate.result_frame_partial",
    "Verif.Propagate.result_frame_false"
   ],
   "note": "Proved for completed propagations; refuted when the stop condition triggers."
  },
  {
   "property": "C77",
   "status": "partial",
   "theorems": [
    "Verif.Traj.smooth_values_partial",
    "Verif.Traj.smooth_window_nonempty",
    "Verif.Traj.smooth_is_median_filter_false"
   ],
   "note": "Refuted: in place."
  },
  {
   "property": "C78",
   "status": "proved",
   "theorems": [
    "Verif.Tracking.apply_moduli_spec",
    "Verif.Tracking.set_moduli_wf"
   ],
   "note": "Rational arithmetic."
  },
  {
   "property": "C79",
   "status": "partial",
   "theorems": [
    "Verif.Tracking.tracker_filters_exact",
    "Verif.Tracking.type_filters_partial",
    "Verif.Tracking.exclude_type_leaves_empty"
   ],
   "note": "exclude_measurement_type leaves empty measurements (refuted)."
  },
  {
   "property": "C80",
   "status": "partial",
   "theorems": [
    "Verif.Tracking.freq_to_doppler_partial",
    "Verif.Tracking.freq_mixes_trackers"
   ],
   "note": "Refuted with interleaved trackers."
  },
  {
   "property": "C81",
   "status": "proved",
   "theorems": [
    "Verif.Kalman.sequential_eq_joint"
   ],
   "note": "Positive definite prediction and noises."
  },
  {
   "property": "C82",
   "status": "proved",
   "theorems": [
    "Verif.Kalman.update_minimises_cost"
   ],
   "note": ""
  },
  {
   "property": "C83",
   "status": "partial",
   "theorems": [
    "Verif.Kalman.local_frame_noise_partial",
    "Verif.Kalman.rotDiag3",
    "Verif.Kalman.local_frame_noise_not_rotated"
   ],
   "note": "Refuted: off diagonal terms of the rotated noise are dropped."
  },
  {
   "property": "C84",
   "status": "partial",
   "theorems": [
    "Verif.Kalman.updates_do_not_panic_partial",
    "Verif.Kalman.initialised_andWithNoise",
    "Verif.Kalman.initialised_initNoises",
    "Verif.Kalman.decay_without_init_panics",
    "Verif.Kalman.noise6_panics"
   ],
   "note": "Refuted for decaying noises set by set_process_noise or used by predict_until, and for six dimensional noises on a spacecraft."
  },
  {
   "property": "C85",
   "status": "proved",
   "theorems": [
    "Verif.Propagate.stop_condition_first"
   ],
   "note": ""
  },
  {
   "property": "C86",
   "status": "partial",
   "theorems": [
    "Verif.Event.nth_event_bracket_partial",
    "Verif.Event.nth_event_error_partial",
    "Verif.Event.last_step_event_missed",
    "Verif.Event.exact_zero_event_missed",
    "Verif.Event.backward_event_bracket_false",
    "Verif.Event.frame_event_error_false"
   ],
   "note": "Forward propagation without integration frame; refuted for events on the last step, exact zeros, backward propagation, integration frames. The Brent solver and the event evaluation of anise are parameters."
  },
  {
   "property": "C87",
   "status": "proved",
   "theorems": [
    "Verif.Process.solution_stm_chain",
    "Verif.Process.predict_stm_chain"
   ],
   "note": "The propagator is assumed to compute the transition of a linear flow (the STM derivative of SpacecraftDynamics is C14)."
  },
  {
   "property": "C88",
   "status": "proved",
   "theorems": [
    "Verif.Process.solution_covariances_psd"
   ],
   "note": ""
  },
  {
   "property": "C89",
   "status": "partial",
   "theorems": [
    "Verif.Solution.smoothed_maps_forward_partial",
    "Verif.Solution.smoother_ignores_later_data",
    "Verif.Solution.smoother_not_last_mapped_back"
   ],
   "note": "Refuted: smoothed entry k only depends on entries k and k + 1 of the filter."
  },
  {
   "property": "C90",
   "status": "proved",
   "theorems": [
    "Verif.Solution.smoothed_covariances_psd",
    "Verif.Solution.smoother_ratios",
    "Verif.Solution.smooth_returns",
    "Verif.Solution.smooth_short_panics"
   ],
   "note": "Solutions with fewer than two estimates panic."
  },
  {
   "property": "C91",
   "status": "proved",
   "theorems": [
    "Verif.Solution.within_threshold",
    "Verif.Solution.accepted_rejected_partition"
   ],
   "note": ""
  },
  {
   "property": "C92",
   "status": "proved",
   "theorems": [
    "Verif.Solution.ks_statistic",
    "Verif.Solution.ks_panics_on_one"
   ],
   "note": "Normal law of statrs by its specification."
  },
  {
   "property": "C93",
   "status": "proved",
   "theorems": [
    "Verif.Solution.verdicts",
    "Verif.Solution.nis_consistency_spec",
    "Verif.Solution.nees_term",
    "Verif.Solution.nees_nonneg"
   ],
   "note": "The loop of NEES over the estimates is C211."
  },
  {
   "property": "C94",
   "status": "partial",
   "theorems": [
    "Verif.Blse.lm_step_partial",
    "Verif.Blse.lm_stuck",
    "Verif.Blse.lm_stuck_witness"
   ],
   "note": "What a step does is proved. Refuted: once the damping is clamped at its maximum a rejected step repeats until the iterations run out."
  },
  {
   "property": "C95",
   "status": "partial",
   "theorems": [
    "Verif.Blse.evaluate_eq_rms",
    "Verif.Blse.estimate_normal_partial",
    "Verif.Blse.normal_equations_witness"
   ],
   "note": "evaluate and the sums of gather agree on the same trajectory; the RMS reported by the normal solver is the one before the last correction (refuted as RMS of the returned state)."
  },
  {
   "property": "C96",
   "status": "partial",
   "theorems": [
    "Verif.Blse.kf_conversion_psd_partial",
    "Verif.Blse.kf_conversion_not_psd"
   ],
   "note": "Exact characterisation; refuted in general."
  },
  {
   "property": "C97",
   "status": "proved",
   "theorems": [
    "Verif.Blse.gather_terminates",
    "Verif.Blse.estimate_terminates",
    "Verif.Blse.estimate_normal_partial"
   ],
   "note": "Propagator with positive steps."
  },
  {
   "property": "C98",
   "status": "proved",
   "theorems": [
    "Verif.Process.solution_covariance_chain",
    "Verif.Process.predict_covariance_chain"
   ],
   "note": "Without process noise (with process noise see C33)."
  },
  {
   "property": "C99",
   "status": "partial",
   "theorems": [
    "Verif.Rk.estimate_nonneg",
    "Verif.Rk.accepted_error_bound",
    "Verif.Rk.estimate_scale",
    "Verif.Rk.estimate_mirror_partial",
    "Verif.Rk.estimate_mirror_false",
    "Verif.Rk.cartesian_first_six"
   ],
   "note": "Refuted for LargestError only (mirror image)."
  },
  {
   "property": "C100",
   "status": "partial",
   "theorems": [
    "Verif.Spacecraft.stored_direction_of_previous_mode",
    "Verif.Spacecraft.replay_holds_partial",
    "Verif.Spacecraft.replay_one_step_late"
   ],
   "note": "Refuted: replay is one step late."
  },
  {
   "property": "C101",
   "status": "partial",
   "theorems": [
    "Verif.Spacecraft.value_set_value_partial",
    "Verif.Spacecraft.set_value_defined",
    "Verif.Spacecraft.set_direction_partial",
    "Verif.Spacecraft.thrust_direction_not_stored"
   ],
   "note": "The elements of ANISE, the angles and the B plane are not modelled. Refuted for the thrust direction, of which a write is proved to keep the other components up to a positive factor."
  },
  {
   "property": "C102",
   "status": "partial",
   "theorems": [
    "Verif.Spacecraft.spacecraft_round_trip_partial",
    "Verif.Der.sc_trips",
    "Verif.Der.sc_preserved_iff"
   ],
   "note": "Refuted in full: the thrust direction and the transition matrix are lost; exact statement of what is kept."
  },
  {
   "property": "C103",
   "status": "partial",
   "theorems": [
    "Verif.MathU.spherical_round_trip_partial",
    "Verif.MathU.set_range",
    "Verif.MathU.small_range_zero",
    "Verif.MathU.atan2_polar"
   ],
   "note": "Refuted for ranges below the precision, which give zero; proved otherwise."
  },
  {
   "property": "C104",
   "status": "partial",
   "theorems": [
    "Verif.MathU.ra_dec_round_trip",
    "Verif.MathU.ra_dec_of_vec",
    "Verif.MathU.angle_vectors_unit",
    "Verif.MathU.plane_angles_partial",
    "Verif.MathU.plane_angles_not_inverse"
   ],
   "note": "Refuted for the plane angles."
  },
  {
   "property": "C105",
   "status": "proved",
   "theorems": [
    "Verif.MathU.pseudo_inverse_wide",
    "Verif.MathU.pseudo_inverse_tall",
    "Verif.MathU.pseudo_inverse_fails"
   ],
   "note": "Over the reals."
  },
  {
   "property": "C106",
   "status": "proved",
   "theorems": [
    "Verif.MathU.normalize_inverse",
    "Verif.MathU.is_diagonal_iff",
    "Verif.MathU.mag_order_spec",
    "Verif.MathU.unitize_spec",
    "Verif.MathU.rss_errors_spec"
   ],
   "note": "Over the reals."
  },
  {
   "property": "C107",
   "status": "partial",
   "theorems": [
    "Verif.Poly.add_sub_spec_partial",
    "Verif.Poly.add_swapped",
    "Verif.Poly.scale_spec",
    "Verif.Poly.zero_spec"
   ],
   "note": "Refuted for the documented condition of the panic."
  },
  {
   "property": "C108",
   "status": "partial",
   "theorems": [
    "Verif.Target.state_variable_moves_partial",
    "Verif.Target.direction_variable_slot",
    "Verif.Target.rate_variable_slot",
    "Verif.Target.angle_variable_adds",
    "Verif.Target.angle_rate_moves_position",
    "Verif.Target.angle_rate_solution"
   ],
   "note": "Positions, velocities, directions, angles and their second derivatives: proved. Refuted for direction rates and accelerations (shifted component) and angle rates (they move the position along Y)."
  },
  {
   "property": "C109",
   "status": "partial",
   "theorems": [
    "Verif.Target.affine_solved_partial",
    "Verif.Target.factor_two_fails"
   ],
   "note": "Unit factors: proved. Refuted for a factor of two."
  },
  {
   "property": "C110",
   "status": "partial",
   "theorems": [
    "Verif.Target.apply_accepts_partial",
    "Verif.Target.vnc_solution_not_reproduced"
   ],
   "note": "Refuted for a correction frame which turns with the velocity (VNC, RIC): the corrections of several iterations are summed along the axes of the start."
  },
  {
   "property": "C111",
   "status": "partial",
   "theorems": [
    "Verif.Target.duration_ignores_correction",
    "Verif.Target.level_jacobian_sign",
    "Verif.Target.to_mnvr_full_thrust",
    "Verif.Target.thrust_level_diverges",
    "Verif.Target.angle_burn_partial"
   ],
   "note": "Refuted in each of the three respects; exact statements of what the code does. Proved for the angles."
  },
  {
   "property": "C112",
   "status": "partial",
   "theorems": [
    "Verif.Target.dual_solution_partial",
    "Verif.Target.dual_affine_solved",
    "Verif.Target.dual_ignores_frame",
    "Verif.Target.dual_unsupported"
   ],
   "note": "Everything but the correction frame, which is ignored (refuted)."
  },
  {
   "property": "C113",
   "status": "partial",
   "theorems": [
    "Verif.Shooting.shooting_solution_partial",
    "Verif.Shooting.shooting_trajectories",
    "Verif.Shooting.two_nodes_panic"
   ],
   "note": "Refuted for two nodes only."
  },
  {
   "property": "C114",
   "status": "partial",
   "theorems": [
    "Verif.Shooting.jacobian_entries_partial",
    "Verif.Shooting.jacobian_wrong_sign"
   ],
   "note": "Maneuvers up to the one after the moved node: proved. Refuted for the next one."
  },
  {
   "property": "C115",
   "status": "partial",
   "theorems": [
    "Verif.Mc.orbital_statistics_partial",
    "Verif.Mc.svd_factor",
    "Verif.Mc.new_accepts",
    "Verif.Mc.mass_and_b_plane_rejected",
    "Verif.Mc.cr_never_dispersed",
    "Verif.Mc.cd_prop_variance",
    "Verif.Mc.zero_mean_coefficients",
    "Verif.Mc.from_cov_statistics",
    "Verif.Mc.from_cov_accepts",
    "Verif.Mc.recorded_are_variances"
   ],
   "note": "Orbital dispersions (at most six) and generators made from a covariance: proved. Refuted: Cr is never dispersed, Cd has the square of the mean of Cr as variance, masses panic, the B plane is refused, the recorded standard deviations are variances."
  },
  {
   "property": "C116",
   "status": "partial",
   "theorems": [
    "Verif.Mc.first_last_values",
    "Verif.Mc.first_values_skip",
    "Verif.Mc.every_value_counts",
    "Verif.Mc.dispersion_values",
    "Verif.Mc.export_all_partial",
    "Verif.Mc.export_cuts_later_runs"
   ],
   "note": "Refuted for an export with a step."
  },
  {
   "property": "C117",
   "status": "partial",
   "theorems": [
    "Verif.Mc.unit_from_seed",
    "Verif.Mc.pointing_error_never_turns",
    "Verif.Mc.no_error_shrinks",
    "Verif.Mc.pointing_error_refused",
    "Verif.Mc.execution_error_size_partial"
   ],
   "note": "Refuted: the pointing error never changes the direction; without error the maneuver is multiplied by the cosine of its angle with the current direction."
  },
  {
   "property": "C118",
   "status": "partial",
   "theorems": [
    "Verif.Noise.first_sample_partial",
    "Verif.Noise.later_variance",
    "Verif.Noise.covariance_wrong",
    "Verif.Noise.std_seq_gaussian"
   ],
   "note": "White noise and the first sample: proved. Later samples of a Gauss-Markov process: exact variance, which is not the covariance reported (refuted)."
  },
  {
   "property": "C119",
   "status": "partial",
   "theorems": [
    "Verif.Noise.scaling_partial",
    "Verif.Noise.scaling_loses_offsets"
   ],
   "note": "Covariances: proved. Refuted for the samples: the mean is not scaled and the constant bias is dropped."
  },
  {
   "property": "C120",
   "status": "proved",
   "theorems": [
    "Verif.Noise.simulate_rows"
   ],
   "note": ""
  },
  {
   "property": "C121",
   "status": "proved",
   "theorems": [
    "Verif.Noise.presets",
    "Verif.Noise.range_noise",
    "Verif.Noise.doppler_noise"
   ],
   "note": ""
  },
  {
   "property": "C122",
   "status": "proved",
   "theorems": [
    "Verif.Device.builders",
    "Verif.Device.built_consistent"
   ],
   "note": ""
  },
  {
   "property": "C123",
   "status": "proved",
   "theorems": [
    "Verif.Device.instant_measurement",
    "Verif.Device.instant_total"
   ],
   "note": "The geometry (azimuth, elevation, range, rate) is a parameter."
  },
  {
   "property": "C124",
   "status": "partial",
   "theorems": [
    "Verif.Device.integrated_measurement_partial",
    "Verif.Device.measure_instant",
    "Verif.Device.azimuth_through_north",
    "Verif.Device.integrated_variance"
   ],
   "note": "Epoch, mask and values: proved. Refuted: the azimuth is the plain mean (wrong through north); the variance is half of the covariance declared."
  },
  {
   "property": "C125",
   "status": "partial",
   "theorems": [
    "Verif.Device.position_values",
    "Verif.Device.position_partial",
    "Verif.Device.position_wrong_axis",
    "Verif.Device.position_bias_twice",
    "Verif.Device.position_panics"
   ],
   "note": "Types X, Y, Z in this order without constant bias: proved. Refuted otherwise."
  },
  {
   "property": "C126",
   "status": "partial",
   "theorems": [
    "Verif.Device.link_partial",
    "Verif.Device.link_doppler_wrong",
    "Verif.Device.link_panics"
   ],
   "note": "Range and obstruction: proved. Refuted for the Doppler: the velocity of the transmitter is ignored."
  },
  {
   "property": "C127",
   "status": "partial",
   "theorems": [
    "Verif.Device.constant_bias_partial",
    "Verif.Device.constant_bias_doubled",
    "Verif.Ground.station_bias_integrated"
   ],
   "note": "Refuted: twice the bias in the filter, once in the batch; over an integration time the observation has the bias divided by the square root of two. The residuals are those without bias exactly if the bias is zero."
  },
  {
   "property": "C128",
   "status": "partial",
   "theorems": [
    "Verif.Estimate.uncertainty_partial",
    "Verif.Estimate.uncertainty_wrong_axes",
    "Verif.Estimate.inertialCov_spec"
   ],
   "note": "Inertial frame, and equal uncertainties on the axes: proved; positive semi-definite in all cases. Refuted otherwise: the inverse rotation is applied."
  },
  {
   "property": "C129",
   "status": "proved",
   "theorems": [
    "Verif.Estimate.element_uncertainty"
   ],
   "note": "The gradients of the elements (hyperdual numbers of anise) are parameters."
  },
  {
   "property": "C130",
   "status": "partial",
   "theorems": [
    "Verif.Estimate.within_iff_partial",
    "Verif.Estimate.within_negative_variance"
   ],
   "note": "Proved with variances which are not negative. Refuted with negative variances: the test is always true."
  },
  {
   "property": "C131",
   "status": "partial",
   "theorems": [
    "Verif.Estimate.displayed_sigmas_partial",
    "Verif.Estimate.displayed_variances"
   ],
   "note": "Refuted: variances are displayed, which are the deviations for zero or one only."
  },
  {
   "property": "C132",
   "status": "partial",
   "theorems": [
    "Verif.Estimate.setters_partial",
    "Verif.Estimate.set_epoch_ignored"
   ],
   "note": "Refuted for set_epoch, which changes nothing; the rest is proved."
  },
  {
   "property": "C133",
   "status": "proved",
   "theorems": [
    "Verif.Estimate.residual_by_type",
    "Verif.Estimate.residual_marks"
   ],
   "note": ""
  },
  {
   "property": "C134",
   "status": "partial",
   "theorems": [
    "Verif.Estimate.random_variable_partial",
    "Verif.Estimate.random_variable_mean"
   ],
   "note": "Refuted for the mean, which is the deviation of the estimate; the rest is proved."
  },
  {
   "property": "C135",
   "status": "partial",
   "theorems": [
    "Verif.Sched.sane_iff_partial",
    "Verif.Sched.zero_sampling_accepted",
    "Verif.Sched.ignored_device_measures",
    "Verif.Sched.default_sane"
   ],
   "note": "The check is exact (proved). Refuted: devices announced as ignored are simulated."
  },
  {
   "property": "C136",
   "status": "proved",
   "theorems": [
    "Verif.Sched.common_rate"
   ],
   "note": ""
  },
  {
   "property": "C137",
   "status": "proved",
   "theorems": [
    "Verif.Guide.ruggiero_constructor",
    "Verif.Guide.ruggiero_direction_partial"
   ],
   "note": ""
  },
  {
   "property": "C138",
   "status": "proved",
   "theorems": [
    "Verif.Guide.shadow_is_deepest"
   ],
   "note": ""
  },
  {
   "property": "C139",
   "status": "partial",
   "theorems": [
    "Verif.Guide.ruggiero_steering_partial",
    "Verif.Guide.ruggiero_moves_towards_partial",
    "Verif.Guide.aop_in_plane",
    "Verif.Guide.aop_steered_away"
   ],
   "note": "Proved for four elements and the in plane branch of the fifth. Refuted for the argument of periapsis out of plane."
  },
  {
   "property": "C140",
   "status": "proved",
   "theorems": [
    "Verif.Guide.kluever_direction",
    "Verif.Guide.kluever_zero_weight"
   ],
   "note": ""
  },
  {
   "property": "C141",
   "status": "partial",
   "theorems": [
    "Verif.Guide.kluever_moves_towards_partial",
    "Verif.Guide.kluever_steers_away"
   ],
   "note": "Proved for six elements. Refuted for the equinoctial elements H and K. The mean longitude has no rate under thrust."
  },
  {
   "property": "C142",
   "status": "proved",
   "theorems": [
    "Verif.Lambert.gooding_outcome",
    "Verif.Lambert.accepted_panics"
   ],
   "note": ""
  },
  {
   "property": "C143",
   "status": "partial",
   "theorems": [
    "Verif.Lambert.gooding_time_partial",
    "Verif.Lambert.gooding_solves_partial",
    "Verif.Lambert.gooding_near_partial",
    "Verif.Lambert.gooding_solves_false",
    "Verif.Lambert.gooding_moved_false"
   ],
   "note": "Refuted in two ways. Near the parabola (|phi| at most 1e-4) the code replaces the Stumpff functions by their values at zero, and the flight can be off by more than a second in a million. After phi has been moved because of a negative y the code keeps the functions of the phi before, and the flight can be off by more than 500 seconds in a million. What holds for every solution returned: the orbit reaches the target, within a part in 40 of the time for less than half a turn, and within a part in 50000 of the scale of the orbit for more."
  },
  {
   "property": "C144",
   "status": "partial",
   "theorems": [
    "Verif.Lambert.gooding_zero_time",
    "Verif.Lambert.gooding_opposite",
    "Verif.Lambert.coincident_not_too_close",
    "Verif.Lambert.izzo_panic_iff",
    "Verif.Lambert.accepted_panics",
    "Verif.Lambert.degenerate_partial"
   ],
   "note": "Refuted. Different positions never panic."
  },
  {
   "property": "C145",
   "status": "partial",
   "theorems": [
    "Verif.Lambert.izzo_solves_partial",
    "Verif.Lambert.tof_reach",
    "Verif.Lambert.izzo_least_exact",
    "Verif.Lambert.izzo_wrong_plane",
    "Verif.Lambert.izzo_wrong_plane_exists"
   ],
   "note": "Proved for a plane whose normal points to +z; refuted for all others with different distances. The residual of the equation is not bounded, as the solver accepts by the size of the step."
  },
  {
   "property": "C146",
   "status": "partial",
   "theorems": [
    "Verif.Lambert.householder_step_partial",
    "Verif.Lambert.householder_fixed",
    "Verif.Lambert.series_eq_closed",
    "Verif.Lambert.flight_deriv",
    "Verif.Lambert.flight_deriv2",
    "Verif.Lambert.flight_deriv3",
    "Verif.Lambert.halley_stationary_iff"
   ],
   "note": "Proved for householder. Refuted for halley. Not at x = 1, where the code divides by zero."
  },
  {
   "property": "C147",
   "status": "partial",
   "theorems": [
    "Verif.Lambert.planetary_states",
    "Verif.Lambert.transfer_orbits",
    "Verif.Lambert.departure_partial",
    "Verif.Lambert.v_inf_opposite"
   ],
   "note": "Refuted for the sign of the two vectors; the rest is proved."
  },
  {
   "property": "C148",
   "status": "partial",
   "theorems": [
    "Verif.Sequence.phases_on_time_partial",
    "Verif.Sequence.disabled_phase_shifts"
   ],
   "note": "Proved from a planned epoch without disabled phases. Refuted with a disabled phase: the next one is entered early."
  },
  {
   "property": "C149",
   "status": "partial",
   "theorems": [
    "Verif.Sequence.phase_first_partial",
    "Verif.Sequence.in_progress_skipped",
    "Verif.Sequence.mid_phase_start"
   ],
   "note": "Refuted for a start within a phase; proved for a start at the epoch of a phase."
  },
  {
   "property": "C150",
   "status": "proved",
   "theorems": [
    "Verif.Sequence.setup_spec",
    "Verif.Sequence.setup_ready",
    "Verif.Sequence.setup_again"
   ],
   "note": "A propagator that was built is not built again even when its configuration changed."
  },
  {
   "property": "C151",
   "status": "proved",
   "theorems": [
    "Verif.Sequence.enter_iff",
    "Verif.Sequence.stage_then_dock",
    "Verif.Sequence.event_mass",
    "Verif.Sequence.frame_swap_spec"
   ],
   "note": "The translation between centers is a parameter."
  },
  {
   "property": "C152",
   "status": "partial",
   "theorems": [
    "Verif.Sequence.impulse_partial",
    "Verif.Sequence.local_frame_ignored"
   ],
   "note": "Refuted; holds for a vector that is the same in the local frame and in that of the state."
  },
  {
   "property": "C153",
   "status": "partial",
   "theorems": [
    "Verif.Sequence.staging_partial",
    "Verif.Sequence.staging_below_zero"
   ],
   "note": "Refuted for more mass than there is; proved otherwise."
  },
  {
   "property": "C154",
   "status": "proved",
   "theorems": [
    "Verif.Sequence.pairs_round_trip",
    "Verif.Sequence.pairs_as_map_spec"
   ],
   "note": ""
  },
  {
   "property": "C155",
   "status": "proved",
   "theorems": [
    "Verif.Sequence.build_spec"
   ],
   "note": ""
  },
  {
   "property": "C156",
   "status": "partial",
   "theorems": [
    "Verif.Der.white_trips",
    "Verif.Der.gaussMarkov_trips",
    "Verif.Der.noise_trips",
    "Verif.Der.station_trips",
    "Verif.Der.noise_preserved_iff_partial"
   ],
   "note": "Refuted in full: the state of the Gauss Markov processes is lost; the original is returned exactly when none was sampled."
  },
  {
   "property": "C157",
   "status": "proved",
   "theorems": [
    "Verif.Der.thruster_trips",
    "Verif.Der.mode_trips"
   ],
   "note": ""
  },
  {
   "property": "C158",
   "status": "proved",
   "theorems": [
    "Verif.Force.orb_gradient"
   ],
   "note": "For acceleration models with exact partials. The rules of the crate hyperdual are modelled."
  },
  {
   "property": "C159",
   "status": "partial",
   "theorems": [
    "Verif.Force.point_masses_partial",
    "Verif.Force.point_masses_exact_iff",
    "Verif.Force.tidal_ne_zero",
    "Verif.Force.point_mass_wrong"
   ],
   "note": "Acceleration: proved. Partials: proved equal to the derivative plus a spurious term, so refuted; wrong everywhere with one perturber."
  },
  {
   "property": "C160",
   "status": "partial",
   "theorems": [
    "Verif.Force.srp_gradient_partial",
    "Verif.Force.srp_gradient_nan",
    "Verif.Force.srp_constructors",
    "Verif.Force.srp_drops_bodies"
   ],
   "note": "Partials: proved for a constant illumination and a coefficient which is not zero; refuted for a zero coefficient. Constructors: proved; refuted for the shadow bodies, which are dropped when not loaded."
  },
  {
   "property": "C161",
   "status": "partial",
   "theorems": [
    "Verif.Force.density_pos",
    "Verif.Force.exponential_density_partial",
    "Verif.Force.earth_exp_wrong",
    "Verif.Force.std_density",
    "Verif.Force.drag_no_gradient"
   ],
   "note": "Standard atmosphere: proved. Refuted for the exponential one: parameters in meters, distance in kilometers."
  },
  {
   "property": "C162",
   "status": "partial",
   "theorems": [
    "Verif.Force.sc_gradient_partial",
    "Verif.Force.sc_gradient_cr",
    "Verif.Force.sc_gradient_cd",
    "Verif.Force.sc_mass_column",
    "Verif.Force.aligned_mass_wrong",
    "Verif.Force.sc_rejects",
    "Verif.Force.srp_column"
   ],
   "note": "Proved for the columns of the orbit and of the coefficients; refuted for the propellant mass."
  },
  {
   "property": "C163",
   "status": "proved",
   "theorems": [
    "Verif.Gravity.accel_gradient",
    "Verif.Gravity.eom_gradient",
    "Verif.Gravity.potential_spherical",
    "Verif.Gravity.table_legendre"
   ],
   "note": "Over the reals."
  },
  {
   "property": "C164",
   "status": "proved",
   "theorems": [
    "Verif.Gravity.gravity_exact",
    "Verif.Gravity.partials_symmetric"
   ],
   "note": "For a frame related to that of the orbit by a rotation and a translation at each epoch."
  },
  {
   "property": "C165",
   "status": "partial",
   "theorems": [
    "Verif.Gravity.load_field_partial",
    "Verif.Gravity.unsorted_lost",
    "Verif.Gravity.order_panics"
   ],
   "note": "Proved for files ordered by degree with orders at most the degrees; refuted for others."
  },
  {
   "property": "C166",
   "status": "partial",
   "theorems": [
    "Verif.Gravity.shadr_line",
    "Verif.Gravity.cof_line",
    "Verif.Gravity.cof_skip",
    "Verif.Gravity.cof_joined_partial",
    "Verif.Gravity.cof_joined_not",
    "Verif.Gravity.config_shadr",
    "Verif.Gravity.config_cof_fails"
   ],
   "note": "Lines: proved but for joined coefficients with an exponent that is not negative. from_config: refuted, COF files are taken for SHADR files."
  },
  {
   "property": "C167",
   "status": "partial",
   "theorems": [
    "Verif.Gravity.from_j2_partial",
    "Verif.Gravity.from_j2_polar",
    "Verif.Gravity.from_j2_not"
   ],
   "note": "Proved with the coefficient minus square root of five times the argument; refuted for J2 itself."
  },
  {
   "property": "C168",
   "status": "proved",
   "theorems": [
    "Verif.BPlane.plane_partials",
    "Verif.BPlane.jacobian_partials",
    "Verif.BPlane.jacobian2_eq"
   ],
   "note": "The partials of the time of flight are zero."
  },
  {
   "property": "C169",
   "status": "partial",
   "theorems": [
    "Verif.BPlane.achieve_ok",
    "Verif.BPlane.achieve_panic",
    "Verif.BPlane.achieve_panics",
    "Verif.BPlane.achieve_ltof_partial",
    "Verif.BPlane.ltof_refused",
    "Verif.BPlane.ltof_ignored",
    "Verif.BPlane.ltof_step_wrong"
   ],
   "note": "Proved without a time of flight; refuted with one."
  },
  {
   "property": "C170",
   "status": "proved",
   "theorems": [
    "Verif.Tides.tides_gradient",
    "Verif.Tides.tides_gradient_clear",
    "Verif.Tides.tidal_surface"
   ],
   "note": "Over the reals, with perturbers and frame known to the almanac."
  },
  {
   "property": "C171",
   "status": "proved",
   "theorems": [
    "Verif.Tides.tides_exact",
    "Verif.Tides.gradient_symmetric"
   ],
   "note": "For a frame related to that of the orbit by a rotation and a translation at each epoch."
  },
  {
   "property": "C172",
   "status": "proved",
   "theorems": [
    "Verif.Tides.earth_moon"
   ],
   "note": ""
  },
  {
   "property": "C173",
   "status": "proved",
   "theorems": [
    "Verif.Ground.jacobian_derivative",
    "Verif.Ground.velocity_exists",
    "Verif.Ground.jacobian_shapeless",
    "Verif.Ground.place_ground",
    "Verif.Ground.place_normal",
    "Verif.Ground.place_height"
   ],
   "note": "Over the reals."
  },
  {
   "property": "C174",
   "status": "partial",
   "theorems": [
    "Verif.Ground.velocity_sez",
    "Verif.Ground.withVelocity_partial",
    "Verif.Ground.pole_stops"
   ],
   "note": "The velocity is that of the place. A velocity given is kept away from the poles (not below the ellipsoid); refuted at the poles."
  },
  {
   "property": "C175",
   "status": "proved",
   "theorems": [
    "Verif.Ground.great_circle",
    "Verif.Ground.great_circle_metric"
   ],
   "note": "Over the reals."
  },
  {
   "property": "C176",
   "status": "proved",
   "theorems": [
    "Verif.Ground.set_toVector",
    "Verif.Ground.toVector_set",
    "Verif.Ground.add_vars",
    "Verif.Ground.export_values"
   ],
   "note": ""
  },
  {
   "property": "C177",
   "status": "proved",
   "theorems": [
    "Verif.Ground.interpolate_line"
   ],
   "note": "Assumes that the interpolation of ANISE is exact on straight lines."
  },
  {
   "property": "C178",
   "status": "proved",
   "theorems": [
    "Verif.Ground.propagate_line"
   ],
   "note": "Up to the rounding of the weights of two methods."
  },
  {
   "property": "C179",
   "status": "partial",
   "theorems": [
    "Verif.Ground.gradient_exact",
    "Verif.Ground.motion_derivative",
    "Verif.Ground.stm_partial",
    "Verif.Ground.stm_not_derivative"
   ],
   "note": "Refuted for deviations of the rates: the matrix stays the identity."
  },
  {
   "property": "C180",
   "status": "partial",
   "theorems": [
    "Verif.Ground.range_row_partial",
    "Verif.Ground.doppler_row_partial",
    "Verif.Ground.range_row_frame",
    "Verif.Ground.doppler_row_moving"
   ],
   "note": "Refuted for a transmitter in another frame and for the Doppler of an asset that moves."
  },
  {
   "property": "C181",
   "status": "partial",
   "theorems": [
    "Verif.Ground.measure_ignores_rates",
    "Verif.Ground.doppler_row_rates",
    "Verif.Ground.doppler_height_rate_partial"
   ],
   "note": "Refuted; the sensitivity to the rate of the height is right exactly for a transmitter in the horizontal plane."
  },
  {
   "property": "C182",
   "status": "partial",
   "theorems": [
    "Verif.Ground.h_tilde_rows_partial",
    "Verif.Ground.missing_row6"
   ],
   "note": "Refuted for types not in the measurement."
  },
  {
   "property": "C183",
   "status": "proved",
   "theorems": [
    "Verif.Ground.instant_ground"
   ],
   "note": "The label is always GroundAsset, not the name of the device."
  },
  {
   "property": "C184",
   "status": "proved",
   "theorems": [
    "Verif.Ground.integrated_ground",
    "Verif.Ground.measure_instant_ground"
   ],
   "note": ""
  },
  {
   "property": "C185",
   "status": "partial",
   "theorems": [
    "Verif.Ground.instant_total_partial",
    "Verif.Ground.unsupported_panics"
   ],
   "note": "Refuted for types other than range and Doppler."
  },
  {
   "property": "C186",
   "status": "partial",
   "theorems": [
    "Verif.Pq.arc_read_back",
    "Verif.Pq.arc_roundtrip_partial",
    "Verif.Pq.missing_type_appears",
    "Verif.Pq.unknown_types_unreadable"
   ],
   "note": "Refuted for arcs whose measurements do not all have the same types and for types of frequencies."
  },
  {
   "property": "C187",
   "status": "partial",
   "theorems": [
    "Verif.Pq.arc_empty_refused",
    "Verif.Pq.arc_window_partial",
    "Verif.Pq.default_end_drops_last"
   ],
   "note": "Refuted for the end bound, which is exclusive."
  },
  {
   "property": "C188",
   "status": "partial",
   "theorems": [
    "Verif.Pq.traj_read_back_partial",
    "Verif.Pq.traj_roundtrip_false",
    "Verif.Pq.empty_trajectory_panics",
    "Verif.Pq.empty_window"
   ],
   "note": "What is read is described exactly; refuted for the coefficients, areas, extra mass and frames."
  },
  {
   "property": "C189",
   "status": "partial",
   "theorems": [
    "Verif.Pq.direction_nan",
    "Verif.Pq.direction_kept_iff_partial"
   ],
   "note": "Refuted but for directions along x."
  },
  {
   "property": "C190",
   "status": "partial",
   "theorems": [
    "Verif.Pq.default_fields_partial",
    "Verif.Pq.missing_field_unreadable"
   ],
   "note": "Refuted for omitted fields; proved for a file with the default fields."
  },
  {
   "property": "C191",
   "status": "partial",
   "theorems": [
    "Verif.Pq.od_export_refused",
    "Verif.Pq.od_window_fails",
    "Verif.Pq.od_later_missing_fails",
    "Verif.Pq.od_written_partial"
   ],
   "note": "Refuted for windows and for parameters missing in later estimates."
  },
  {
   "property": "C192",
   "status": "partial",
   "theorems": [
    "Verif.Pq.od_estimates_partial",
    "Verif.Pq.od_forgets"
   ],
   "note": "Refuted for deviations, predicted covariances, transition matrices and marks of prediction."
  },
  {
   "property": "C193",
   "status": "partial",
   "theorems": [
    "Verif.Pq.od_residuals_partial"
   ],
   "note": "Refuted for whitened residuals (always NaN) and types of frequencies, within the same theorem."
  },
  {
   "property": "C194",
   "status": "partial",
   "theorems": [
    "Verif.Pq.od_gains_partial",
    "Verif.Pq.od_mixed_types_panic"
   ],
   "note": "Refuted: gains are lost with fewer types than components, and types of frequencies among others panic."
  },
  {
   "property": "C195",
   "status": "partial",
   "theorems": [
    "Verif.Pq.ric_sigma_partial",
    "Verif.Pq.ric_sigma_false"
   ],
   "note": "Refuted unless the matrix of the frame is symmetric. Assumes that dcm_from_ric_to_inertial has the axes in its columns, as cosmic/spacecraft.rs:333-334 does."
  },
  {
   "property": "C196",
   "status": "partial",
   "theorems": [
    "Verif.Pq.pnt_export_partial",
    "Verif.Pq.pnt_two_types",
    "Verif.Pq.pnt_window_fails"
   ],
   "note": "Refuted unless there are exactly two types and no window."
  },
  {
   "property": "C197",
   "status": "partial",
   "theorems": [
    "Verif.Lambert.revs_refused_partial",
    "Verif.Lambert.revs_bound_partial",
    "Verif.Lambert.revs_accepted_partial",
    "Verif.Lambert.revs_refused_false",
    "Verif.Lambert.refused_feasible",
    "Verif.Lambert.flight_above",
    "Verif.Lambert.flight_onto"
   ],
   "note": "Refuted: possible transfers are refused near the least time of flight. Proved for all numbers of revolutions other than the floor of t/pi, and for that one up to the value taken for the least time."
  },
  {
   "property": "C198",
   "status": "partial",
   "theorems": [
    "Verif.Guide.burns_partial",
    "Verif.Guide.burns_false",
    "Verif.Guide.burn_end"
   ],
   "note": "Refuted if two maneuvers end between two calls of next; proved otherwise."
  },
  {
   "property": "C199",
   "status": "partial",
   "theorems": [
    "Verif.Shooting.altitude_nodes_partial",
    "Verif.Shooting.altitude_linear_false"
   ],
   "note": "Refuted for the linear change of altitude; the rest is proved."
  },
  {
   "property": "C200",
   "status": "partial",
   "theorems": [
    "Verif.Propagate.constructors_consistent",
    "Verif.Propagate.constructors_modes",
    "Verif.Propagate.setters_consistent_partial",
    "Verif.Propagate.setters_sequence",
    "Verif.Propagate.python_options",
    "Verif.Propagate.python_crossed",
    "Verif.Propagate.withMax_init",
    "Verif.Propagate.withMax_init_false",
    "Verif.Propagate.crossed_no_control",
    "Verif.Propagate.withMax_no_control",
    "Verif.Propagate.crossed_exceeds"
   ],
   "note": "Refuted for a maximum below the minimum and for the initial step of with_max_step."
  },
  {
   "property": "C201",
   "status": "partial",
   "theorems": [
    "Verif.Traj.to_frame_spec_partial",
    "Verif.Traj.rebuild_spec",
    "Verif.Traj.to_frame_name"
   ],
   "note": "Refuted for the name only."
  },
  {
   "property": "C202",
   "status": "proved",
   "theorems": [
    "Verif.Traj.from_bsp_spec"
   ],
   "note": "Epochs are integers of nanoseconds."
  },
  {
   "property": "C203",
   "status": "partial",
   "theorems": [
    "Verif.Traj.ephemeris_spec",
    "Verif.Traj.toEphem_sorted",
    "Verif.Traj.oem_roundtrip_partial",
    "Verif.Traj.oem_forgets"
   ],
   "note": "Refuted for all but the orbits."
  },
  {
   "property": "C204",
   "status": "partial",
   "theorems": [
    "Verif.Pq.ric_file_partial",
    "Verif.Pq.ric_empty_panics",
    "Verif.Pq.ric_missing_fails",
    "Verif.Pq.ric_shorter_fails"
   ],
   "note": "Refuted: the differences in the RIC frame are filtered if there are more than five of them (see the property on smooth_state_diff_in_place)."
  },
  {
   "property": "C205",
   "status": "partial",
   "theorems": [
    "Verif.Process.full_window_partial",
    "Verif.Process.short_window_certain",
    "Verif.Process.missing_type_observed"
   ],
   "note": "Proved for windows which the measurement fills; refuted otherwise, since the sensitivity starts from the identity."
  },
  {
   "property": "C206",
   "status": "proved",
   "theorems": [
    "Verif.Process.noise_covariance",
    "Verif.Process.trackers_covariances_psd",
    "Verif.Process.station_variance_nonneg"
   ],
   "note": ""
  },
  {
   "property": "C207",
   "status": "partial",
   "theorems": [
    "Verif.Spacecraft.equality_partial",
    "Verif.Spacecraft.equality_not_transitive",
    "Verif.Spacecraft.equal_but_different"
   ],
   "note": "Refuted: not transitive, and thruster, mode and thrust direction are not compared."
  },
  {
   "property": "C208",
   "status": "partial",
   "theorems": [
    "Verif.Spacecraft.thrust_angles_direction_partial",
    "Verif.Spacecraft.thrust_angles_complement"
   ],
   "note": "Proved with the in-plane angle measured from the first axis; refuted for the convention of the guidance laws."
  },
  {
   "property": "C209",
   "status": "partial",
   "theorems": [
    "Verif.Kalman.velocity_noise_partial",
    "Verif.Kalman.velocity_noise_square_iff",
    "Verif.Kalman.velocity_noise_cadence"
   ],
   "note": "Refuted; the exact value is proved without a local frame."
  },
  {
   "property": "C210",
   "status": "proved",
   "theorems": [
    "Verif.Rk.tree_conditions",
    "Verif.Rk.tail_conditions",
    "Verif.Rk.nonlinear_order",
    "Verif.Rk.nonlinear_exact",
    "Verif.Rk.nonlinear_estimate",
    "Verif.Rk.nonlinear_estimate_exact",
    "Verif.Rk.time_order",
    "Verif.Rk.taylor_unique"
   ],
   "note": "The scalars are the rationals."
  },
  {
   "property": "C211",
   "status": "partial",
   "theorems": [
    "Verif.Solution.nees_fails_iff",
    "Verif.Solution.nees_consistency_partial",
    "Verif.Solution.nees_zero_covariance"
   ],
   "note": "Refuted for covariances which are singular on the estimated block; the first estimate is never tested."
  },
  {
   "property": "C212",
   "status": "partial",
   "theorems": [
    "Verif.Solution.is_normal_fails",
    "Verif.Solution.is_normal_partial",
    "Verif.Solution.is_normal_antitone",
    "Verif.Solution.is_normal_lenient"
   ],
   "note": "Refuted for residuals of several components: the statistic uses all components, the threshold the number of residuals."
  },
  {
   "property": "C213",
   "status": "proved",
   "theorems": [
    "Verif.Kalman.covariance_of_errors",
    "Verif.Kalman.step_error"
   ],
   "note": ""
  },
  {
   "property": "C214",
   "status": "partial",
   "theorems": [
    "Verif.Kalman.ratio_mean_square",
    "Verif.Kalman.ratio_mean_square_partial",
    "Verif.Kalman.ratio_mean_square_fails"
   ],
   "note": "Refuted in deviation tracking with a deviation which is observed; the exact mean square is proved."
  },
  {
   "property": "C215",
   "status": "proved",
   "theorems": [
    "Verif.Rk.step_lipschitz",
    "Verif.Rk.stepAmp_small",
    "Verif.Rk.global_error",
    "Verif.Rk.global_order",
    "Verif.Rk.method_constants"
   ],
   "note": ""
  },
  {
   "property": "C216",
   "status": "proved",
   "theorems": [
    "Verif.Rk.local_error"
   ],
   "note": ""
  },
  {
   "property": "C217",
   "status": "proved",
   "theorems": [
    "Verif.Rk.convergence",
    "Verif.Rk.exact_methods",
    "Verif.Rk.convergence_exact"
   ],
   "note": "The rounding of the two tables (1e-17), of the epochs and of the computed states is in the bound."
  },
  {
   "property": "C218",
   "status": "proved",
   "theorems": [
    "Verif.Propagate.propagation_error",
    "Verif.Propagate.propagation_exact"
   ],
   "note": "For propagations whose integration frame is that of the state and whose dynamics change nothing in finally. The error of the arithmetic of one step is a parameter, whose sum over the steps is in the bound."
  },
  {
   "property": "C219",
   "status": "proved",
   "theorems": [
    "Verif.Propagate.round_trip"
   ],
   "note": ""
  },
  {
   "property": "C220",
   "status": "partial",
   "theorems": [
    "Verif.Propagate.stm_limit",
    "Verif.Propagate.variational_isStm",
    "Verif.Propagate.stm_commuting_partial",
    "Verif.Propagate.stm_wrong_limit",
    "Verif.Propagate.escape_runs"
   ],
   "note": "False of the code: the limit has the gradient on the right (stm_limit), which differs from the derivative of the flow (stm_wrong_limit, with runs shown to exist by escape_runs); it holds where the gradients commute."
  },
  {
   "property": "C221",
   "status": "proved",
   "theorems": [
    "Verif.Traj.at_error",
    "Verif.Traj.interpolate_error",
    "Verif.Traj.hermite_error"
   ],
   "note": "hermite_eval (ANISE) is a parameter with its contract, shown to be satisfiable."
  },
  {
   "property": "C222",
   "status": "proved",
   "theorems": [
    "Verif.Traj.propagated_at_error",
    "Verif.Traj.forDuration_grid"
   ],
   "note": "For durations which are a multiple of the step, so that the spacing of the states is that of the steps; otherwise the last spacing is shorter and C221 gives a bound with that ratio."
  },
  {
   "property": "C223",
   "status": "proved",
   "theorems": [
    "Verif.Target.local_convergence",
    "Verif.Target.dual_local_convergence",
    "Verif.Target.smooth_of_lipschitz",
    "Verif.Target.slow_convergence_refused"
   ],
   "note": "For variables of the state which start from zero without correction frame, as many variables as objectives or more. slow_convergence_refused shows that the condition on the tolerance is needed."
  },
  {
   "property": "C224",
   "status": "partial",
   "theorems": [
    "Verif.Target.log_width_partial",
    "Verif.Target.small_tolerance_fits",
    "Verif.Target.log_width_overflow",
    "Verif.Target.zero_tolerance_panics",
    "Verif.Target.unchecked_log_width"
   ],
   "note": "Refuted with overflow checks (debug and test builds) for a large desired value with a tolerance above one and for a tolerance of zero; proved without the checks."
  },
  {
   "property": "C225",
   "status": "partial",
   "theorems": [
    "Verif.Process.to_traj_partial",
    "Verif.Process.exNav_runs",
    "Verif.Process.to_traj_keeps_first"
   ],
   "note": "Refuted when several measurements are processed at one epoch: the first of their estimates is kept; proved for distinct epochs."
  },
  {
   "property": "C226",
   "status": "partial",
   "theorems": [
    "Verif.Solution.eq_iff",
    "Verif.Solution.solution_equality_partial",
    "Verif.Solution.solution_equality_false"
   ],
   "note": "Refuted: neither symmetric nor transitive, and epochs are ignored; reflexive, symmetric for the same types, and transitive with twice the tolerances."
  },
  {
   "property": "C227",
   "status": "partial",
   "theorems": [
    "Verif.Py.many_partial",
    "Verif.Py.many_loses_failures"
   ],
   "note": "Refuted when a propagation fails: its result is left out; proved otherwise."
  },
  {
   "property": "C228",
   "status": "partial",
   "theorems": [
    "Verif.Py.append_partial",
    "Verif.Py.push_last_lost",
    "Verif.Py.push_duplicates"
   ],
   "note": "Refuted for epochs already in the trajectory."
  },
  {
   "property": "C229",
   "status": "partial",
   "theorems": [
    "Verif.Py.accel_noise_partial",
    "Verif.Py.accel_noise_square_iff"
   ],
   "note": "Refuted: the acceleration is used as a variance; the noise added is proved."
  },
  {
   "property": "C230",
   "status": "proved",
   "theorems": [
    "Verif.Py.python_covariance"
   ],
   "note": ""
  },
  {
   "property": "C231",
   "status": "partial",
   "theorems": [
    "Verif.Lambert.gooding_elliptic_partial",
    "Verif.Lambert.gooding_hyperbolic_partial",
    "Verif.Lambert.gooding_window",
    "Verif.Lambert.gooding_fast_false",
    "Verif.Lambert.gooding_fast_short_false",
    "Verif.Lambert.fast_short_witness",
    "Verif.Lambert.gooding_outcome"
   ],
   "note": "Proved for the ellipses which are longer than a bound close to the time on the parabola, for positions at least a meter apart, and for the hyperbolas between the one with phi = -4\u03c0\u00b2 and the neighborhood of the parabola if y stays positive there (always the long way round): the thousand rounds of the bisection are enough. Refuted close to the parabola, for every fast transfer the long way round, and, for all shapes but countably many, for every transfer the short way below a bound: it exists but the solver gives up. When the solver fails, gooding_outcome says for which reasons. Missing: the slower hyperbolas the short way when y becomes negative."
  },
  {
   "property": "C232",
   "status": "partial",
   "theorems": [
    "Verif.Schema.options_schema",
    "Verif.Schema.force_schema",
    "Verif.Schema.masses_schema",
    "Verif.Schema.maneuver_schema",
    "Verif.Schema.phase_schema",
    "Verif.Schema.accel_schema_partial",
    "Verif.Schema.prop_schema",
    "Verif.Schema.gravity_schema_false",
    "Verif.Schema.plan_schema_false",
    "Verif.Schema.activity_schema_false",
    "Verif.Schema.plan_schema_partial",
    "Verif.Schema.accel_roundtrip",
    "Verif.Schema.map_roundtrip",
    "Verif.Schema.declared_gravity_unreadable",
    "Verif.Schema.declared_map_unreadable"
   ],
   "note": "Refuted for gravity fields and for sequences with thrusters or propagators; proved for the other configurations. How serde_dhall writes maps and nalgebra writes vectors is a parameter."
  },
  {
   "property": "C233",
   "status": "partial",
   "theorems": [
    "Verif.Stability.stable_bounded_partial",
    "Verif.Stability.unstable_unbounded",
    "Verif.Stability.stable_jordan_false",
    "Verif.Stability.dual_always_warns"
   ],
   "note": "Refuted: the free particle passes the test but is not bounded, and the warning is issued in every iteration of every target. Proved: a failed test means motions without bound, and the test is exact for matrices with independent eigenvectors."
  },
  {
   "property": "C234",
   "status": "partial",
   "theorems": [
    "Verif.BPlane.objectives_within_iff",
    "Verif.BPlane.all_objectives_iff",
    "Verif.BPlane.objectives_on_target_partial",
    "Verif.BPlane.achieved_meets",
    "Verif.BPlane.objectives_loose",
    "Verif.BPlane.all_objectives_ignore_time",
    "Verif.BPlane.shown_tolerance_false"
   ],
   "note": "Refuted: the tolerances of the target are not used, that of the time of flight is multiplied by 1e5, and the meters shown are wrong. Proved for a tolerance no greater than those of the target."
  },
  {
   "property": "C235",
   "status": "partial",
   "theorems": [
    "Verif.Io.timestamp_name_partial",
    "Verif.Io.timestamp_end",
    "Verif.Io.timestamp_collision",
    "Verif.Io.no_extension_no_timestamp"
   ],
   "note": "Refuted when the extension also occurs in the stem (files overwrite one another) and without an extension; proved otherwise."
  },
  {
   "property": "C236",
   "status": "partial",
   "theorems": [
    "Verif.Sched.config_text_round",
    "Verif.Sched.unreadable_refused_partial",
    "Verif.Sched.unreadable_alignment",
    "Verif.Sched.missing_alignment",
    "Verif.Sched.scheduler_default_differs"
   ],
   "note": "The round trip is proved; refuted for the alignment, which is dropped when it is not readable."
  },
  {
   "property": "C237",
   "status": "partial",
   "theorems": [
    "Verif.Shooting.nodes_round",
    "Verif.Shooting.nodes_read_partial",
    "Verif.Shooting.node_objectives3",
    "Verif.Shooting.node_objectives4",
    "Verif.Shooting.node_update",
    "Verif.Shooting.bad_epoch_panics",
    "Verif.Shooting.open_velocity_is_rest"
   ],
   "note": "Refuted for epochs that are not readable (panic) and for nodes without a speed; the rest is proved."
  },
  {
   "property": "C238",
   "status": "partial",
   "theorems": [
    "Verif.Shooting.default_tolerance_partial",
    "Verif.Shooting.default_tolerance_false",
    "Verif.Shooting.ltof_objective_panics"
   ],
   "note": "Refuted: a thousandth instead of a tenth, and a panic for the time of flight."
  },
  {
   "property": "C239",
   "status": "partial",
   "theorems": [
    "Verif.Device.link_integrated_partial",
    "Verif.Device.link_measure_instant",
    "Verif.Device.link_transmitter_missing",
    "Verif.Device.integrated_doppler_false",
    "Verif.Device.link_covar_panics",
    "Verif.Device.link_covar",
    "Verif.Device.link_location_panics"
   ],
   "note": "Refuted: the Doppler over the integration time is not the change of distance; a link without noises panics when its covariance is asked for; so does the location outside of the trajectory. The mean of both ends is proved."
  },
  {
   "property": "C240",
   "status": "partial",
   "theorems": [
    "Verif.Process.exact_data_partial",
    "Verif.Process.exact_data_early"
   ],
   "note": "Refuted when a measurement is within the epoch precision of a step; proved when the epochs are reached exactly."
  },
  {
   "property": "C241",
   "status": "partial",
   "theorems": [
    "Verif.Blse.exact_batch_partial",
    "Verif.Blse.exact_batch_early"
   ],
   "note": "Refuted when a measurement is within the epoch precision of a step; proved when the epochs are reached exactly."
  },
  {
   "property": "C242",
   "status": "partial",
   "theorems": [
    "Verif.Process.resume_partial",
    "Verif.Process.resume_reference_false",
    "Verif.Process.predict_ignores_deviation",
    "Verif.Process.predict_reference_false"
   ],
   "note": "Refuted for reference updates: the last correction is lost. Proved for deviation tracking with white noises."
  },
  {
   "property": "C243",
   "status": "partial",
   "theorems": [
    "Verif.Target.good_guess_kept_partial",
    "Verif.Target.thrust_guess_unused",
    "Verif.Target.good_thrust_guess_missed",
    "Verif.Target.wrong_guess_reported",
    "Verif.Target.constructors_valid",
    "Verif.Target.vnc_step",
    "Verif.Target.vnc_level_panics"
   ],
   "note": "Refuted for the variables of the thrust, whose guesses are only reported; proved for those of the state."
  },
  {
   "property": "C244",
   "status": "partial",
   "theorems": [
    "Verif.Simulated.simulated_filter_partial",
    "Verif.Simulated.simulated_batch_partial",
    "Verif.Simulated.simulated_values",
    "Verif.Simulated.simulated_early"
   ],
   "note": "Refuted when the epochs are within the epoch precision of the steps; proved on a grid."
  },
  {
   "property": "C245",
   "status": "partial",
   "theorems": [
    "Verif.Blse.static_batch_partial",
    "Verif.Blse.static_error_bound",
    "Verif.Blse.rotating_batch_false"
   ],
   "note": "Refuted for states that move; proved for states at rest with the normal equations."
  },
  {
   "property": "C246",
   "status": "partial",
   "theorems": [
    "Verif.Added.earlier_unchanged_partial",
    "Verif.Added.quiet_unchanged",
    "Verif.Added.added_tracker_false"
   ],
   "note": "Refuted with noise: a tracker that comes before in the order of the names shifts the draws of those after it. Proved for the trackers that come before the added one, and for all without noise."
  },
  {
   "property": "C247",
   "status": "partial",
   "theorems": [
    "Verif.Stamped.stamped_kept_partial",
    "Verif.Stamped.colliding_tags_false"
   ],
   "note": "Refuted when the noise of the tags can reach the sampling period: two measurements with one tag are merged. Proved for smaller noises."
  },
  {
   "property": "C248",
   "status": "proved",
   "theorems": [
    "Verif.ProcessArc.process_is_least_squares",
    "Verif.ProcessArc.process_forgets",
    "Verif.KalmanArc.run_is_least_squares",
    "Verif.KalmanArc.run_information",
    "Verif.KalmanArc.guess_forgotten"
   ],
   "note": "For positive definite initial and measurement covariances and invertible transitions."
  },
  {
   "property": "C249",
   "status": "partial",
   "theorems": [
    "Verif.Variants.variants_agree_partial",
    "Verif.Variants.variants_threshold_false",
    "Verif.Variants.variants_deviation_false"
   ],
   "note": "Refuted with a rejection threshold and for initial estimates with a deviation; proved without."
  },
  {
   "property": "C250",
   "status": "partial",
   "theorems": [
    "Verif.Analysis.solution_mix_partial",
    "Verif.Analysis.values_leave_covariance_partial",
    "Verif.Analysis.angles_blind",
    "Verif.Analysis.range_value_false"
   ],
   "note": "Refuted for ranges, whose sensitivity divides by the measured value; proved for devices whose sensitivity does not use the values, such as stations that measure angles."
  },
  {
   "property": "C251",
   "status": "partial",
   "theorems": [
    "Verif.DevPy.py_new_partial",
    "Verif.DevPy.py_seed_false"
   ],
   "note": "Refuted with noise: the types take the random order of a HashMap, so the same seed gives other data; proved for the configuration and for measurements without noise."
  },
  {
   "property": "C252",
   "status": "partial",
   "theorems": [
    "Verif.DevPy.py_edit_effects",
    "Verif.DevPy.py_edits_partial",
    "Verif.DevPy.remove_noise_false"
   ],
   "note": "Refuted for remove_stochastic_noise and clear_stochastic_noises, which leave a type enabled without noise; proved for stations whose enabled types have a noise, which the other edits keep."
  },
  {
   "property": "C253",
   "status": "proved",
   "theorems": [
    "Verif.Target.thrust_whole_segment",
    "Verif.Target.thrust_mnvr_whole",
    "Verif.Target.continuous_constructors"
   ],
   "note": ""
  },
  {
   "property": "C254",
   "status": "partial",
   "theorems": [
    "Verif.Noise.again_white_partial",
    "Verif.SchedAgain.again_same_epochs_partial",
    "Verif.Noise.again_variance",
    "Verif.Noise.again_panics"
   ],
   "note": "Epochs and trackers: proved, the same for every call. White noises: proved for every call. Refuted with a Gauss-Markov bias, whose state at the end of the arc is used at the start of the next call: the variance grows by exp(2 arc / tau), and the default bias of the ranges panics after an arc of twelve hours."
  },
  {
   "property": "C255",
   "status": "partial",
   "theorems": [
    "Verif.Export.append_keeps_partial",
    "Verif.Export.append_default_drops"
   ],
   "note": "Refuted for the default fields, which append_field replaces by the one field: the file cannot be read. Proved for a configuration with a list of fields."
  },
  {
   "property": "C256",
   "status": "proved",
   "theorems": [
    "Verif.Export.metadata_written"
   ],
   "note": ""
  },
  {
   "property": "C257",
   "status": "partial",
   "theorems": [
    "Verif.Export.ground_track_partial",
    "Verif.Export.ground_track_radius"
   ],
   "note": "Refuted: the file has the radius too, which the documentation does not name. All its columns and cells are proved."
  },
  {
   "property": "C258",
   "status": "partial",
   "theorems": [
    "Verif.Seed.seeds_apart_partial",
    "Verif.Seed.next_seed_same"
   ],
   "note": "Refuted for an even seed and the next one, which give the same draws. For other pairs the generators are proved to be never in the same state after the same number of words; that their words differ is not proved."
  },
  {
   "property": "C259",
   "status": "proved",
   "theorems": [
    "Verif.Seed.py_samples",
    "Verif.Seed.more_runs"
   ],
   "note": ""
  },
  {
   "property": "C260",
   "status": "partial",
   "theorems": [
    "Verif.Cut.cut_epoch_partial",
    "Verif.Cut.cut_offset_loses",
    "Verif.Cut.exclude_and_filter"
   ],
   "note": "Refuted for offsets: the measurements at the last epoch are lost. Proved for epochs."
  },
  {
   "property": "C261",
   "status": "partial",
   "theorems": [
    "Verif.Ground.covar_bias_partial",
    "Verif.Ground.no_noise_panics",
    "Verif.Ground.asset_bias_doubled",
    "Verif.Ground.asset_bias_integrated"
   ],
   "note": "Refuted: the bias panics without noises, the bias is divided by the square root of two over an integration time, and the residual of the filter has twice the bias. The values for configured types are proved."
  },
  {
   "property": "C262",
   "status": "partial",
   "theorems": [
    "Verif.Device.link_bias_partial",
    "Verif.Device.link_bias_doubled",
    "Verif.Device.link_bias_integrated"
   ],
   "note": "Refuted: the residual of the filter has twice the bias, and the bias is divided by the square root of two over an integration time. At an instant, that the observation has the bias and that measurement_bias gives it is proved."
  }
 ]
}