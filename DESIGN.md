# Formal model of nyx: design

The code under study is `nyx-core/src` in `/repo` (nyx-space/nyx, Rust). The model is written in Lean 4
under `lean/Verif/`, one module (and one namespace) per area of the code. Every definition carries a
comment with the file and lines it models and what was simplified.

## Trusted base

* Lean's kernel. The only axioms any theorem may depend on are `propext`, `Quot.sound` and
  `Classical.choice`. No `sorry`, no added axioms, no `native_decide`, no `bv_decide`.
* The faithfulness of the hand transcription from Rust to Lean. Each definition cites the lines it models.
* Numbers. `hifitime::Epoch` and `Duration` are integer nanoseconds (`Int`); the saturation at
  +/- 2^15 centuries is not modelled. `f64` is modelled by real (or rational) numbers: rounding,
  overflow and signed zeros are not modelled. Where NaN or infinity decides a branch it is modelled
  explicitly and said so.
* External functions enter as universally quantified parameters: equations of motion, almanac
  queries, event functions, Hermite interpolation, random number generators, file system, rayon's
  scheduling (an arbitrary permutation), `anise` orbit conversions. The one generator that is modelled is
  `Pcg64Mcg` of `rand_pcg` (`Verif/Mc/Seed.lean`), from its definition, as that crate is not in the repository.
* Library containers: `Vec` is `List`, `BTreeMap` / `IndexMap` an association list or a function,
  `sort_by` is a stable sort, `binary_search_by` and `partition_point` are used through a
  definition with the same result on sorted input.

## What is not modelled

The encoding of Parquet and Arrow files (their tables are modelled in `Verif/Pq`: what is written is
what is read, null cells read as values are arbitrary), plotting, logging, most of the Python bindings (thin wrappers; `Verif/Py` models those which compute: the `many_*`
propagations, `push`/`append` of trajectories, the process noise from accelerations, the covariances; others are in
`Verif/Device/Python.lean`, `Verif/Tracking/Cut.lean`, `Verif/Mc/Seed.lean`), serde/dhall
configuration parsing, `anise` ephemerides and frames, the numerical content of atmospheric models
beyond the branches. The files `md/opti/minimize_lm.rs` and
`md/opti/convert_impulsive.rs` are in no module of the crate. The unit vector of a zero vector, which is
NaN in the code, is zero in `Spacecraft.unit`.
The rules of the crate `hyperdual` (sum, product, quotient, powers, square root, ...) are modelled by
the dual numbers of `Verif/Force/Dual.lean`; that they track derivatives is proved there. The
orbital elements of `anise` are modelled by their definitions where a theorem needs them
(`Verif/BPlane`). The almanac is a structure of arbitrary functions (`Force.Alm`); hypotheses such as
"the frames are related by a rotation and a translation" are written in the theorems. The primitives of
the DER encoding (lengths, tags, integers, reals) are parameters of `Verif/Der` with an inverse law.

## Conventions

* `*_partial`: the full property is not provable; what is missing is in the status below.
* `*_false`, `*_refuted`: the negation of a claimed property, with a concrete witness, i.e. a
  disagreement between the documentation/intent and the code.
* Every theorem is followed by an `example` which instantiates its hypotheses on a non trivial case.

## Modelled code, by area

From the citations in the definitions (paths under `nyx-core/src`); lines not listed are not modelled.

* `Verif/BPlane`: cosmic/bplane.rs (40-53, 57-142, 150-188, 212-219, 237-251, 256-266, 270-308, 312-321, 328-436); md/objective.rs (53-61, 69-75); md/opti/raphson_finite_diff.rs (290-300).
* `Verif/Blse`: od/blse/mod.rs (46-57, 62-120, 146-446, 450-541); od/blse/solution.rs (85-92); od/msr/measurement.rs (30-43); od/simulator/arc.rs (245-256).
* `Verif/Der`: cosmic/spacecraft.rs (49-60, 112-143, 731-784); dynamics/guidance/mod.rs (76-94); od/ground_station/mod.rs (52-63, 229-242, 291-400); od/msr/types.rs (34-57); od/noise/gauss_markov.rs (52-64, 182-222); od/noise/mod.rs (66-71, 236-248, 402-439); od/noise/white.rs (35-42); od/simulator/scheduler.rs (34-45, 63-145, 217-261); od/simulator/trkconfig.rs (41-110, 263-268, 282-313).
* `Verif/Device`: od/blse/mod.rs (259-275); od/ground_station/mod.rs (52-63, 111-227); od/ground_station/python.rs (15-37, 118-120, 138-140, 148-167, 182-196); od/ground_station/trk_device.rs (42-148, 158-208, 217-242); od/groundpnt/trk_device.rs (46-56, 181-195); od/interlink/sensitivity.rs (50-77, 83-171); od/interlink/trk_device.rs (42-53, 57-90, 102-231, 240-265); od/msr/measurement.rs (38-47); od/msr/sensitivity.rs (88-115, 121-238); od/msr/types.rs (36-57, 102-117, 121-153); od/position/mod.rs (14-18, 29-39); od/position/sensitivity.rs (21-48, 54-80); od/position/trk_device.rs (44-117); od/process/mod.rs (327-333).
* `Verif/Estimate`: od/estimate/kfestimate.rs (41-62, 74-99, 108-160, 166-225, 237-246, 270-275, 297-312, 338-346, 372-375); od/estimate/mod.rs (50-56, 75-89); od/estimate/residual.rs (28-58, 84-177); od/estimate/sc_uncertainty.rs (41-63, 70-137, 141-162).
* `Verif/Event`: propagators/event.rs (88-196).
* `Verif/Force`: cosmic/mod.rs (179, 183); cosmic/spacecraft.rs (115-117); dynamics/drag.rs (41-45, 66-118, 123-130, 134-140, 177-294); dynamics/gravity_field.rs (267-431); dynamics/mod.rs (143-158, 163-174); dynamics/orbital.rs (80-172, 213-309); dynamics/solarpressure.rs (35, 43-49, 67-93, 104-232); dynamics/spacecraft.rs (44-49, 199-245, 312-363).
* `Verif/Gravity`: dynamics/gravity_field.rs (35-48, 52-132, 147-432); io/gravity.rs (90-128, 137-501, 513-515).
* `Verif/Ground`: md/trajectory/interpolatable.rs (22); od/groundpnt/ground_dynamics.rs (32-102); od/groundpnt/mod.rs (42-206, 212-246, 285-314, 326-355, 364-380, 384-427, 437-547); od/groundpnt/sensitivity.rs (40-67, 75-165); od/groundpnt/trk_device.rs (58-172, 181-211); propagators/instance.rs (343-352).
* `Verif/Guide`: cosmic/eclipse.rs (69-83); cosmic/spacecraft.rs (520-585); dynamics/deltavctrl.rs (38-42, 46-48, 52-72); dynamics/guidance/kluever.rs (38-44, 48-81, 126-329); dynamics/guidance/mnvr.rs (40-52, 206-216); dynamics/guidance/mod.rs (96-105); dynamics/guidance/ruggiero.rs (39-46, 54-56, 61-109, 113-152, 160-238, 279-453).
* `Verif/Io`: io/mod.rs (104-121).
* `Verif/Kalman`: od/kalman/filtering.rs (59-316, 323-325); od/kalman/initializers.rs (70-103); od/kalman/mod.rs (37-58, 62-69); od/snc.rs (38-56, 147-162, 168-292, 297-317).
* `Verif/Lambert`: errors.rs (136-147); tools/lambert/godding.rs (44-137); tools/lambert/izzo.rs (44-135, 139-155, 162-204, 209-263, 267-293, 309-366, 372-402, 406-439); tools/lambert/mod.rs (41-46, 59-119, 124-130, 134-172).
* `Verif/MathU`: dynamics/guidance/mod.rs (128-155); utils.rs (38-40, 73-82, 130-141, 153-171, 197-200, 226-229, 255-258, 271-276, 288-301, 313-320, 332-342, 388-390, 403-405, 428-445, 454-465, 469-478, 483-493).
* `Verif/Mc`: cosmic/spacecraft.rs (520-578); mc/dispersion.rs (28-34); mc/generator.rs (57-66); mc/helpers.rs (25-32, 37-80); mc/montecarlo.rs (93-110, 115-183, 188-203, 208-273, 277-296); mc/multivariate.rs (61-71, 80-295, 299-331); mc/python.rs (80-93); mc/results.rs (48-59, 74-81, 90-160, 164-191, 195-240, 266-311); md/param.rs (31-70, 92-99); od/simulator/arc.rs (138-147).
* `Verif/Noise`: od/ground_station/mod.rs (214-223); od/noise/gauss_markov.rs (52-64, 81-104, 108-116, 132-159, 166-172); od/noise/link_specific.rs (40-49, 53-60, 80-89, 99-106, 179-222); od/noise/mod.rs (68-71, 75-78, 91-101, 131-140, 166-233, 276-285, 384-393, 439-444); od/noise/white.rs (37-42, 47-62, 66-71, 80-85, 106-112, 119-122); od/simulator/arc.rs (174-257).
* `Verif/Poly`: polyfit/polynomial.rs (35-40, 48-75, 85-98, 145-183, 197-379).
* `Verif/Pq`: cosmic/spacecraft.rs (93-102, 520-683); io/mod.rs (53-72, 76-101); io/watermark.rs (29-52); md/param.rs (147-204); md/trajectory/interpolatable.rs (118-147); md/trajectory/sc_traj.rs (134-155, 212-434); md/trajectory/traj.rs (227-363, 411-591); od/estimate/kfestimate.rs (35-53); od/estimate/mod.rs (54-56); od/estimate/residual.rs (28-58, 134-174); od/groundpnt/solution.rs (59-525); od/msr/trackingdata/io_parquet.rs (47-224, 239-353); od/msr/types.rs (89-101, 172-189); od/process/solution/export.rs (60-668); od/process/solution/import.rs (77-541); od/process/solution/mod.rs (62-89).
* `Verif/Process`: cosmic/spacecraft.rs (441-443); od/estimate/mod.rs (54-56); od/interlink/sensitivity.rs (50-77); od/msr/measurement.rs (30-43, 83-108); od/msr/sensitivity.rs (88-115); od/process/mod.rs (50-80, 126-437, 441-495); od/process/solution/mod.rs (157-174); od/simulator/trackdata.rs (84-122); propagators/instance.rs (265-276, 330-350).
* `Verif/Propagate`: dynamics/spacecraft.rs (191-247); propagators/instance.rs (45-60, 87-282, 343-352, 358-472); propagators/options.rs (40-61, 66-82, 100-111, 119-123, 127-131, 142-155, 172-186); propagators/propagator.rs (69-75, 88-108); propagators/python.rs (9-26).
* `Verif/Rk`: cosmic/spacecraft.rs (451-473, 477-497); dynamics/spacecraft.rs (191-247, 312-362); propagators/error_ctrl.rs (26-71, 79-172, 186-203, 216-230); propagators/instance.rs (343-352, 358-445); propagators/rk_methods/dormand.rs (21-184); propagators/rk_methods/mod.rs (38-62, 67-136); propagators/rk_methods/rk.rs (21-252); propagators/rk_methods/verner.rs (21-79).
* `Verif/Sched`: io/mod.rs (229-290); od/ground_station/trk_device.rs (158-215); od/noise/white.rs (110-112); od/simulator/arc.rs (89-121, 174-256, 293-440); od/simulator/scheduler.rs (33-45, 60-101); od/simulator/trkconfig.rs (38-56, 174-220, 248-268, 322-329).
* `Verif/Sequence`: cosmic/eclipse.rs (35-38); dynamics/drag.rs (41-45, 123-130); dynamics/guidance/mnvr.rs (38-42, 69-84, 115-127, 131-139, 155-179); dynamics/guidance/mod.rs (51-56, 97-107); dynamics/orbital.rs (178-182, 311-334); dynamics/sequence/config.rs (43-91, 95-133, 138-151, 157-176, 180-239); dynamics/sequence/discrete_event.rs (28-48); dynamics/sequence/mod.rs (48-117, 121-328, 332-351); dynamics/sequence/python.rs (24-28); dynamics/solarpressure.rs (43-49); dynamics/solid_tides.rs (46-65); dynamics/spacecraft.rs (44-49, 78-85); io/gravity.rs (42-54, 519-530); md/trajectory/traj.rs (54-62); polyfit/polynomial.rs (248-262); propagators/error_ctrl.rs (30-75); propagators/options.rs (42-61, 188-214); propagators/propagator.rs (34-44); propagators/rk_methods/mod.rs (65-79).
* `Verif/Shooting`: md/objective.rs (44-61); md/opti/multipleshooting/altitude_heuristic.rs (37-131); md/opti/multipleshooting/ctrlnodes.rs (35-78, 92-112, 118-166); md/opti/multipleshooting/equidistant_heuristic.rs (32-87); md/opti/multipleshooting/multishoot.rs (42-61, 65-279, 352-368); md/opti/raphson_finite_diff.rs (290-310); md/opti/targeter.rs (71-84); md/param.rs (37-89).
* `Verif/Solution`: od/estimate/kfestimate.rs (41-62); od/estimate/mod.rs (46-80); od/estimate/residual.rs (28-58, 175-177); od/process/solution/filter_data.rs (74-279); od/process/solution/mod.rs (62-89, 106-139, 147-154, 177-194, 213-259); od/process/solution/smooth.rs (104-249); od/process/solution/stats.rs (36-44, 58-70, 148-191, 196-232, 245-266, 282-326, 360-494).
* `Verif/Spacecraft`: cosmic/mod.rs (186); cosmic/spacecraft.rs (49-82, 93-102, 112-143, 296-303, 325-327, 331-344, 362-369, 436-443, 451-473, 477-497, 520-681, 699-727, 731-756, 770-784); dynamics/guidance/mnvr.rs (69-84, 224-226, 363-396); dynamics/guidance/mod.rs (49-55, 111-126); dynamics/guidance/replay.rs (42-75, 91-128); dynamics/spacecraft.rs (38-48, 158-309); propagators/instance.rs (343-352).
* `Verif/Target`: cosmic/spacecraft.rs (290-293); dynamics/guidance/mnvr.rs (69-84, 131-139, 219-221, 229-357); md/objective.rs (27-38, 70-74); md/opti/raphson_finite_diff.rs (41-748); md/opti/raphson_hyperdual.rs (37-351); md/opti/solution.rs (33-50, 54-162); md/opti/target_variable.rs (28-79, 83-119, 123-138, 143-169, 192-307); md/opti/targeter.rs (37-51, 70-116, 121-138, 143-163, 168-191, 229-242, 257-352); md/param.rs (37-94); utils.rs (113-118).
* `Verif/Tides`: dynamics/solid_tides.rs (44-174, 180-245, 249-560).
* `Verif/Tracking`: od/msr/measurement.rs (30-43, 123-135); od/msr/trackingdata/io_ccsds_tdm.rs (86-411, 417-612, 626-647); od/msr/trackingdata/mod.rs (74-85, 90-117, 147-186, 217-338, 352-362, 367-390, 394-451, 456-479, 484-493, 497-504, 547-556); od/msr/trackingdata/python.rs (30-41, 107-124, 142-152); od/msr/types.rs (36-57, 74-87, 155-164).
* `Verif/Traj`: md/trajectory/interpolatable.rs (22, 49-94, 103-108); md/trajectory/mod.rs (77-123); md/trajectory/sc_traj.rs (56-129, 158-177, 183-198); md/trajectory/traj.rs (40-50, 75-126, 153-173, 177-193, 367-384, 388-405, 622-658); md/trajectory/traj_it.rs (37-63); od/process/solution/export.rs (671-687); propagators/instance.rs (315-323).

## Axioms of the theorems

Printed by Lean for each theorem named in MANIFEST.json. All depend on `propext`, `Quot.sound` and `Classical.choice`, except:

* only `Quot.sound`, `propext`: `Verif.Der.cadence_unknown`, `Verif.Der.gaussMarkov_trips`, `Verif.Der.mode_trips`, `Verif.Der.noise_preserved_iff_partial`, `Verif.Der.sc_trips`, `Verif.Der.thruster_trips`, `Verif.Der.white_trips`, `Verif.Ground.interpolate_line`, `Verif.Ground.set_toVector`, `Verif.Ground.toVector_set`, `Verif.Io.no_extension_no_timestamp`, `Verif.Io.timestamp_collision`, `Verif.Io.timestamp_end`, `Verif.Io.timestamp_name_partial`, `Verif.Mc.export_all_partial`, `Verif.Propagate.mem_gridEpochs`, `Verif.Sched.eager_backward`, `Verif.Sched.explicit_strand_changed`, `Verif.Sched.handoff_to_nobody`, `Verif.Sched.missing_alignment`, `Verif.Sched.nonpositive_sampling_loops`, `Verif.Sched.strand_outside_arc`, `Verif.Sched.unreadable_refused_partial`, `Verif.Sched.zero_sampling_accepted`, `Verif.Schema.accel_roundtrip`, `Verif.Schema.declared_map_unreadable`, `Verif.Schema.force_schema`, `Verif.Schema.maneuver_schema`, `Verif.Schema.map_roundtrip`, `Verif.Schema.masses_schema`, `Verif.Schema.options_schema`, `Verif.Schema.phase_schema`, `Verif.Seed.more_runs`, `Verif.Seed.py_samples`, `Verif.Seed.seeds_apart_partial`, `Verif.Sequence.build_spec`, `Verif.Sequence.flights_chrono`, `Verif.Sequence.flown_names`, `Verif.Sequence.in_progress_skipped`, `Verif.Sequence.pairs_round_trip`, `Verif.Sequence.setup_again`, `Verif.Sequence.setup_ready`, `Verif.Sequence.setup_spec`, `Verif.Sequence.validate_iff`, `Verif.Solution.operations_keep_rows`, `Verif.Spacecraft.add_add`, `Verif.Spacecraft.add_vector`, `Verif.Spacecraft.spacecraft_round_trip_partial`, `Verif.Spacecraft.to_vector_set`, `Verif.Spacecraft.value_set_value_partial`, `Verif.Tracking.add_empty`, `Verif.Tracking.add_moduli_false`, `Verif.Tracking.exclude_type_leaves_empty`, `Verif.Tracking.sort_idempotent`, `Verif.Tracking.tracker_filters_exact`, `Verif.Tracking.type_filters_partial`, `Verif.Traj.add_concat`, `Verif.Traj.add_empty_panics`, `Verif.Traj.add_frame_mismatch`, `Verif.Traj.at_outside`, `Verif.Traj.every_between_prefix`, `Verif.Traj.filter_by_epoch_exact`, `Verif.Traj.finalize_idem_of_sorted`, `Verif.Traj.finalize_sorted_complete_partial`, `Verif.Traj.smooth_values_partial`, `Verif.Traj.smooth_window_nonempty`, `Verif.Traj.toEphem_sorted`.
* only `propext`: `Verif.Der.sc_preserved_iff`, `Verif.Der.trailing_refused`, `Verif.Der.trips_der`, `Verif.Der.trips_injective`, `Verif.Ground.export_values`, `Verif.Pq.arc_empty_refused`, `Verif.Propagate.crossed_exceeds`, `Verif.Py.many_loses_failures`, `Verif.Py.many_partial`, `Verif.Sched.strand_backward`, `Verif.Sched.strand_too_short`, `Verif.Schema.declared_gravity_unreadable`, `Verif.Target.direction_variable_slot`, `Verif.Target.rate_variable_slot`.
* no axiom: `Verif.Mc.export_cuts_later_runs`, `Verif.Sched.default_sane`, `Verif.Sched.scheduler_default_differs`, `Verif.Tracking.chunk_none`, `Verif.Traj.at_brackets_false`.

## Properties

### C01 — A completed propagation lands exactly on the requested epoch

*Plan/model:* Fuelled model of the propagate loop over integer nanoseconds with an arbitrary single-step oracle; induction on fuel.

*Status:* proved. No assumption on step sizes; the dynamics and almanac must not change the epoch.

*Theorems:* `Verif.Propagate.forDuration_arrives`, `Verif.Propagate.untilEpoch_arrives`

### C02 — Propagation never overshoots and publishes strictly monotone epochs

*Plan/model:* Same loop model; invariant relating the published list to the current epoch, induction on fuel.

*Status:* proved. Backward needs steps of at least 2 ns: with a minimum step of 1 ns a proposal of -0.9 ns truncates to 0 and the clamp makes it positive.

*Theorems:* `Verif.Propagate.propagate_published_ordered`, `Verif.Propagate.forDuration_completed`

### C03 — Propagation terminates

*Plan/model:* Measure |stop - epoch| decreases by m each loop; explicit fuel bound proved sufficient.

*Status:* proved. 

*Theorems:* `Verif.Propagate.propagate_terminates`

### C04 — A propagator instance is reusable after any propagation

*Plan/model:* Restoration proved for completed propagations; negations (concrete witnesses) for backward early stop, backward zero-remainder return and failing final step.

*Status:* partial. Proved for all histories of completed propagations. Refuted: a backward propagation ended by its stop condition leaves a negative step (the next forward propagation never returns); an error in the last step leaves the shortened fixed step.

*Theorems:* `Verif.Propagate.reusable_partial`, `Verif.Propagate.forDuration_completed`, `Verif.Propagate.backward_stop_leaks_negative_step`, `Verif.Propagate.negative_step_diverges`, `Verif.Propagate.reuse_false`, `Verif.Propagate.final_step_error_leaks`

### C05 — A zero duration propagation is the identity

*Plan/model:* Direct from the loop model, plus the corollary that a completed propagation takes a step exactly when the duration is non-zero.

*Status:* proved. 

*Theorems:* `Verif.Propagate.propagate_zero`

### C06 — Adaptive step control honours tolerance, minimum and maximum step

*Plan/model:* Model of derive with an arbitrary Runge-Kutta/error oracle and arbitrary power function; loop invariant.

*Status:* proved. 

*Theorems:* `Verif.Propagate.derive_forward_control`, `Verif.Propagate.derive_forward_tries_decrease`

### C07 — Backward adaptive propagation has the same error control as forward

*Plan/model:* The code compares the signed step with min_step, so the first attempt is always accepted: negation with witness plus the theorem that every backward step is accepted on attempt one.

*Status:* partial. Refuted: the signed step is compared with min_step so every backward step is accepted at once.

*Theorems:* `Verif.Propagate.derive_backward_always_accepts`, `Verif.Propagate.backward_error_control_false`, `Verif.Propagate.backward_error_control_partial`

### C08 — Each step uses a bounded number of attempts

*Plan/model:* Fuel bound for the retry loop equal to the attempts option.

*Status:* proved. 

*Theorems:* `Verif.Propagate.derive_attempts_reported`, `Verif.Propagate.derive_evaluations_bounded`

### C09 — The trajectory of a propagation does not depend on thread interleaving

*Plan/model:* Delivery modelled as an arbitrary permutation; finalize (dedup, stable sort) applied; equality via uniqueness of sorted permutations with distinct keys, distinctness from the monotone epochs theorem.

*Status:* proved. Every interleaving of the channel delivers a permutation of the published states; the result does not depend on it.

*Theorems:* `Verif.Traj.for_duration_with_traj_deterministic`, `Verif.Traj.withTraj_eq`

### C10 — Fixed step propagation visits exactly the step grid

*Plan/model:* Closed form of the published list by induction.

*Status:* proved. 

*Theorems:* `Verif.Propagate.fixed_step_grid`, `Verif.Propagate.mem_gridEpochs`

### C11 — Fixed step propagation composes

*Plan/model:* Loop model with a deterministic step function; induction on k.

*Status:* proved. 

*Theorems:* `Verif.Propagate.fixed_step_composes`

### C12 — Every shipped Runge-Kutta tableau is consistent and integrates polynomials exactly to its order

*Plan/model:* Tables transcribed as rationals (surds of RK89 as reals), generic RK step as in derive, exactness by linearity over monomials and quadrature conditions.

*Status:* partial. Exact for RK4, Cash Karp 4-5, Dormand Prince 4-5 and Verner 5-6, on quadrature and on linear problems of degree up to the order; refuted for Runge Kutta 8-9 and Dormand Prince 7-8, whose coefficients are approximated: the defects are bounded by 1e-17 and 1e-16. Non linear problems: see C210.

*Theorems:* `Verif.Rk.step_order`, `Verif.Rk.step_exact_partial`, `Verif.Rk.quadrature_close`, `Verif.Rk.quadrature_exact_partial`, `Verif.Rk.ballistic_exact_partial`, `Verif.Rk.weights_sum`, `Verif.Rk.error_estimate_zero_partial`, `Verif.Rk.dormand78_not_exact`, `Verif.Rk.method_shaped`

### C13 — Runge-Kutta propagation preserves linear invariants

*Plan/model:* Vector space model of derive; linear functional applied to the stage sums.

*Status:* proved. 

*Theorems:* `Verif.Rk.linear_rate`, `Verif.Rk.linear_invariant`, `Verif.Rk.rkStep_map`

### C14 — The propagated state transition matrix is the derivative of the propagated state

*Plan/model:* The derivative of the STM uses the STM of the start of the step on the left: proved that a step multiplies by (I + h sum b_i A_i) on the right; negation of both claims with witnesses; first order agreement kept as the partial theorem.

*Status:* partial. Exact characterisation of the STM that is computed; it is the Jacobian for drifts. Refuted in general: the derivative of the STM is the STM of the start of the step times the gradient, so that the STM is first order whatever the method and the factors of successive steps are multiplied in the wrong order.

*Theorems:* `Verif.Rk.stm_step`, `Verif.Rk.stm_steps`, `Verif.Rk.stm_state_unchanged`, `Verif.Rk.stm_constant_gradient`, `Verif.Rk.stm_drift_partial`, `Verif.Rk.stm_not_jacobian`, `Verif.Rk.stm_not_composed`

### C15 — Finalised trajectories are sorted and complete

*Plan/model:* Model dedup_by adjacent then stable merge sort; list induction. The stronger claim that epochs become unique is refuted for non adjacent duplicates.

*Status:* partial. Sorted and every epoch kept; uniqueness needs no two states with the same epoch, refuted because dedup runs before the sort.

*Theorems:* `Verif.Traj.finalize_sorted_complete_partial`, `Verif.Traj.finalize_idem_of_sorted`, `Verif.Traj.finalize_unique_false`

### C16 — Trajectory lookup is safe and brackets the requested epoch

*Plan/model:* Binary search modelled by its contract, window arithmetic on naturals, omega style proofs.

*Status:* partial. Stored states exact, errors outside, no panic; the window brackets the epoch except with 13 states at index 1 (refuted).

*Theorems:* `Verif.Traj.at_stored`, `Verif.Traj.at_outside`, `Verif.Traj.at_never_panics`, `Verif.Traj.at_brackets_partial`, `Verif.Traj.at_brackets_false`, `Verif.Traj.at_extrapolates`

### C17 — Trajectory iteration covers the interval on the grid

*Plan/model:* TimeSeries inclusive modelled; closed form of the produced list.

*Status:* proved. Interpolation is assumed to succeed with the requested epoch.

*Theorems:* `Verif.Traj.every_between_grid`, `Verif.Traj.resample_grid`, `Verif.Traj.every_between_prefix`

### C18 — Filtering a trajectory keeps exactly the states in the range

*Plan/model:* List filter model; offset version with an excluded bound is refuted (treated as inclusive), the other bound kinds proved.

*Status:* partial. Refuted for exclusive offset bounds.

*Theorems:* `Verif.Traj.filter_by_epoch_exact`, `Verif.Traj.filter_by_offset_partial`, `Verif.Traj.filter_by_offset_false`

### C19 — Concatenating trajectories keeps a sorted, non overlapping history

*Plan/model:* List model; sortedness and membership.

*Status:* proved. Both trajectories non empty; an empty operand panics (proved).

*Theorems:* `Verif.Traj.add_concat`, `Verif.Traj.add_frame_mismatch`, `Verif.Traj.add_empty_panics`

### C20 — Interpolated propellant mass lies between the bracketing masses

*Plan/model:* Model of the mass part; refuted by witness, correct only when the bracketing state is the first of the window (partial).

*Status:* partial. Refuted during burns.

*Theorems:* `Verif.Traj.interpMass_constant_partial`, `Verif.Traj.interpMass_affine_error`, `Verif.Traj.interpMass_between_false`

### C21 — Sorting a tracking arc conserves data and makes keys unique

*Plan/model:* Merge sort then adjacent merge; maps as finite functions; induction.

*Status:* proved. For every behaviour of the unstable sort on equal keys.

*Theorems:* `Verif.Tracking.sort_conserves`, `Verif.Tracking.sort_idempotent`

### C22 — Combining tracking arcs is order independent and loses nothing

*Plan/model:* Measurements part proved commutative; moduli claim refuted (only the left arc's moduli survive).

*Status:* partial. Measurements proved (also associativity); moduli of the right arc are lost (refuted).

*Theorems:* `Verif.Tracking.add_comm_partial`, `Verif.Tracking.add_assoc_partial`, `Verif.Tracking.add_empty`, `Verif.Tracking.add_moduli_false`, `Verif.Tracking.sort_conflict_ambiguous`

### C23 — Chunking partitions a tracking arc

*Plan/model:* partition_point modelled as binary search contract on sorted lists; well-founded recursion, induction.

*Status:* proved. 

*Theorems:* `Verif.Tracking.chunk_partitions`, `Verif.Tracking.chunk_none`

### C24 — Epoch and offset filters of tracking arcs keep exactly the requested interval

*Plan/model:* filter_by_epoch/exclude proved; filter_by_offset refuted for unbounded and inclusive ends, proved for half-open ranges.

*Status:* partial. Epoch filters proved; offsets refuted for unbounded and inclusive ends and exclusive starts.

*Theorems:* `Verif.Tracking.epoch_filters_exact`, `Verif.Tracking.filter_by_offset_partial`, `Verif.Tracking.filter_by_offset_false`

### C25 — Downsampling never mixes trackers and keeps rejections

*Plan/model:* Model of the windowing; refuted with a two tracker witness, proved for single tracker, non rejected arcs.

*Status:* partial. Refuted for several trackers, rejected measurements, moduli and simultaneous measurements.

*Theorems:* `Verif.Tracking.downsample_single_tracker_partial`, `Verif.Tracking.downsample_noop`, `Verif.Tracking.downsample_mixes_trackers`, `Verif.Tracking.downsample_uses_rejected`, `Verif.Tracking.downsample_simultaneous_collapses`

### C26 — Writing and reading a CCSDS TDM preserves the measurements

*Plan/model:* Model on tokenised lines: section headers, path, data lines; round trip proved for numeric values without text formatting; unsupported types and lost fields refuted.

*Status:* partial. Proved on tokenised lines, the formatting of numbers being a parameter with a rounding bound; refuted for the types which the format does not carry.

*Theorems:* `Verif.Tracking.tdm_roundtrip_partial`, `Verif.Tracking.tdm_never_rejected`, `Verif.Tracking.tdm_roundtrip_types_false`

### C27 — Measurement equality is symmetric

*Plan/model:* Refuted by witness; proved when both carry the same set of types.

*Status:* partial. Refuted for different type sets.

*Theorems:* `Verif.Tracking.msr_eq_symm_partial`, `Verif.Tracking.msr_eq_symm_false`

### C28 — The filter covariance stays symmetric positive semi-definite

*Plan/model:* Mathlib matrices over the reals; Joseph form; induction over the history.

*Status:* proved. Real arithmetic. No assumption on the Cholesky decomposition.

*Theorems:* `Verif.Kalman.covariance_psd`

### C29 — The Kalman gain is optimal and updates never increase the covariance

*Plan/model:* Completing the square with S = H P H^T + R positive definite.

*Status:* proved. Real arithmetic; specification of nalgebra's Cholesky assumed (someChol_spec shows it satisfiable). Also: which updates succeed.

*Theorems:* `Verif.Kalman.gain_optimal`, `Verif.Kalman.singular_innovation`

### C30 — A rejected measurement leaves exactly the time update

*Plan/model:* Model both functions on one filter state; equality of resulting states.

*Status:* proved. 

*Theorems:* `Verif.Kalman.rejected_is_time_update`, `Verif.Kalman.no_threshold_no_rejection`

### C31 — The residual ratio is the normalised innovation statistic

*Plan/model:* Algebra over Mathlib matrices with S = L L^T.

*Status:* proved. 

*Theorems:* `Verif.Kalman.ratio_mahalanobis`, `Verif.Kalman.units_invariance`

### C32 — Force-rejected arcs never influence the estimate

*Plan/model:* Refuted (a zero ratio is not above a zero threshold); proved for every measurement with a non zero ratio.

*Status:* partial. Refuted: a measurement with zero prefit is accepted and shrinks the covariance.

*Theorems:* `Verif.Kalman.force_reject_partial`, `Verif.Kalman.force_reject_accepts_exact`

### C33 — Process noise is applied only inside its validity window and keeps covariances PSD

*Plan/model:* Model of the selection loop and of Gamma Q Gamma^T with the index arithmetic; PSD by congruence.

*Status:* proved. Closed form of the contribution for three dimensional noises, decaying ones included; the previous epoch stored at each update disables a noise after a gap.

*Theorems:* `Verif.Kalman.process_noise_window`, `Verif.Kalman.process_noise_value`, `Verif.Kalman.noises_after_update`, `Verif.Kalman.noise_disabled_after_gap`

### C34 — Range ambiguity resolution picks the nearest ambiguity interval

*Plan/model:* Integer multiple proved; the nearest claim refuted at the wrap boundary, bound m proved as partial.

*Status:* partial. Integer multiple and same ambiguity interval proved; the nearest claim is refuted at the wrap boundary.

*Theorems:* `Verif.Process.resolve_integer`, `Verif.Process.resolve_same_interval_partial`, `Verif.Process.resolve_not_nearest`

### C35 — Orbit determination processes all measurements in order and terminates

*Plan/model:* Model of the nested loops on integer time with oracle for the estimator; invariants on output epochs.

*Status:* proved. The specification Solves is independent of the loop. Propagator: anything that arrives with positive steps (propAdv_arrives: the model of the propagator does). Positive precision needed: zero_precision_diverges.

*Theorems:* `Verif.Process.process_trace`, `Verif.Process.process_terminates`, `Verif.Process.process_refuses`, `Verif.Process.solution_residuals`, `Verif.Process.nonfinite_no_solution`, `Verif.Process.zero_precision_diverges`, `Verif.Process.propAdv_arrives`

### C36 — predict_until stops at the requested epoch

*Plan/model:* Grid theorem; exact end refuted when the interval is not a multiple of the step, overshoot bound proved, divergence for zero step proved.

*Status:* partial. Grid, overshoot of less than one step, exact end iff the interval is a multiple of the step. Refuted in general; zero step never returns.

*Theorems:* `Verif.Process.predict_grid`, `Verif.Process.predict_end_partial`, `Verif.Process.predict_for_partial`, `Verif.Process.predict_terminates`, `Verif.Process.predict_end_false`, `Verif.Process.predict_zero_false`, `Verif.Process.predict_zero_step_diverges`

### C37 — Orbit determination solutions keep their columns aligned

*Plan/model:* Columns modelled as four lists; invariant of equal length, alignment expressed through zipping.

*Status:* proved. All operations; at on chronological solutions, binary search by its specification.

*Theorems:* `Verif.Solution.operations_keep_rows`, `Verif.Solution.split_spec`, `Verif.Solution.built_aligned`, `Verif.Solution.at_spec`

### C38 — Merging solutions yields a time ordered permutation

*Plan/model:* Model of the index sort and the in place swap cycles on functions; proof that it applies the permutation.

*Status:* partial. Whole entries, each once, columns aligned, termination: proved. Chronological order is refuted: the cycle loop applies the inverse of the sorting permutation (epochs [3] merged with [1, 2] give [2, 3, 1]); proved when the second solution follows the first.

*Theorems:* `Verif.Solution.merge_permutes_partial`, `Verif.Solution.merge_fuel`, `Verif.Solution.merge_places`, `Verif.Solution.merge_after_partial`, `Verif.Solution.merge_not_chronological`

### C39 — The smoother keeps residuals attached to their epochs

*Plan/model:* Model of the backward loop; refuted: residuals are shifted by one; characterisation of what is produced.

*Status:* partial. Estimates proved; residuals are shifted by one entry (refuted for every solution).

*Theorems:* `Verif.Solution.smoother_epochs_partial`, `Verif.Solution.smoother_residuals_shifted`, `Verif.Solution.smoother_witness`

### C40 — Batch least squares solves the weighted normal equations

*Plan/model:* Model of the accumulation; refuted: a unit information matrix is always added, simultaneous measurements are dropped; theorem of what is solved.

*Status:* partial. Proved: which measurements enter the sums, what is solved and that it is a ridge least squares minimum. Refuted: an identity matrix is added to the information, the state transition matrix of every step is composed twice, simultaneous measurements are dropped, a measurement reached in two steps is counted twice.

*Theorems:* `Verif.Blse.estimate_normal_partial`, `Verif.Blse.gather_uses`, `Verif.Blse.gather_fresh`, `Verif.Blse.normal_step`, `Verif.Blse.info_posDef`, `Verif.Blse.ridge_minimum`, `Verif.Blse.accumulated_matrix`, `Verif.Blse.normal_equations_refuted`, `Verif.Blse.normal_equations_witness`, `Verif.Blse.stm_double_count`, `Verif.Blse.measurement_counted_twice`

### C41 — RMS statistics are over the residuals they describe

*Plan/model:* Model as sums; refuted for solutions with time updates, proved for those without.

*Status:* partial. Divided by the number of entries including time updates (refuted); exact without time updates. One rejected residual makes the postfit value NaN.

*Theorems:* `Verif.Solution.rms_partial`, `Verif.Solution.rms_exact_partial`, `Verif.Solution.rms_postfit_nan`, `Verif.Solution.rms_counts_time_updates`

### C42 — An estimate built from dispersions describes the dispersed state

*Plan/model:* Vector model; covariance PSD proved; state() is the mirror image 2*nominal - dispersed (refuted).

*Status:* partial. Covariance: proved. Refuted: the state of the estimate is the mirror image of the dispersed state.

*Theorems:* `Verif.Estimate.dispersions_partial`, `Verif.Estimate.dispersions_mirrored`

### C43 — The measurement sensitivity is the derivative of the measurement model

*Plan/model:* Range and Doppler rows proved to be the Frechet derivative when the observed range equals the computed one; rows of missing types refuted (identity rows).

*Status:* partial. Range and Doppler with geometric values in the measurement, and the rows of the position device: proved. Refuted: the row of a range is scaled by the ratio to the observed range, missing rows are rows of the identity, rows of angles are per radian for values in degrees and ignore the horizon of the station, the Doppler row of a link is not the gradient of the Doppler it computes, the rows of a position device do not match the values it computes.

*Theorems:* `Verif.Device.station_sensitivity_partial`, `Verif.Device.link_sensitivity_partial`, `Verif.Device.range_row_scaled`, `Verif.Device.missing_row`, `Verif.Device.elevation_row_unit`, `Verif.Device.azimuth_row_unit`, `Verif.Device.link_doppler_row`, `Verif.Device.position_sensitivity`, `Verif.Device.position_sensitivity_mismatch`

### C44 — A configured constant bias is used

*Plan/model:* Copy semantics modelled: theorem that the bias is unchanged; refutation by witness.

*Status:* partial. Refuted: the call never changes the bias of any type (the constant is set on a copy); exact statement of what it changes.

*Theorems:* `Verif.Device.bias_constant_partial`, `Verif.Device.bias_constant_ignored`

### C45 — Schedules contain only usable strands

*Plan/model:* Model of strand construction on integer time.

*Status:* partial. Inside an arc up to half of the alignment, cadence respected, exact list of strands for continuous tracking: proved. Refuted: rounding leaves the arc, an intermittent cadence and the handoff leave short, unaligned or backward strands.

*Theorems:* `Verif.Sched.continuous_strands_partial`, `Verif.Sched.strands_within_partial`, `Verif.Sched.schedule_partial`, `Verif.Sched.strand_outside_arc`, `Verif.Sched.strand_too_short`, `Verif.Sched.strand_backward`

### C46 — Handoff removes overlaps between trackers

*Plan/model:* Model of the adjacent pair pass; proved for pairwise adjacent overlaps of well ordered strands; refuted with three strands.

*Status:* partial. Proved when all trackers are Eager, and for Eager and Greedy trackers when no strand is left backward. Refuted for three Greedy trackers.

*Theorems:* `Verif.Sched.handoff_partial`, `Verif.Sched.greedy_overlap`, `Verif.Sched.eager_gap`, `Verif.Sched.eager_backward`, `Verif.Sched.handoff_to_nobody`, `Verif.Sched.explicit_strand_changed`, `Verif.Sched.never_visible_panics`

### C47 — Simulated measurements are inside their strands and sorted

*Plan/model:* List model with device oracle.

*Status:* proved. Exact set of measurements, sorted without duplicates; needs positive samplings.

*Theorems:* `Verif.Sched.measurements_exact`, `Verif.Sched.schedule_required`, `Verif.Sched.nonpositive_sampling_loops`

### C48 — The spacecraft vector encoding round trips

*Plan/model:* Fin 90 vector model with index arithmetic for the STM block.

*Status:* partial. Round trip exact for 0 <= Cr <= 2; refuted otherwise (Cr is clamped when the vector is set).

*Theorems:* `Verif.Spacecraft.set_to_vector_partial`, `Verif.Spacecraft.set_to_vector_clamps`, `Verif.Spacecraft.to_vector_set`, `Verif.Spacecraft.set_untouched`, `Verif.Spacecraft.add_add`, `Verif.Spacecraft.add_vector`, `Verif.Spacecraft.add_neg_clamped`

### C49 — Guidance mode survives its numeric encoding

*Plan/model:* Case analysis, decoding of arbitrary reals specified.

*Status:* proved. The number of value(GuidanceMode); the tag used by the DER encoding is another number.

*Theorems:* `Verif.Spacecraft.mode_round_trip`, `Verif.Spacecraft.mode_decode`, `Verif.Spacecraft.mode_tag_is_not_number`

### C50 — Propellant never increases and never goes negative

*Plan/model:* RK step with non positive rates and non negative weights; history induction; finally model.

*Status:* partial. Never negative: any law and method. Non increasing: methods with weights that are not negative (RK4, Cash Karp, Verner) and any law, or any method and a maneuver. Refuted: Dormand Prince 4-5 with a law that depends on the epoch can add propellant, since a weight is negative.

*Theorems:* `Verif.Spacecraft.prop_step`, `Verif.Spacecraft.prop_nonincreasing_partial`, `Verif.Spacecraft.nonneg_weights`, `Verif.Spacecraft.prop_never_negative`, `Verif.Spacecraft.mnvr_step`, `Verif.Spacecraft.prop_increases`, `Verif.Spacecraft.shortBurn_runs`

### C51 — A finite burn thrusts only inside its window

*Plan/model:* Model of next/throttle; history theorem through finally.

*Status:* partial. A step thrusts iff it starts in the window. Refuted: the thrust goes on to the end of the step, and the initial mode is not updated.

*Theorems:* `Verif.Spacecraft.mnvr_step`, `Verif.Spacecraft.mnvr_window_partial`, `Verif.Spacecraft.burn_overruns`, `Verif.Spacecraft.burn_starts_late`, `Verif.Spacecraft.antichronological_iff`

### C52 — Ruggiero efficiencies are in [0,1]

*Plan/model:* Real analysis inequalities.

*Status:* proved. 

*Theorems:* `Verif.Guide.efficiency_range`, `Verif.Guide.efficiency_at_periapsis`, `Verif.Guide.efficiency_zero`

### C53 — Control laws steer toward their targets and stop when achieved

*Plan/model:* Sign lemmas; Kluever refuted: thrusts along (0,1,0) even when no objective contributes.

*Status:* partial. Weights: proved for positive tolerances. Direction of Ruggiero: proved with objectives strictly inside their tolerances; refuted at the edge. Refuted for Kluever, which thrusts along track when nothing is demanded.

*Theorems:* `Verif.Guide.weight_spec`, `Verif.Guide.ruggiero_direction_partial`, `Verif.Guide.achieved_but_steering`, `Verif.Guide.kluever_thrusts_when_achieved`, `Verif.Guide.weight_divides_by_zero`

### C54 — No thrust in eclipse when an eclipse limit is set

*Plan/model:* Kluever proved; Ruggiero refuted by witness (mode set back to Thrust).

*Status:* partial. Proved for Kluever. Refuted for Ruggiero: the mode set from the eclipse is overwritten.

*Theorems:* `Verif.Guide.kluever_next`, `Verif.Guide.ruggiero_next_partial`, `Verif.Guide.ruggiero_thrusts_in_eclipse`

### C55 — Angle normalisation returns the congruent angle in range

*Plan/model:* Loop model over reals/rationals with fuel; termination and congruence.

*Status:* partial. Over the reals (rounding of tiny negative angles to 360 is not modelled). between_pm_180 keeps both 180 and -180: refuted as a half open range.

*Theorems:* `Verif.MathU.between_0_360_spec`, `Verif.MathU.between_pm_x_partial`, `Verif.MathU.pm_180_not_unique`, `Verif.MathU.fmod_spec`

### C56 — Elementary rotations and vector projections satisfy their algebra

*Plan/model:* Matrix algebra over the reals.

*Status:* partial. Refuted for projections on small vectors only.

*Theorems:* `Verif.MathU.tilde_cross`, `Verif.MathU.elementary_rotations`, `Verif.MathU.rotv_spec`, `Verif.MathU.elementary_are_rotv`, `Verif.MathU.projections_partial`, `Verif.MathU.projection_lost`

### C57 — Gooding's Lambert solution lies on one conic through both points

*Plan/model:* Lagrange coefficient algebra over real vectors.

*Status:* proved. For positions which are not aligned. Also the sense of the motion.

*Theorems:* `Verif.Lambert.gooding_conic`

### C58 — Izzo's Lambert velocities lie on one conic

*Plan/model:* Algebra with y = sqrt(1 - lambda^2(1-x^2)).

*Status:* proved. For positions which are not aligned.

*Theorems:* `Verif.Lambert.izzo_conserves`, `Verif.Lambert.izzo_momentum_energy`

### C59 — Targeting succeeds only when all objectives are met

*Plan/model:* Iteration model with propagation oracle.

*Status:* proved. With the factors of the objective as the code applies them.

*Theorems:* `Verif.Target.objectives_met`, `Verif.Target.gives_up_after`

### C60 — The corrected state of a targeting solution reproduces the achieved state

*Plan/model:* Proved without local frame; refuted with a rotating local frame.

*Status:* partial. Proved without finite burn variables when the rotation of the correction frame does not depend on the velocity. Refuted in the VNC frame (the sum of corrections in successive frames is applied in the first one) and for finite burns (the achieved state has the masses of the start).

*Theorems:* `Verif.Target.corrected_reproduces_partial`, `Verif.Target.finite_burn_corrected`, `Verif.Target.achieved_keeps_mass`, `Verif.Target.vnc_solution_not_reproduced`, `Verif.Target.achieved_mass_wrong`

### C61 — Targeting respects variable bounds

*Plan/model:* Per step bound proved, total bound refuted by two step witness, growth bound proved.

*Status:* partial. Bound by the number of iterations times the step. Refuted: the bounds limit each step and not the total.

*Theorems:* `Verif.Target.total_bounded_partial`, `Verif.Target.total_exceeds_bounds`

### C62 — Equidistant nodes are equidistant

*Plan/model:* Closed form by induction.

*Status:* proved. The division of durations of hifitime is a parameter; the last epoch is exact if the division is.

*Theorems:* `Verif.Shooting.equidistant`, `Verif.Shooting.equidistant_refused`, `Verif.Shooting.equidistant_epoch`

### C63 — Monte Carlo results do not depend on scheduling

*Plan/model:* Completion order as arbitrary permutation, sort by index.

*Status:* proved. Any order of completion is a permutation of the runs sent.

*Theorems:* `Verif.Mc.results_order_independent`, `Verif.Mc.resume_order_independent`

### C64 — Resuming a Monte Carlo run continues the original numbering

*Plan/model:* States proved equal; indices refuted (restart at zero).

*Status:* partial. States and results: proved. Refuted for the indices, which restart at zero.

*Theorems:* `Verif.Mc.resume_states_partial`, `Verif.Mc.resume_renumbers`

### C65 — Dispersions report what was added

*Plan/model:* Sign refuted; index mapping refuted/characterised.

*Status:* partial. Refuted: the dispersion reported is template minus state, the opposite of what is documented. The covariance is C115.

*Theorems:* `Verif.Mc.reported_opposite_partial`, `Verif.Mc.reported_sign`, `Verif.Mc.sample_only_coordinates`

### C66 — Polynomial evaluation is correct

*Plan/model:* Against Mathlib Polynomial.eval/derivative, induction on coefficients.

*Status:* proved. Derivative in the sense of analysis (HasDerivAt).

*Theorems:* `Verif.Poly.eval_spec`, `Verif.Poly.eval_empty`, `Verif.Poly.common_eval`

### C67 — Setting a polynomial coefficient is observable at the same order

*Plan/model:* Refuted for linear/quadratic; true relation proved.

*Status:* partial. Refuted: the orders are reversed when writing.

*Theorems:* `Verif.Poly.coeff_spec`, `Verif.Poly.with_val_partial`, `Verif.Poly.with_val_wrong_order`

### C68 — Gravity field evaluation accesses only valid indices

*Plan/model:* Access trace model; arithmetic.

*Status:* proved. For a field whose coefficients are in its matrices; the loading (C165) and from_j2 provide them. The unchecked accesses are modelled as checked ones that never fail.

*Theorems:* `Verif.Gravity.field_checked`

### C69 — Gravity recursions compute complex powers

*Plan/model:* Induction with Mathlib complex numbers.

*Status:* proved. 

*Theorems:* `Verif.Gravity.powers_complex`

### C70 — Solar pressure pushes away from the Sun with an inverse square law

*Plan/model:* Vector algebra.

*Status:* partial. Magnitude, inverse square and shadow: proved. Direction: proved when the axes of the frame of the Sun are those of the integration frame; refuted otherwise, as the force is not rotated.

*Theorems:* `Verif.Force.srp_force`, `Verif.Force.srp_magnitude`, `Verif.Force.srp_shadow`, `Verif.Force.srp_away_partial`, `Verif.Force.srp_towards_sun`

### C71 — Drag opposes the motion

*Plan/model:* Constant drag proved; variable density models characterised.

*Status:* partial. Proved in the drag frame for a constant density. Refuted for the exponential and standard atmospheres: the velocity used is the difference between the two frames, which is zero in the same frame and of the wrong sign on a retrograde orbit.

*Theorems:* `Verif.Force.drag_constant_partial`, `Verif.Force.drag_other_spec`, `Verif.Force.drag_same_frame`, `Verif.Force.drag_accelerates`

### C72 — B-plane frame is orthonormal and B lies in the plane

*Plan/model:* Vector algebra; LTOF identically zero is a theorem.

*Status:* proved. The elements of the crate anise are modelled by their definitions. The plane is not made of numbers exactly if the asymptote is along the third axis of the frame.

*Theorems:* `Verif.BPlane.dcm_rotation`, `Verif.BPlane.plane_asymptote`, `Verif.BPlane.plane_angle`, `Verif.BPlane.new_err_iff`, `Verif.BPlane.new_nan_iff`, `Verif.BPlane.Asymptote.unique`

### C73 — Mission sequences validate before they run

*Plan/model:* Refuted for empty or past sequences; proved for sequences with a future phase.

*Status:* partial. Order and content of what is flown: proved. After setup, propagate panics exactly when no phase is at or after the epoch of the state. Refuted as stated: validation alone is not enough, and an empty sequence is valid.

*Theorems:* `Verif.Sequence.propagate_iff`, `Verif.Sequence.flights_chrono`, `Verif.Sequence.flown_names`, `Verif.Sequence.setup_then_propagate_partial`, `Verif.Sequence.propagate_panic_iff`, `Verif.Sequence.validate_iff`, `Verif.Sequence.not_set_up_panics`, `Verif.Sequence.empty_sequence_panics`, `Verif.Sequence.valid_not_set_up_panics`

### C74 — Configuration encodings round trip

*Plan/model:* Token level model of the encoders and decoders.

*Status:* proved. The primitive encodings of the crate der are parameters with laws.

*Theorems:* `Verif.Der.cadence_trips`, `Verif.Der.scheduler_trips`, `Verif.Der.strand_trips`, `Verif.Der.trkConfig_trips`, `Verif.Der.trips_der`, `Verif.Der.trips_injective`, `Verif.Der.trailing_refused`, `Verif.Der.cadence_unknown`

### C75 — Noise samples decay as documented

*Plan/model:* State machine model; sample as function of history.

*Status:* partial. Constructors: exactly what they accept; covariance: proved. Refuted: the decay restarts from the initial sample at each step, so regular samples stay at the first decay for ever; negative standard deviations are accepted.

*Theorems:* `Verif.Noise.gm_decay_partial`, `Verif.Noise.gm_never_decays`, `Verif.Noise.constructors`, `Verif.Noise.negative_sigma_accepted`, `Verif.Noise.covariance_nonneg`

### C76 — The result of a propagation is in the frame of its start state

*Plan/model:* Frame as an observable of the payload; induction on the loop; early stop refuted.

*Status:* partial. Proved for completed propagations; refuted when the stop condition triggers.

*Theorems:* `Verif.Propagate.result_frame_partial`, `Verif.Propagate.result_frame_false`

### C77 — Smoothing of the differences between two trajectories is a median filter of the original samples

*Plan/model:* Loop over one component with the window of the current array; refuted with six samples, the part about counts and values proved by induction on the loop.

*Status:* partial. Refuted: in place.

*Theorems:* `Verif.Traj.smooth_values_partial`, `Verif.Traj.smooth_window_nonempty`, `Verif.Traj.smooth_is_median_filter_false`

### C78 — Applying ambiguity moduli wraps values and nothing else

*Plan/model:* Truncated remainder on rationals; maps as association lists; proof per measurement.

*Status:* proved. Rational arithmetic.

*Theorems:* `Verif.Tracking.apply_moduli_spec`, `Verif.Tracking.set_moduli_wf`

### C79 — Tracker and type filters of tracking arcs keep exactly what they say

*Plan/model:* Filters on lists and maps; the last claim refuted for exclude_measurement_type.

*Status:* partial. exclude_measurement_type leaves empty measurements (refuted).

*Theorems:* `Verif.Tracking.tracker_filters_exact`, `Verif.Tracking.type_filters_partial`, `Verif.Tracking.exclude_type_leaves_empty`

### C80 — Frequencies in TDM files are converted to the range rate of the same tracker

*Plan/model:* State machine over the records, invariant relating the state to the piecewise linear ramp; refuted when trackers are interleaved since the state is shared.

*Status:* partial. Refuted with interleaved trackers.

*Theorems:* `Verif.Tracking.freq_to_doppler_partial`, `Verif.Tracking.freq_mixes_trackers`

### C81 — Simultaneous measurements may be processed one at a time or together

*Plan/model:* Information form of the update: the information matrices add; block matrices for the stacked measurement; the process noise of a zero duration is zero.

*Status:* proved. Positive definite prediction and noises.

*Theorems:* `Verif.Kalman.sequential_eq_joint`

### C82 — A measurement update returns the weighted least squares optimum

*Plan/model:* Normal equations from the information form, then completing the square.

*Status:* proved. 

*Theorems:* `Verif.Kalman.update_minimises_cost`

### C83 — Process noise given in a local frame is rotated to the state frame

*Plan/model:* Refuted: only the diagonal of the rotated matrix is kept; the diagonal and the trace are proved right.

*Status:* partial. Refuted: off diagonal terms of the rotated noise are dropped.

*Theorems:* `Verif.Kalman.local_frame_noise_partial`, `Verif.Kalman.rotDiag3`, `Verif.Kalman.local_frame_noise_not_rotated`

### C84 — A configured process noise never makes the filter panic

*Plan/model:* Explicit panic outcome; proved when the initial epoch is set; refuted for set_process_noise and predict_until with a decaying noise and for six dimensional noises on a spacecraft.

*Status:* partial. Refuted for decaying noises set by set_process_noise or used by predict_until, and for six dimensional noises on a spacecraft.

*Theorems:* `Verif.Kalman.updates_do_not_panic_partial`, `Verif.Kalman.initialised_andWithNoise`, `Verif.Kalman.initialised_initNoises`, `Verif.Kalman.decay_without_init_panics`, `Verif.Kalman.noise6_panics`

### C85 — A stop condition stops at the first state that satisfies it

*Plan/model:* Induction on the loop with the fold of the closure over the published states as invariant.

*Status:* proved. 

*Theorems:* `Verif.Propagate.stop_condition_first`

### C86 — until_nth_event searches the interval of the n-th event and reports a missing event

*Plan/model:* The closure is modelled with its memory; invariant: the count is the number of sign changes along the published states. Refuted: last step not examined, exact zeros never counted, backward propagation searches from the start state on an unsorted trajectory, integration frames hide the end of the duration.

*Status:* partial. Forward propagation without integration frame; refuted for events on the last step, exact zeros, backward propagation, integration frames. The Brent solver and the event evaluation of anise are parameters.

*Theorems:* `Verif.Event.nth_event_bracket_partial`, `Verif.Event.nth_event_error_partial`, `Verif.Event.last_step_event_missed`, `Verif.Event.exact_zero_event_missed`, `Verif.Event.backward_event_bracket_false`, `Verif.Event.frame_event_error_false`

### C87 — Each estimate of a solution carries the transition matrix from the previous estimate

*Plan/model:* Invariant over the atomic actions of the process: the matrix of the propagator is the transition from the last entry. Measurement epochs matched exactly (precision of one nanosecond); with a larger precision the state is moved to the epoch of the measurement without propagation.

*Status:* proved. The propagator is assumed to compute the transition of a linear flow (the STM derivative of SpacecraftDynamics is C14).

*Theorems:* `Verif.Process.solution_stm_chain`, `Verif.Process.predict_stm_chain`

### C88 — All covariances of an orbit determination solution are symmetric positive semi-definite

*Plan/model:* C28 lifted to the process by the same invariant principle.

*Status:* proved. 

*Theorems:* `Verif.Process.solution_covariances_psd`

### C89 — The smoothed estimate uses all later measurements

*Plan/model:* Model of the backward loop over real matrices. Refuted: the loop reads the filter's estimate k + 1, not the smoothed one; proved: what it maps back.

*Status:* partial. Refuted: smoothed entry k only depends on entries k and k + 1 of the filter.

*Theorems:* `Verif.Solution.smoothed_maps_forward_partial`, `Verif.Solution.smoother_ignores_later_data`, `Verif.Solution.smoother_not_last_mapped_back`

### C90 — The smoother returns sane covariances and consistency ratios

*Plan/model:* Same model; explicit panics.

*Status:* proved. Solutions with fewer than two estimates panic.

*Theorems:* `Verif.Solution.smoothed_covariances_psd`, `Verif.Solution.smoother_ratios`, `Verif.Solution.smooth_returns`, `Verif.Solution.smooth_short_panics`

### C91 — Residual statistics only count measurements

*Plan/model:* Counting loop against a filter.

*Status:* proved. 

*Theorems:* `Verif.Solution.within_threshold`, `Verif.Solution.accepted_rejected_partition`

### C92 — The normality test bounds the distance to the normal law

*Plan/model:* Model of the loop on the sorted values; distribution function monotone with values in [0, 1]. Also: panic on a single value (statrs refuses a zero deviation).

*Status:* proved. Normal law of statrs by its specification.

*Theorems:* `Verif.Solution.ks_statistic`, `Verif.Solution.ks_panics_on_one`

### C93 — Consistency verdicts are exclusive and NIS and NEES are what they claim

*Plan/model:* Real arithmetic; eigendecomposition of nalgebra by its specification.

*Status:* proved. The loop of NEES over the estimates is C211.

*Theorems:* `Verif.Solution.verdicts`, `Verif.Solution.nis_consistency_spec`, `Verif.Solution.nees_term`, `Verif.Solution.nees_nonneg`

### C94 — Levenberg Marquardt steps decrease the cost or increase the damping

*Plan/model:* Model of one step and of the loop. Refuted: with the damping at its maximum the same rejected step is repeated.

*Status:* partial. What a step does is proved. Refuted: once the damping is clamped at its maximum a rejected step repeats until the iterations run out.

*Theorems:* `Verif.Blse.lm_step_partial`, `Verif.Blse.lm_stuck`, `Verif.Blse.lm_stuck_witness`

### C95 — The reported RMS is that of the returned state

*Plan/model:* Model of gather and evaluate. Refuted for the normal equations: the RMS is the one before the last correction.

*Status:* partial. evaluate and the sums of gather agree on the same trajectory; the RMS reported by the normal solver is the one before the last correction (refuted as RMS of the returned state).

*Theorems:* `Verif.Blse.evaluate_eq_rms`, `Verif.Blse.estimate_normal_partial`, `Verif.Blse.normal_equations_witness`

### C96 — Converting a batch solution to a filter estimate keeps a valid covariance

*Plan/model:* Model of the conversion, which zeroes three diagonal elements and keeps the covariances of those rows; exact characterisation and a counterexample.

*Status:* partial. Exact characterisation; refuted in general.

*Theorems:* `Verif.Blse.kf_conversion_psd_partial`, `Verif.Blse.kf_conversion_not_psd`

### C97 — Batch least squares terminates and reports its iterations and convergence

*Plan/model:* Fuel adequacy for the nested loop and an invariant of the iterations.

*Status:* proved. Propagator with positive steps.

*Theorems:* `Verif.Blse.gather_terminates`, `Verif.Blse.estimate_terminates`, `Verif.Blse.estimate_normal_partial`

### C98 — The estimates of a solution continue one another

*Plan/model:* Invariant over the atomic actions of the loop.

*Status:* proved. Without process noise (with process noise see C33).

*Theorems:* `Verif.Process.solution_covariance_chain`, `Verif.Process.predict_covariance_chain`

### C99 — The error estimate of the adaptive step bounds the error it accepts

*Plan/model:* Model of every variant over the reals. Refuted for LargestError: it tests the signed change, so that the mirror image of a motion has another estimate.

*Status:* partial. Refuted for LargestError only (mirror image).

*Theorems:* `Verif.Rk.estimate_nonneg`, `Verif.Rk.accepted_error_bound`, `Verif.Rk.estimate_scale`, `Verif.Rk.estimate_mirror_partial`, `Verif.Rk.estimate_mirror_false`, `Verif.Rk.cartesian_first_six`

### C100 — Replaying the thrust directions of a trajectory reproduces its burns

*Plan/model:* Model of finally, next and the replay law. Refuted: the stored direction is the one of the step that ended, the replay holds it for the next one, so that the replayed burn is one step late.

*Status:* partial. Refuted: replay is one step late.

*Theorems:* `Verif.Spacecraft.stored_direction_of_previous_mode`, `Verif.Spacecraft.replay_holds_partial`, `Verif.Spacecraft.replay_one_step_late`

### C101 — A state parameter reads back what was written

*Plan/model:* Model of the parameters that are read without orbital mechanics. Refuted for the components of the thrust direction, normalized at each write.

*Status:* partial. The elements of ANISE, the angles and the B plane are not modelled. Refuted for the thrust direction, of which a write is proved to keep the other components up to a positive factor.

*Theorems:* `Verif.Spacecraft.value_set_value_partial`, `Verif.Spacecraft.set_value_defined`, `Verif.Spacecraft.set_direction_partial`, `Verif.Spacecraft.thrust_direction_not_stored`

### C102 — The DER encoding of a spacecraft round trips

*Plan/model:* Model of the encoder and decoder as sequences of fields. Refuted for the thrust direction and the transition matrix, which are not encoded.

*Status:* partial. Refuted in full: the thrust direction and the transition matrix are lost; exact statement of what is kept.

*Theorems:* `Verif.Spacecraft.spacecraft_round_trip_partial`, `Verif.Der.sc_trips`, `Verif.Der.sc_preserved_iff`

### C103 — Spherical coordinates round trip and setting a magnitude keeps the direction

*Plan/model:* Model over the reals with atan2 as the complex argument. Refuted for ranges below the precision or negative: the result is zero.

*Status:* partial. Refuted for ranges below the precision, which give zero; proved otherwise.

*Theorems:* `Verif.MathU.spherical_round_trip_partial`, `Verif.MathU.set_range`, `Verif.MathU.small_range_zero`, `Verif.MathU.atan2_polar`

### C104 — A direction round trips through its angles

*Plan/model:* Model over the reals. Refuted for the plane angles: the in-plane angle is measured from the second axis when writing, from the first one when reading.

*Status:* partial. Refuted for the plane angles.

*Theorems:* `Verif.MathU.ra_dec_round_trip`, `Verif.MathU.ra_dec_of_vec`, `Verif.MathU.angle_vectors_unit`, `Verif.MathU.plane_angles_partial`, `Verif.MathU.plane_angles_not_inverse`

### C105 — The pseudo inverse solves the correction problem

*Plan/model:* Model over real matrices; nalgebra's inverse by its specification.

*Status:* proved. Over the reals.

*Theorems:* `Verif.MathU.pseudo_inverse_wide`, `Verif.MathU.pseudo_inverse_tall`, `Verif.MathU.pseudo_inverse_fails`

### C106 — The scalar and vector helpers satisfy their documentation

*Plan/model:* Model over the reals.

*Status:* proved. Over the reals.

*Theorems:* `Verif.MathU.normalize_inverse`, `Verif.MathU.is_diagonal_iff`, `Verif.MathU.mag_order_spec`, `Verif.MathU.unitize_spec`, `Verif.MathU.rss_errors_spec`

### C107 — Polynomial arithmetic

*Plan/model:* Model on lists. Refuted: the operator + panics when the second operand is the shorter one, the documentation says the opposite.

*Status:* partial. Refuted for the documented condition of the panic.

*Theorems:* `Verif.Poly.add_sub_spec_partial`, `Verif.Poly.add_swapped`, `Verif.Poly.scale_spec`, `Verif.Poly.zero_spec`

### C108 — Each targeting variable varies what it names

*Plan/model:* Model of the index arithmetic and of each branch of the correction. Refuted for the rates and accelerations of the direction and for the rates of the angles.

*Status:* partial. Positions, velocities, directions, angles and their second derivatives: proved. Refuted for direction rates and accelerations (shifted component) and angle rates (they move the position along Y).

*Theorems:* `Verif.Target.state_variable_moves_partial`, `Verif.Target.direction_variable_slot`, `Verif.Target.rate_variable_slot`, `Verif.Target.angle_variable_adds`, `Verif.Target.angle_rate_moves_position`, `Verif.Target.angle_rate_solution`

### C109 — An affine targeting problem is solved by one correction

*Plan/model:* Newton's iteration on the model with the finite difference Jacobian. Refuted for a multiplicative factor other than one: the factor applies to the error and not to the Jacobian.

*Status:* partial. Unit factors: proved. Refuted for a factor of two.

*Theorems:* `Verif.Target.affine_solved_partial`, `Verif.Target.factor_two_fails`

### C110 — apply accepts every solution of the targeter

*Plan/model:* Model of apply. Refuted for a correction frame that turns with the orbit; apply also ignores the objective frame and the factors.

*Status:* partial. Refuted for a correction frame which turns with the velocity (VNC, RIC): the corrections of several iterations are summed along the axes of the start.

*Theorems:* `Verif.Target.apply_accepts_partial`, `Verif.Target.vnc_solution_not_reproduced`

### C111 — Finite burn targeting corrects the burn that it reports

*Plan/model:* Model of the correction of the burn and of to_mnvr. Refuted: the correction of a duration is ignored, the Jacobian of a thrust level has the wrong sign, to_mnvr adds the initial guess to the total correction.

*Status:* partial. Refuted in each of the three respects; exact statements of what the code does. Proved for the angles.

*Theorems:* `Verif.Target.duration_ignores_correction`, `Verif.Target.level_jacobian_sign`, `Verif.Target.to_mnvr_full_thrust`, `Verif.Target.thrust_level_diverges`, `Verif.Target.angle_burn_partial`

### C112 — The targeter with the state transition matrix returns solutions of its problem

*Plan/model:* Model of try_achieve_dual. Refuted for the correction frame, which is ignored.

*Status:* partial. Everything but the correction frame, which is ignored (refuted).

*Theorems:* `Verif.Target.dual_solution_partial`, `Verif.Target.dual_affine_solved`, `Verif.Target.dual_ignores_frame`, `Verif.Target.dual_unsupported`

### C113 — A multiple shooting solution is a continuous chain of targeted legs

*Plan/model:* Model of solve over the model of try_achieve_dual. Refuted for two nodes: panic.

*Status:* partial. Refuted for two nodes only.

*Theorems:* `Verif.Shooting.shooting_solution_partial`, `Verif.Shooting.shooting_trajectories`, `Verif.Shooting.two_nodes_panic`

### C114 — The outer Jacobian of multiple shooting is the derivative of the maneuvers

*Plan/model:* Model of the assembly of the Jacobian, compared with the chain of targeters on the moved nodes. Refuted two maneuvers after the moved node (opposite sign; zero for the last).

*Status:* partial. Maneuvers up to the one after the moved node: proved. Refuted for the next one.

*Theorems:* `Verif.Shooting.jacobian_entries_partial`, `Verif.Shooting.jacobian_wrong_sign`

### C115 — Multivariate generators draw the statistics that are configured

*Plan/model:* Model of the constructors and of sample over any singular value decomposition; integrals over any probability space with standard draws (nine independent standard normals are an instance). Refuted for Cr, Cd, masses and the B plane.

*Status:* partial. Orbital dispersions (at most six) and generators made from a covariance: proved. Refuted: Cr is never dispersed, Cd has the square of the mean of Cr as variance, masses panic, the B plane is refused, the recorded standard deviations are variances.

*Theorems:* `Verif.Mc.orbital_statistics_partial`, `Verif.Mc.svd_factor`, `Verif.Mc.new_accepts`, `Verif.Mc.mass_and_b_plane_rejected`, `Verif.Mc.cr_never_dispersed`, `Verif.Mc.cd_prop_variance`, `Verif.Mc.zero_mean_coefficients`, `Verif.Mc.from_cov_statistics`, `Verif.Mc.from_cov_accepts`, `Verif.Mc.recorded_are_variances`

### C116 — Monte Carlo reports give the values of each run in order

*Plan/model:* Model of the reports and of the rows of the export. Refuted for an export with a step: the window of the first successful run is used for all.

*Status:* partial. Refuted for an export with a step.

*Theorems:* `Verif.Mc.first_last_values`, `Verif.Mc.first_values_skip`, `Verif.Mc.every_value_counts`, `Verif.Mc.dispersion_values`, `Verif.Mc.export_all_partial`, `Verif.Mc.export_cuts_later_runs`

### C117 — Execution errors turn and scale the maneuver as configured

*Plan/model:* Model over the reals. Refuted for the pointing error.

*Status:* partial. Refuted: the pointing error never changes the direction; without error the maneuver is multiplied by the cosine of its angle with the current direction.

*Theorems:* `Verif.Mc.unit_from_seed`, `Verif.Mc.pointing_error_never_turns`, `Verif.Mc.no_error_shrinks`, `Verif.Mc.pointing_error_refused`, `Verif.Mc.execution_error_size_partial`

### C118 — The covariance of a noise is the variance of its samples

*Plan/model:* Integrals over any probability space with an uncorrelated standard sequence of draws (the infinite product of normal laws is an instance). Refuted for later samples of a Gauss-Markov process.

*Status:* partial. White noise and the first sample: proved. Later samples of a Gauss-Markov process: exact variance, which is not the covariance reported (refuted).

*Theorems:* `Verif.Noise.first_sample_partial`, `Verif.Noise.later_variance`, `Verif.Noise.covariance_wrong`, `Verif.Noise.std_seq_gaussian`

### C119 — Scaling a noise scales its samples

*Plan/model:* Model of the three products. Refuted for the samples (mean not scaled, constant bias dropped).

*Status:* partial. Covariances: proved. Refuted for the samples: the mean is not scaled and the constant bias is dropped.

*Theorems:* `Verif.Noise.scaling_partial`, `Verif.Noise.scaling_loses_offsets`

### C120 — Simulating a noise gives the rows documented

*Plan/model:* Model of the loops; induction on the epochs.

*Status:* proved. 

*Theorems:* `Verif.Noise.simulate_rows`

### C121 — The noise of a link has the documented variance

*Plan/model:* Model over the reals.

*Status:* proved. 

*Theorems:* `Verif.Noise.presets`, `Verif.Noise.range_noise`, `Verif.Noise.doppler_noise`

### C122 — Adding and removing types keeps a station consistent

*Plan/model:* Induction on the sequence of calls.

*Status:* proved. 

*Theorems:* `Verif.Device.builders`, `Verif.Device.built_consistent`

### C123 — An instantaneous measurement is the geometry plus the noise of each type

*Plan/model:* Model with the geometry as a parameter; induction over the types.

*Status:* proved. The geometry (azimuth, elevation, range, rate) is a parameter.

*Theorems:* `Verif.Device.instant_measurement`, `Verif.Device.instant_total`

### C124 — A measurement over an integration time is the mean of both ends

*Plan/model:* Model of the branch; the variance is an integral over the draws.

*Status:* partial. Epoch, mask and values: proved. Refuted: the azimuth is the plain mean (wrong through north); the variance is half of the covariance declared.

*Theorems:* `Verif.Device.integrated_measurement_partial`, `Verif.Device.measure_instant`, `Verif.Device.azimuth_through_north`, `Verif.Device.integrated_variance`

### C125 — A position device reports the coordinates of its types

*Plan/model:* Model of the loop. Refuted (coordinate by place in the list, constant bias twice).

*Status:* partial. Types X, Y, Z in this order without constant bias: proved. Refuted otherwise.

*Theorems:* `Verif.Device.position_values`, `Verif.Device.position_partial`, `Verif.Device.position_wrong_axis`, `Verif.Device.position_bias_twice`, `Verif.Device.position_panics`

### C126 — A link between spacecraft measures the distance and its rate

*Plan/model:* Model of the function; derivative along any motions. Refuted for the Doppler.

*Status:* partial. Range and obstruction: proved. Refuted for the Doppler: the velocity of the transmitter is ignored.

*Theorems:* `Verif.Device.link_partial`, `Verif.Device.link_doppler_wrong`, `Verif.Device.link_panics`

### C127 — A constant bias does not change the residual

*Plan/model:* Model of the simulation and of both residuals. Refuted (twice the bias in the filter, once in the batch).

*Status:* partial. Refuted: twice the bias in the filter, once in the batch; over an integration time the observation has the bias divided by the square root of two. The residuals are those without bias exactly if the bias is zero.

*Theorems:* `Verif.Device.constant_bias_partial`, `Verif.Device.constant_bias_doubled`, `Verif.Ground.station_bias_integrated`

### C128 — An initial uncertainty in a local frame is rotated to the inertial frame

*Plan/model:* Model with the matrix of the frame as a parameter. Refuted (the inverse rotation is applied).

*Status:* partial. Inertial frame, and equal uncertainties on the axes: proved; positive semi-definite in all cases. Refuted otherwise: the inverse rotation is applied.

*Theorems:* `Verif.Estimate.uncertainty_partial`, `Verif.Estimate.uncertainty_wrong_axes`, `Verif.Estimate.inertialCov_spec`

### C129 — The uncertainty of an orbital element is that of its first order change

*Plan/model:* Integrals over any probability law with that covariance; partial derivatives are parameters.

*Status:* proved. The gradients of the elements (hyperdual numbers of anise) are parameters.

*Theorems:* `Verif.Estimate.element_uncertainty`

### C130 — within_sigma is the test on each component

*Plan/model:* Model with NaN for the root of a negative variance.

*Status:* partial. Proved with variances which are not negative. Refuted with negative variances: the test is always true.

*Theorems:* `Verif.Estimate.within_iff_partial`, `Verif.Estimate.within_negative_variance`

### C131 — The sigmas displayed are standard deviations

*Plan/model:* Refuted (variances).

*Status:* partial. Refuted: variances are displayed, which are the deviations for zero or one only.

*Theorems:* `Verif.Estimate.displayed_sigmas_partial`, `Verif.Estimate.displayed_variances`

### C132 — Setters and scaling of an estimate change what they name

*Plan/model:* Refuted for set_epoch.

*Status:* partial. Refuted for set_epoch, which changes nothing; the rest is proved.

*Theorems:* `Verif.Estimate.setters_partial`, `Verif.Estimate.set_epoch_ignored`

### C133 — A residual gives the component of the type asked

*Plan/model:* Model of the accessors.

*Status:* proved. 

*Theorems:* `Verif.Estimate.residual_by_type`, `Verif.Estimate.residual_marks`

### C134 — The random variable of an estimate has its statistics

*Plan/model:* From the theorems on the generator (C115). Refuted for the mean.

*Status:* partial. Refuted for the mean, which is the deviation of the estimate; the rest is proved.

*Theorems:* `Verif.Estimate.random_variable_partial`, `Verif.Estimate.random_variable_mean`

### C135 — Devices with an invalid configuration take no measurement

*Plan/model:* The check is proved exact. Refuted: devices announced as ignored take measurements, and a zero sampling is accepted.

*Status:* partial. The check is exact (proved). Refuted: devices announced as ignored are simulated.

*Theorems:* `Verif.Sched.sane_iff_partial`, `Verif.Sched.zero_sampling_accepted`, `Verif.Sched.ignored_device_measures`, `Verif.Sched.default_sane`

### C136 — The time series of the simulator fits every device

*Plan/model:* Fold of the greatest common divisor.

*Status:* proved. 

*Theorems:* `Verif.Sched.common_rate`

### C137 — The constructors of Ruggiero accept what the law can control

*Plan/model:* Model of the loop; equivalence with the specification by position.

*Status:* proved. 

*Theorems:* `Verif.Guide.ruggiero_constructor`, `Verif.Guide.ruggiero_direction_partial`

### C138 — The shadow model reports the deepest eclipse

*Plan/model:* Induction on the loop. The percentage of one body is computed by anise (parameter).

*Status:* proved. 

*Theorems:* `Verif.Guide.shadow_is_deepest`

### C139 — Ruggiero moves its element towards the target as fast as possible

*Plan/model:* Against Gauss's variational equations (specification). Proved for the semi major axis, the eccentricity, the inclination and RAAN; refuted for the argument of periapsis.

*Status:* partial. Proved for four elements and the in plane branch of the fifth. Refuted for the argument of periapsis out of plane.

*Theorems:* `Verif.Guide.ruggiero_steering_partial`, `Verif.Guide.ruggiero_moves_towards_partial`, `Verif.Guide.aop_in_plane`, `Verif.Guide.aop_steered_away`

### C140 — Kluever thrusts along the blend of its objectives

*Plan/model:* Induction on the loop and polar angles. When the sum is zero the thrust is along track (theorem kluever_zero_weight shows the consequence).

*Status:* proved. 

*Theorems:* `Verif.Guide.kluever_direction`, `Verif.Guide.kluever_zero_weight`

### C141 — Kluever moves a single element towards its target as fast as possible

*Plan/model:* Against Gauss's variational equations. Proved for the semi major axis, eccentricity, inclination, RAAN, P and Q; refuted for H and K (wrong sign of the radial coefficient).

*Status:* partial. Proved for six elements. Refuted for the equinoctial elements H and K. The mean longitude has no rate under thrust.

*Theorems:* `Verif.Guide.kluever_moves_towards_partial`, `Verif.Guide.kluever_steers_away`

### C142 — Gooding's solver fails only for documented reasons

*Plan/model:* Invariant of the bisection: y is at least what the exact Stumpff functions give, within the search of phi.

*Status:* proved. 

*Theorems:* `Verif.Lambert.gooding_outcome`, `Verif.Lambert.accepted_panics`

### C143 — Gooding's solution reaches the target in the time asked for

*Plan/model:* Specification: a solution of Newton's equation joins the two states (Reaches). Proved by universal variables when the Stumpff functions of the last round are exact. Near phi = 0 the code uses constants: refuted by a run of 20 rounds which ends with such a phi, 3 s off in a million (the time between two states of a hyperbola is shown unique). A second refutation: after phi has been moved because of a negative y, c2 and c3 stay those of the phi before; a round of this kind is accepted although the flight lasts 500 s longer in a million. The error is bounded for every solution returned.

*Status:* partial. Refuted in two ways. Near the parabola (|phi| at most 1e-4) the code replaces the Stumpff functions by their values at zero, and the flight can be off by more than a second in a million. After phi has been moved because of a negative y the code keeps the functions of the phi before, and the flight can be off by more than 500 seconds in a million. What holds for every solution returned: the orbit reaches the target, within a part in 40 of the time for less than half a turn, and within a part in 50000 of the scale of the orbit for more.

*Theorems:* `Verif.Lambert.gooding_time_partial`, `Verif.Lambert.gooding_solves_partial`, `Verif.Lambert.gooding_near_partial`, `Verif.Lambert.gooding_solves_false`, `Verif.Lambert.gooding_moved_false`

### C144 — Degenerate transfers are reported

*Plan/model:* Refuted: gooding returns velocities that are not numbers for a zero time and for opposite positions in one order; izzo panics exactly for equal positions.

*Status:* partial. Refuted. Different positions never panic.

*Theorems:* `Verif.Lambert.gooding_zero_time`, `Verif.Lambert.gooding_opposite`, `Verif.Lambert.coincident_not_too_close`, `Verif.Lambert.izzo_panic_iff`, `Verif.Lambert.accepted_panics`, `Verif.Lambert.degenerate_partial`

### C145 — Izzo's solution reaches the target

*Plan/model:* Proved when the third component of r1 x r2 is not negative, with the time of flight given by the equation at the accepted x. Refuted when it is negative: the normal is reversed and not lambda.

*Status:* partial. Proved for a plane whose normal points to +z; refuted for all others with different distances. The residual of the equation is not bounded, as the solver accepts by the size of the step.

*Theorems:* `Verif.Lambert.izzo_solves_partial`, `Verif.Lambert.tof_reach`, `Verif.Lambert.izzo_least_exact`, `Verif.Lambert.izzo_wrong_plane`, `Verif.Lambert.izzo_wrong_plane_exists`

### C146 — Izzo's iteration is the method of Householder on the time of flight

*Plan/model:* The series satisfies a differential equation which the closed form solves; derivatives by calculus. Refuted for halley: it keeps the time of flight of its first value.

*Status:* partial. Proved for householder. Refuted for halley. Not at x = 1, where the code divides by zero.

*Theorems:* `Verif.Lambert.householder_step_partial`, `Verif.Lambert.householder_fixed`, `Verif.Lambert.series_eq_closed`, `Verif.Lambert.flight_deriv`, `Verif.Lambert.flight_deriv2`, `Verif.Lambert.flight_deriv3`, `Verif.Lambert.halley_stationary_iff`

### C147 — The departure asymptote and C3

*Plan/model:* Polar coordinates of the excess velocity. Refuted for the vectors, which have the opposite sign.

*Status:* partial. Refuted for the sign of the two vectors; the rest is proved.

*Theorems:* `Verif.Lambert.planetary_states`, `Verif.Lambert.transfer_orbits`, `Verif.Lambert.departure_partial`, `Verif.Lambert.v_inf_opposite`

### C148 — The phases of a mission sequence are entered at their epochs

*Plan/model:* Flown: an inductive specification of what is flown, from which state. Proved when the state is at the epoch of a phase and none of the later phases is disabled; refuted with a disabled phase.

*Status:* partial. Proved from a planned epoch without disabled phases. Refuted with a disabled phase: the next one is entered early.

*Theorems:* `Verif.Sequence.phases_on_time_partial`, `Verif.Sequence.disabled_phase_shifts`

### C149 — The phase in progress is flown first

*Plan/model:* Refuted: range(epoch..) skips the phase in progress.

*Status:* partial. Refuted for a start within a phase; proved for a start at the epoch of a phase.

*Theorems:* `Verif.Sequence.phase_first_partial`, `Verif.Sequence.in_progress_skipped`, `Verif.Sequence.mid_phase_start`

### C150 — Setting a sequence up builds what it needs

*Plan/model:* Induction on the phases.

*Status:* proved. A propagator that was built is not built again even when its configuration changed.

*Theorems:* `Verif.Sequence.setup_spec`, `Verif.Sequence.setup_ready`, `Verif.Sequence.setup_again`

### C151 — Staging and docking are exact and inverse of each other

*Plan/model:* Specification Changed, written field by field.

*Status:* proved. The translation between centers is a parameter.

*Theorems:* `Verif.Sequence.enter_iff`, `Verif.Sequence.stage_then_dock`, `Verif.Sequence.event_mass`, `Verif.Sequence.frame_swap_spec`

### C152 — Impulsive maneuvers are applied in their local frame

*Plan/model:* Refuted: the local frame is never read.

*Status:* partial. Refuted; holds for a vector that is the same in the local frame and in that of the state.

*Theorems:* `Verif.Sequence.impulse_partial`, `Verif.Sequence.local_frame_ignored`

### C153 — Staging never leaves a negative mass

*Plan/model:* Refuted: nothing is checked.

*Status:* partial. Refuted for more mass than there is; proved otherwise.

*Theorems:* `Verif.Sequence.staging_partial`, `Verif.Sequence.staging_below_zero`

### C154 — The phases survive serialization

*Plan/model:* Ordered insertion; induction.

*Status:* proved. 

*Theorems:* `Verif.Sequence.pairs_round_trip`, `Verif.Sequence.pairs_as_map_spec`

### C155 — A propagator has exactly the models of its configuration

*Plan/model:* Case analysis.

*Status:* proved. 

*Theorems:* `Verif.Sequence.build_spec`

### C156 — Ground stations and their noises survive the DER encoding

*Plan/model:* Codecs with a specification Trips (what is read back, and the length), for lawful primitives of the crate der. Refuted for a bias that was sampled: its state is dropped.

*Status:* partial. Refuted in full: the state of the Gauss Markov processes is lost; the original is returned exactly when none was sampled.

*Theorems:* `Verif.Der.white_trips`, `Verif.Der.gaussMarkov_trips`, `Verif.Der.noise_trips`, `Verif.Der.station_trips`, `Verif.Der.noise_preserved_iff_partial`

### C157 — Thrusters and guidance modes survive the DER encoding

*Plan/model:* Same codecs.

*Status:* proved. 

*Theorems:* `Verif.Der.thruster_trips`, `Verif.Der.mode_trips`

### C158 — The gradient of an orbit is the derivative of its equations of motion

*Plan/model:* Hyperdual numbers with a specification Tracks (value and Frechet derivative), kept by each operation; induction on the models.

*Status:* proved. For acceleration models with exact partials. The rules of the crate hyperdual are modelled.

*Theorems:* `Verif.Force.orb_gradient`

### C159 — Point masses: acceleration and exact partials

*Plan/model:* Specification by the tidal tensor. Refuted for the gradient: it also differentiates the indirect term.

*Status:* partial. Acceleration: proved. Partials: proved equal to the derivative plus a spurious term, so refuted; wrong everywhere with one perturber.

*Theorems:* `Verif.Force.point_masses_partial`, `Verif.Force.point_masses_exact_iff`, `Verif.Force.tidal_ne_zero`, `Verif.Force.point_mass_wrong`

### C160 — Solar pressure: exact partials, and what the constructors set

*Plan/model:* Hyperdual numbers; refuted for a zero coefficient and for bodies that are not loaded.

*Status:* partial. Partials: proved for a constant illumination and a coefficient which is not zero; refuted for a zero coefficient. Constructors: proved; refuted for the shadow bodies, which are dropped when not loaded.

*Theorems:* `Verif.Force.srp_gradient_partial`, `Verif.Force.srp_gradient_nan`, `Verif.Force.srp_constructors`, `Verif.Force.srp_drops_bodies`

### C161 — Densities of the atmosphere

*Plan/model:* Specification in terms of the logarithm. Refuted for the exponential model.

*Status:* partial. Standard atmosphere: proved. Refuted for the exponential one: parameters in meters, distance in kilometers.

*Theorems:* `Verif.Force.density_pos`, `Verif.Force.exponential_density_partial`, `Verif.Force.earth_exp_wrong`, `Verif.Force.std_density`, `Verif.Force.drag_no_gradient`

### C162 — The gradient of a spacecraft is the derivative of its equations of motion

*Plan/model:* For exact models; induction on the models. Refuted for the column of the mass.

*Status:* partial. Proved for the columns of the orbit and of the coefficients; refuted for the propellant mass.

*Theorems:* `Verif.Force.sc_gradient_partial`, `Verif.Force.sc_gradient_cr`, `Verif.Force.sc_gradient_cd`, `Verif.Force.sc_mass_column`, `Verif.Force.aligned_mass_wrong`, `Verif.Force.sc_rejects`, `Verif.Force.srp_column`

### C163 — The acceleration of a gravity field is the gradient of its potential

*Plan/model:* Legendre polynomials by Rodrigues' formula; the recursions in the tables proved to compute their normalized derivatives; the potential differentiated in Cartesian coordinates; form in spherical coordinates also proved.

*Status:* proved. Over the reals.

*Theorems:* `Verif.Gravity.accel_gradient`, `Verif.Gravity.eom_gradient`, `Verif.Gravity.potential_spherical`, `Verif.Gravity.table_legendre`

### C164 — The partials of a gravity field are exact and symmetric

*Plan/model:* Hyperdual numbers as in C158, for a frame related to that of the orbit by a rotation and a translation; symmetry by the second derivative of the potential.

*Status:* proved. For a frame related to that of the orbit by a rotation and a translation at each epoch.

*Theorems:* `Verif.Gravity.gravity_exact`, `Verif.Gravity.partials_symmetric`

### C165 — Loading a gravity field truncates it to the degree and order requested

*Plan/model:* Invariant of the loop over the lines. Refuted for files that are not ordered by degree, and for lines with an order beyond the degree.

*Status:* partial. Proved for files ordered by degree with orders at most the degrees; refuted for others.

*Theorems:* `Verif.Gravity.load_field_partial`, `Verif.Gravity.unsorted_lost`, `Verif.Gravity.order_panics`

### C166 — The coefficients of gravity files are read as they are written

*Plan/model:* Lines as lists of characters. Refuted for joined coefficients with an exponent that is not negative, and for from_config, which never takes a named file for COF.

*Status:* partial. Lines: proved but for joined coefficients with an exponent that is not negative. from_config: refuted, COF files are taken for SHADR files.

*Theorems:* `Verif.Gravity.shadr_line`, `Verif.Gravity.cof_line`, `Verif.Gravity.cof_skip`, `Verif.Gravity.cof_joined_partial`, `Verif.Gravity.cof_joined_not`, `Verif.Gravity.config_shadr`, `Verif.Gravity.config_cof_fails`

### C167 — A field from J2 is that of the oblateness

*Plan/model:* Refuted: the argument is used as the normalized coefficient of degree two, so the potential is that of the oblateness minus square root of five times the argument.

*Status:* partial. Proved with the coefficient minus square root of five times the argument; refuted for J2 itself.

*Theorems:* `Verif.Gravity.from_j2_partial`, `Verif.Gravity.from_j2_polar`, `Verif.Gravity.from_j2_not`

### C168 — The jacobian of the B-plane is its derivative with respect to the velocity

*Plan/model:* Hyperdual numbers as in C158. The row of the time of flight is proved to be zero, so that the jacobian is always singular.

*Status:* proved. The partials of the time of flight are zero.

*Theorems:* `Verif.BPlane.plane_partials`, `Verif.BPlane.jacobian_partials`, `Verif.BPlane.jacobian2_eq`

### C169 — A correction to the B-plane achieves its target

*Plan/model:* Induction on the loops. The panic is shown to occur (achieve_panics): an orbit for which B dot R does not depend on the velocity. Proved without a time of flight; refuted with one: the time of flight of a plane is always zero, its tolerance is of six hours instead of one second, and the step multiplies by the jacobian instead of its inverse.

*Status:* partial. Proved without a time of flight; refuted with one.

*Theorems:* `Verif.BPlane.achieve_ok`, `Verif.BPlane.achieve_panic`, `Verif.BPlane.achieve_panics`, `Verif.BPlane.achieve_ltof_partial`, `Verif.BPlane.ltof_refused`, `Verif.BPlane.ltof_ignored`, `Verif.BPlane.ltof_step_wrong`

### C170 — The solid tides accelerate along the potential of the bulges

*Plan/model:* Addition theorem for the degrees 2 and 3, and reduction to the gravity field of C163. A body closer to the axis than 10^-12 is taken at longitude zero: its displacement is bounded in the theorem.

*Status:* proved. Over the reals, with perturbers and frame known to the almanac.

*Theorems:* `Verif.Tides.tides_gradient`, `Verif.Tides.tides_gradient_clear`, `Verif.Tides.tidal_surface`

### C171 — The partials of the solid tides are exact

*Plan/model:* Reduction to C164.

*Status:* proved. For a frame related to that of the orbit by a rotation and a translation at each epoch.

*Theorems:* `Verif.Tides.tides_exact`, `Verif.Tides.gradient_symmetric`

### C172 — The tides of the Earth and Moon use frames with all their constants

*Plan/model:* Case analysis.

*Status:* proved. 

*Theorems:* `Verif.Tides.earth_moon`

### C173 — The jacobian of a ground asset is the derivative of its cartesian state

*Plan/model:* Hyperdual numbers as in C158, composed with sine and cosine. The place is specified by the ellipsoid, its normal and the height along it.

*Status:* proved. Over the reals.

*Theorems:* `Verif.Ground.jacobian_derivative`, `Verif.Ground.velocity_exists`, `Verif.Ground.jacobian_shapeless`, `Verif.Ground.place_ground`, `Verif.Ground.place_normal`, `Verif.Ground.place_height`

### C174 — A ground asset has the velocity it is given

*Plan/model:* The conversions of ANISE between orbits and geodetic coordinates are assumed to be right at the asset. Refuted at the poles, where a velocity to the east is lost.

*Status:* partial. The velocity is that of the place. A velocity given is kept away from the poles (not below the ellipsoid); refuted at the poles.

*Theorems:* `Verif.Ground.velocity_sez`, `Verif.Ground.withVelocity_partial`, `Verif.Ground.pole_stops`

### C175 — The great circle distance is an angle times the radius

*Plan/model:* The haversine from the scalar product of unit vectors, and the half angle with atan2.

*Status:* proved. Over the reals.

*Theorems:* `Verif.Ground.great_circle`, `Verif.Ground.great_circle_metric`

### C176 — The vector of a ground asset determines its state

*Plan/model:* Index arithmetic for the matrix stored by columns.

*Status:* proved. 

*Theorems:* `Verif.Ground.set_toVector`, `Verif.Ground.toVector_set`, `Verif.Ground.add_vars`, `Verif.Ground.export_values`

### C177 — Interpolated ground assets stay on their line

*Plan/model:* hermite_eval of ANISE is assumed to be exact for straight lines.

*Status:* proved. Assumes that the interpolation of ANISE is exact on straight lines.

*Theorems:* `Verif.Ground.interpolate_line`

### C178 — A propagated ground asset moves at constant rates

*Plan/model:* Induction on the steps with the Runge Kutta model of C12; the weights of two methods are rounded, the difference is bounded.

*Status:* proved. Up to the rounding of the weights of two methods.

*Theorems:* `Verif.Ground.propagate_line`

### C179 — The state transition matrix of a ground asset is the derivative of its motion

*Plan/model:* Proved for the gradient and for deviations of the coordinates. Refuted for deviations of the rates: the part of the matrix in eom is zero, so that the matrix stays the identity.

*Status:* partial. Refuted for deviations of the rates: the matrix stays the identity.

*Theorems:* `Verif.Ground.gradient_exact`, `Verif.Ground.motion_derivative`, `Verif.Ground.stm_partial`, `Verif.Ground.stm_not_derivative`

### C180 — The sensitivity of a ground asset is the derivative of its measurement

*Plan/model:* Chain rule with C173. Refuted when the trajectory of the transmitter is in another frame, since it is not transformed, and for the Doppler of an asset that moves vertically.

*Status:* partial. Refuted for a transmitter in another frame and for the Doppler of an asset that moves.

*Theorems:* `Verif.Ground.range_row_partial`, `Verif.Ground.doppler_row_partial`, `Verif.Ground.range_row_frame`, `Verif.Ground.doppler_row_moving`

### C181 — The sensitivity of a Doppler depends on what the Doppler depends on

*Plan/model:* Refuted: the measurement does not depend on the rates, and the row has the line of sight in their columns.

*Status:* partial. Refuted; the sensitivity to the rate of the height is right exactly for a transmitter in the horizontal plane.

*Theorems:* `Verif.Ground.measure_ignores_rates`, `Verif.Ground.doppler_row_rates`, `Verif.Ground.doppler_height_rate_partial`

### C182 — A type which a ground asset did not measure has no sensitivity

*Plan/model:* Induction on the types. Refuted for missing types: the matrix starts from the identity.

*Status:* partial. Refuted for types not in the measurement.

*Theorems:* `Verif.Ground.h_tilde_rows_partial`, `Verif.Ground.missing_row6`

### C183 — An instantaneous measurement of a ground asset is what is seen of the transmitter

*Plan/model:* As C123; the ephemerides are parameters.

*Status:* proved. The label is always GroundAsset, not the name of the device.

*Theorems:* `Verif.Ground.instant_ground`

### C184 — An integrated measurement of a ground asset is a mean

*Plan/model:* As C124.

*Status:* proved. 

*Theorems:* `Verif.Ground.integrated_ground`, `Verif.Ground.measure_instant_ground`

### C185 — A measurement of a ground asset does not panic

*Plan/model:* Proved for ranges and Dopplers; refuted for every other type.

*Status:* partial. Refuted for types other than range and Doppler.

*Theorems:* `Verif.Ground.instant_total_partial`, `Verif.Ground.unsupported_panics`

### C186 — A tracking arc written to a parquet file is read as it was

*Plan/model:* Columns of cells which may be null; the encoding of arrow and parquet is trusted, and a null cell read as a value is arbitrary. Proved when all measurements have the same types, known to the reader. Refuted otherwise: a type that a measurement lacks appears with an arbitrary value, and an arc of frequencies only cannot be read.

*Status:* partial. Refuted for arcs whose measurements do not all have the same types and for types of frequencies.

*Theorems:* `Verif.Pq.arc_read_back`, `Verif.Pq.arc_roundtrip_partial`, `Verif.Pq.missing_type_appears`, `Verif.Pq.unknown_types_unreadable`

### C187 — The bounds of an export of an arc are inclusive

*Plan/model:* Proved with the end excluded; refuted for the end: it is excluded, so that with a start bound only the last measurement is lost.

*Status:* partial. Refuted for the end bound, which is exclusive.

*Theorems:* `Verif.Pq.arc_empty_refused`, `Verif.Pq.arc_window_partial`, `Verif.Pq.default_end_drops_last`

### C188 — A trajectory written to a parquet file is read as it was

*Plan/model:* Exact description of what is read. Epoch, orbit, dry and propellant masses, mode and thruster are kept; the coefficients, areas and extra mass are those of the default, the frame that of the first state.

*Status:* partial. What is read is described exactly; refuted for the coefficients, areas, extra mass and frames.

*Theorems:* `Verif.Pq.traj_read_back_partial`, `Verif.Pq.traj_roundtrip_false`, `Verif.Pq.empty_trajectory_panics`, `Verif.Pq.empty_window`

### C189 — The thrust direction of a trajectory survives its file

*Plan/model:* Refuted: the components are set one by one and normalized each time; a unit direction is kept exactly if it is along x, and is NaN if its first component is zero.

*Status:* partial. Refuted but for directions along x.

*Theorems:* `Verif.Pq.direction_nan`, `Verif.Pq.direction_kept_iff_partial`

### C190 — A trajectory exported with selected fields can be read

*Plan/model:* Refuted for every selection without a component of the orbit or the propellant mass.

*Status:* partial. Refuted for omitted fields; proved for a file with the default fields.

*Theorems:* `Verif.Pq.default_fields_partial`, `Verif.Pq.missing_field_unreadable`

### C191 — An orbit determination solution can be exported within bounds

*Plan/model:* The refusals are proved. Refuted for each window that leaves out an estimate, since gains and ratios are not filtered, and for estimates that lack a parameter of the first one.

*Status:* partial. Refuted for windows and for parameters missing in later estimates.

*Theorems:* `Verif.Pq.od_export_refused`, `Verif.Pq.od_window_fails`, `Verif.Pq.od_later_missing_fails`, `Verif.Pq.od_written_partial`

### C192 — The estimates of a solution survive its file

*Plan/model:* Proved for epoch, orbit, coefficients, masses and symmetric covariances. Refuted for the rest: different solutions have the same file.

*Status:* partial. Refuted for deviations, predicted covariances, transition matrices and marks of prediction.

*Theorems:* `Verif.Pq.od_estimates_partial`, `Verif.Pq.od_forgets`

### C193 — The residuals of a solution survive its file

*Plan/model:* Induction on the types in any order. The whitened residuals and the types of frequencies are lost.

*Status:* partial. Refuted for whitened residuals (always NaN) and types of frequencies, within the same theorem.

*Theorems:* `Verif.Pq.od_residuals_partial`

### C194 — The gains and ratios of a solution survive its file

*Plan/model:* Proved when the types are as many as the components and known to the reader. With fewer all gains are lost; with some known and some not the reader panics.

*Status:* partial. Refuted: gains are lost with fewer types than components, and types of frequencies among others panic.

*Theorems:* `Verif.Pq.od_gains_partial`, `Verif.Pq.od_mixed_types_panic`

### C195 — The uncertainties exported in the RIC frame are those along its axes

*Plan/model:* The matrix from the RIC frame to the inertial one has the axes in its columns. Refuted with a rotation of the axes; proved for symmetric matrices.

*Status:* partial. Refuted unless the matrix of the frame is symmetric. Assumes that dcm_from_ric_to_inertial has the axes in its columns, as cosmic/spacecraft.rs:333-334 does.

*Theorems:* `Verif.Pq.ric_sigma_partial`, `Verif.Pq.ric_sigma_false`

### C196 — A solution for a ground asset can be exported

*Plan/model:* Proved for two types without bounds; refuted for any other number of types (the columns of the gains do not match) and for bounds that leave out an estimate.

*Status:* partial. Refuted unless there are exactly two types and no window.

*Theorems:* `Verif.Pq.pnt_export_partial`, `Verif.Pq.pnt_two_types`, `Verif.Pq.pnt_window_fails`

### C197 — Izzo refuses exactly the numbers of revolutions that are impossible

*Plan/model:* The time of flight with m revolutions is above m times pi on every ellipse and takes every value above any of its values. So the numbers above the floor of t/pi are rightly refused, those below are rightly accepted, and for the floor itself the answer is right if and only if the value that compute_t_min takes for the least time is right. That value is wrong (the code keeps the time of the first guess in Halley's iteration, see C146, and takes x = 0 if lambda is near 1): witnesses of refused possible transfers are given for every number of revolutions if lambda is within 1e-9 of 1.

*Status:* partial. Refuted: possible transfers are refused near the least time of flight. Proved for all numbers of revolutions other than the floor of t/pi, and for that one up to the value taken for the least time.

*Theorems:* `Verif.Lambert.revs_refused_partial`, `Verif.Lambert.revs_bound_partial`, `Verif.Lambert.revs_accepted_partial`, `Verif.Lambert.revs_refused_false`, `Verif.Lambert.refused_feasible`, `Verif.Lambert.flight_above`, `Verif.Lambert.flight_onto`

### C198 — A schedule of maneuvers is followed

*Plan/model:* Runs of next over any list of epochs; the number of the current maneuver is bounded above and below by induction. Proved if next is called at least once between the end of each maneuver and the end of the following one; refuted otherwise, as next passes at most one maneuver.

*Status:* partial. Refuted if two maneuvers end between two calls of next; proved otherwise.

*Theorems:* `Verif.Guide.burns_partial`, `Verif.Guide.burns_false`, `Verif.Guide.burn_end`

### C199 — The altitude heuristic builds nodes towards the final altitude

*Plan/model:* The almanac, the trajectory and the geodetic conversions are parameters. The exact altitudes are proved, and that the last one is the final altitude; that they are linear, and the documented example, are refuted (the code divides by the square root of the number of nodes left).

*Status:* partial. Refuted for the linear change of altitude; the rest is proved.

*Theorems:* `Verif.Shooting.altitude_nodes_partial`, `Verif.Shooting.altitude_linear_false`

### C200 — The options of the integrator stay consistent

*Plan/model:* Each constructor, also the one in Python, and setter, then any sequence of setters by induction. Refuted for a maximum below the minimum: the error control is off and the steps exceed the maximum. Refuted for the initial step of with_max_step, which is at most one minute.

*Status:* partial. Refuted for a maximum below the minimum and for the initial step of with_max_step.

*Theorems:* `Verif.Propagate.constructors_consistent`, `Verif.Propagate.constructors_modes`, `Verif.Propagate.setters_consistent_partial`, `Verif.Propagate.setters_sequence`, `Verif.Propagate.python_options`, `Verif.Propagate.python_crossed`, `Verif.Propagate.withMax_init`, `Verif.Propagate.withMax_init_false`, `Verif.Propagate.crossed_no_control`, `Verif.Propagate.withMax_no_control`, `Verif.Propagate.crossed_exceeds`

### C201 — A trajectory in another frame, or at other epochs, is the same motion

*Plan/model:* The transformation and the interpolation are parameters. State by state along the sorted list. The name is lost, which refutes the last part.

*Status:* partial. Refuted for the name only.

*Theorems:* `Verif.Traj.to_frame_spec_partial`, `Verif.Traj.rebuild_spec`, `Verif.Traj.to_frame_name`

### C202 — A trajectory from an SPK file samples it on the requested grid

*Plan/model:* The almanac is a parameter; membership in the time series is characterised for every step.

*Status:* proved. Epochs are integers of nanoseconds.

*Theorems:* `Verif.Traj.from_bsp_spec`

### C203 — A trajectory survives its ephemeris

*Plan/model:* Induction on the insertions in the map of ANISE. The orbits are proved to be kept; all the rest comes from the template, so the round trip holds exactly for the states that agree with it.

*Status:* partial. Refuted for all but the orbits.

*Theorems:* `Verif.Traj.ephemeris_spec`, `Verif.Traj.toEphem_sorted`, `Verif.Traj.oem_roundtrip_partial`, `Verif.Traj.oem_forgets`

### C204 — The file of the difference of two trajectories holds their differences

*Plan/model:* The columns of the file are characterised for all inputs for which they can be computed. The differences in the RIC frame are those filtered by smooth_state_diff_in_place if there are more than five. An empty trajectory panics; a parameter that only some states have, or a second trajectory with fewer states, gives an error.

*Status:* partial. Refuted: the differences in the RIC frame are filtered if there are more than five of them (see the property on smooth_state_diff_in_place).

*Theorems:* `Verif.Pq.ric_file_partial`, `Verif.Pq.ric_empty_panics`, `Verif.Pq.ric_missing_fails`, `Verif.Pq.ric_shorter_fails`

### C205 — An update of the filter uses only what was measured

*Plan/model:* Process model with devices whose sensitivity starts from the identity as in the code. Proved when the types of the window fill the measurement and are all measured. Refuted otherwise: a window with fewer types than the measurement size makes the variance of one position component exactly zero after any accepted measurement; a type missing from the measurement makes the filter observe a position component with the variance of that type.

*Status:* partial. Proved for windows which the measurement fills; refuted otherwise, since the sensitivity starts from the identity.

*Theorems:* `Verif.Process.full_window_partial`, `Verif.Process.short_window_certain`, `Verif.Process.missing_type_observed`

### C206 — The noise covariance of a window is diagonal and positive semi-definite

*Plan/model:* Induction on the types of the window; the theorem on the covariances of a solution (C88) is applied with its hypothesis on the devices discharged.

*Status:* proved. 

*Theorems:* `Verif.Process.noise_covariance`, `Verif.Process.trackers_covariances_psd`, `Verif.Process.station_variance_nonneg`

### C207 — Spacecraft which compare equal are the same

*Plan/model:* Craft model of the spacecraft state with the comparison of orbits as a parameter. Reflexive, symmetric, and bounds on the masses: proved. Not transitive, and blind to thruster, mode and thrust direction: witness where the equations of motion differ.

*Status:* partial. Refuted: not transitive, and thruster, mode and thrust direction are not compared.

*Theorems:* `Verif.Spacecraft.equality_partial`, `Verif.Spacecraft.equality_not_transitive`, `Verif.Spacecraft.equal_but_different`

### C208 — The thrust angles are those of the thrust

*Plan/model:* The direction is recovered from the angles with the in-plane angle measured from the first axis: proved for all unit directions. Refuted for the convention of the guidance laws: the in-plane angle which comes back is the complement to 90 degrees.

*Status:* partial. Proved with the in-plane angle measured from the first axis; refuted for the convention of the guidance laws.

*Theorems:* `Verif.Spacecraft.thrust_angles_direction_partial`, `Verif.Spacecraft.thrust_angles_complement`

### C209 — Process noise from a velocity error over a duration

*Plan/model:* Exact value v T / n for n equal updates: proved by induction on the updates. Refuted: the value is v squared only if v in km/s is T in seconds or zero, and it depends on the number of updates (witness: one metre per second over an hour).

*Status:* partial. Refuted; the exact value is proved without a local frame.

*Theorems:* `Verif.Kalman.velocity_noise_partial`, `Verif.Kalman.velocity_noise_square_iff`, `Verif.Kalman.velocity_noise_cadence`

### C210 — Every shipped method has the order it announces on non linear problems

*Plan/model:* Series over ordered rooted trees: the stages are proved by induction to be sums over trees, with the weights of Butcher; the conditions of order of all trees are evaluated by the kernel for each table; the Taylor polynomial is specified without trees, as the polynomial which satisfies the equation up to the order, and proved unique.

*Status:* proved. The scalars are the rationals.

*Theorems:* `Verif.Rk.tree_conditions`, `Verif.Rk.tail_conditions`, `Verif.Rk.nonlinear_order`, `Verif.Rk.nonlinear_exact`, `Verif.Rk.nonlinear_estimate`, `Verif.Rk.nonlinear_estimate_exact`, `Verif.Rk.time_order`, `Verif.Rk.taylor_unique`

### C211 — The consistency test against the truth

*Plan/model:* Eigen decomposition as a parameter with its specification (proved satisfiable by the spectral theorem); the term is proved to be the quadratic form of the inverse for well conditioned blocks. Refuted: a zero covariance with any error is judged under confident.

*Status:* partial. Refuted for covariances which are singular on the estimated block; the first estimate is never tested.

*Theorems:* `Verif.Solution.nees_fails_iff`, `Verif.Solution.nees_consistency_partial`, `Verif.Solution.nees_zero_covariance`

### C212 — The verdict of the normality test

*Plan/model:* Verdict of floating point comparisons (NaN, infinity) as a case analysis; the probability is the first term of the series of Kolmogorov, written independently. Refuted for two components or more: the test is more lenient than its level.

*Status:* partial. Refuted for residuals of several components: the statistic uses all components, the threshold the number of residuals.

*Theorems:* `Verif.Solution.is_normal_fails`, `Verif.Solution.is_normal_partial`, `Verif.Solution.is_normal_antitone`, `Verif.Solution.is_normal_lenient`

### C213 — The covariance of the filter is the covariance of its errors

*Plan/model:* Random vectors with second moments over a measure space; one run of the model per sample; induction over the history with the error uncorrelated with the noises to come.

*Status:* proved. 

*Theorems:* `Verif.Kalman.covariance_of_errors`, `Verif.Kalman.step_error`

### C214 — The residual ratios of a consistent filter have mean square one

*Plan/model:* Exact value of the mean square for all filters: one plus the square of the observation of the propagated deviation in the innovation metric, over the number of components. Hence one exactly if this observation is zero (always in reference update, where the deviation is zero); refuted in deviation tracking: the ratio uses the prefit residual, not the innovation (witness with three halves).

*Status:* partial. Refuted in deviation tracking with a deviation which is observed; the exact mean square is proved.

*Theorems:* `Verif.Kalman.ratio_mean_square`, `Verif.Kalman.ratio_mean_square_partial`, `Verif.Kalman.ratio_mean_square_fails`

### C215 — The error of a propagation is bounded by the errors of its steps

*Plan/model:* Bounds on the stages by induction over the stages; discrete Gronwall inequality by induction over the steps; the constants of each table are evaluated by the kernel.

*Status:* proved. 

*Theorems:* `Verif.Rk.step_lipschitz`, `Verif.Rk.stepAmp_small`, `Verif.Rk.global_error`, `Verif.Rk.global_order`, `Verif.Rk.method_constants`

### C216 — The error of a step on smooth equations of motion is of the order of the method plus one

*Plan/model:* Taylor polynomials of the vector field with integral remainder, to which the result on polynomial fields applies; uniform over the trajectory by lifting the equations to the space of continuous families of states.

*Status:* proved. 

*Theorems:* `Verif.Rk.local_error`

### C217 — A propagation converges to the exact trajectory with the order of the method

*Plan/model:* The error of each step by C216 near the trajectory, stability of the steps in a tube around it, and induction over the steps that the states stay in the tube. Example: a circular Keplerian orbit.

*Status:* proved. The rounding of the two tables (1e-17), of the epochs and of the computed states is in the bound.

*Theorems:* `Verif.Rk.convergence`, `Verif.Rk.exact_methods`, `Verif.Rk.convergence_exact`

### C218 — All states of a propagation are close to the exact trajectory

*Plan/model:* Invariant of the loop: every state follows from the initial one by steps of the method, whose sizes and epochs are bounded; C217 gives the error. Observation: after a rejected attempt the epoch advances by the used step truncated to nanoseconds, while the state is that of the step used, so adaptive propagations drift by up to a nanosecond per step with respect to their epochs.

*Status:* proved. For propagations whose integration frame is that of the state and whose dynamics change nothing in finally. The error of the arithmetic of one step is a parameter, whose sum over the steps is in the bound.

*Theorems:* `Verif.Propagate.propagation_error`, `Verif.Propagate.propagation_exact`

### C219 — A propagation forward and back returns to the initial state

*Plan/model:* Two applications of C218, with the theorems on the epoch and on the reuse of an instance.

*Status:* proved. 

*Theorems:* `Verif.Propagate.round_trip`

### C220 — The propagated transition matrix converges to the derivative of the flow

*Plan/model:* The limit is found for all smooth dynamics: the matrices converge, with the first order whatever the order of the method, to the solution of Ψ' = Ψ A with the gradient A on the right, because the code multiplies the matrix at the start of the step by the gradient. The exact one solves Φ' = A Φ (proved to be the derivative of the flow by a Gronwall bound). The two agree where the gradients along the trajectory commute. Refuted by a radial escape from a point mass: the limit of an entry is 129/80, the exact one 18/5.

*Status:* partial. False of the code: the limit has the gradient on the right (stm_limit), which differs from the derivative of the flow (stm_wrong_limit, with runs shown to exist by escape_runs); it holds where the gradients commute.

*Theorems:* `Verif.Propagate.stm_limit`, `Verif.Propagate.variational_isStm`, `Verif.Propagate.stm_commuting_partial`, `Verif.Propagate.stm_wrong_limit`, `Verif.Propagate.escape_runs`

### C221 — The accuracy of a trajectory between its stored states

*Plan/model:* hermite_eval of ANISE is a parameter which returns the value and derivative of the polynomial with the given values and derivatives. Its error is proved by Rolle's theorem on sets of zeros; the effect of errors in the data by explicit polynomials. The windows of Traj::at are those of C16, including the one which does not contain the epoch.

*Status:* proved. hermite_eval (ANISE) is a parameter with its contract, shown to be satisfiable.

*Theorems:* `Verif.Traj.at_error`, `Verif.Traj.interpolate_error`, `Verif.Traj.hermite_error`

### C222 — The accuracy of a propagated and interpolated trajectory

*Plan/model:* Composition of C218 (errors of the states), C09 (the stored trajectory) and C221 (the interpolation), with the theorem that the states of such a propagation are exactly one step apart. Example: a circular Keplerian orbit.

*Status:* proved. For durations which are a multiple of the step, so that the spacing of the states is that of the steps; otherwise the last spacing is shorter and C221 gives a bound with that ratio.

*Theorems:* `Verif.Traj.propagated_at_error`, `Verif.Traj.forDuration_grid`

### C223 — The targeters converge near a solution

*Plan/model:* A theorem of the type of Kantorovich on the models of both targeters, with the pseudo inverse of a perturbed matrix, the finite differences, the limits of the variables and the test of stagnation. The tolerance must exceed 1e-10 / (1 - rate): a witness shows that a converging problem is otherwise refused as ineffective.

*Status:* proved. For variables of the state which start from zero without correction frame, as many variables as objectives or more. slow_convergence_refused shows that the condition on the tolerance is needed.

*Theorems:* `Verif.Target.local_convergence`, `Verif.Target.dual_local_convergence`, `Verif.Target.smooth_of_lipschitz`, `Verif.Target.slow_convergence_refused`

### C224 — The targeters can lay out their log for every problem

*Plan/model:* Model of the arithmetic on 32 bit integers, with and without the overflow checks. Proved for tolerances of at most one, characterized for the others. Refuted with the overflow checks: a semi-major axis of one astronomical unit to 100 km, or a tolerance of zero, is a panic.

*Status:* partial. Refuted with overflow checks (debug and test builds) for a large desired value with a tolerance above one and for a tolerance of zero; proved without the checks.

*Theorems:* `Verif.Target.log_width_partial`, `Verif.Target.small_tolerance_fits`, `Verif.Target.log_width_overflow`, `Verif.Target.zero_tolerance_panics`, `Verif.Target.unchecked_log_width`

### C225 — The navigation trajectory passes through the final estimate at each epoch

*Plan/model:* Removing the adjacent repeated epochs keeps the first of each; proved for all chronological lists. Refuted by a run of the model of process_arc: a scalar state measured by two types at one epoch, as the scalar filter does with range and Doppler; the trajectory has the state after the first type only.

*Status:* partial. Refuted when several measurements are processed at one epoch: the first of their estimates is kept; proved for distinct epochs.

*Theorems:* `Verif.Process.to_traj_partial`, `Verif.Process.exNav_runs`, `Verif.Process.to_traj_keeps_first`

### C226 — Equality of orbit determination solutions

*Plan/model:* Model of the comparison over normed spaces; shown equivalent to an agreement position by position within the tolerances and an inclusion of the measurement types. Refuted: not symmetric (types), not transitive (tolerances), the epochs are not compared.

*Status:* partial. Refuted: neither symmetric nor transitive, and epochs are ignored; reflexive, symmetric for the same types, and transitive with twice the tolerances.

*Theorems:* `Verif.Solution.eq_iff`, `Verif.Solution.solution_equality_partial`, `Verif.Solution.solution_equality_false`

### C227 — Many spacecraft propagated from Python have their results at their positions

*Plan/model:* The parallel iterator is an arbitrary tree of splits, whose parts are concatenated. Proved when nothing fails. Refuted: a failed propagation is dropped from the list with a message on the standard error only, so the results shift.

*Status:* partial. Refuted when a propagation fails: its result is left out; proved otherwise.

*Theorems:* `Verif.Py.many_partial`, `Verif.Py.many_loses_failures`

### C228 — States pushed to a Python trajectory are found at their epochs

*Plan/model:* On the model of finalize. Proved for new epochs. Refuted: a state pushed at the last epoch is always dropped, one pushed at another stored epoch stays beside the old one.

*Status:* partial. Refuted for epochs already in the trajectory.

*Theorems:* `Verif.Py.append_partial`, `Verif.Py.push_last_lost`, `Verif.Py.push_duplicates`

### C229 — Process noise from accelerations has the size of the accelerations

*Plan/model:* The covariance added is computed for all inputs from the model of the process noise. Refuted: the acceleration, converted to km/s^2, is used as the variance (not squared), so the claim holds only for 0 and 1000 m/s^2; read as a variance in m^2/s^4 it would have to be converted with 1e-6, not 1e-3.

*Status:* partial. Refuted: the acceleration is used as a variance; the noise added is proved.

*Theorems:* `Verif.Py.accel_noise_partial`, `Verif.Py.accel_noise_square_iff`

### C230 — Covariances read from Python are those of the estimate

*Plan/model:* Model of the order of the elements in nalgebra (by columns) and ndarray (by rows).

*Status:* proved. 

*Theorems:* `Verif.Py.python_covariance`

### C231 — Gooding's solver finds every transfer of less than one turn

*Plan/model:* On the model of gooding with real numbers. Refuted: around the parabola the solver switches from the exact Stumpff functions to their values at zero, so that the time of flight jumps; a transfer the long way round, whose time lies in the jump, exists (intermediate value theorem) but all the thousand rounds miss it. Refuted also for every fast transfer the long way round: phi never leaves [-4π², 4π²], so hyperbolas shorter than the one with phi = -4π² exist (limit of the time of flight and intermediate value theorem) but are never returned. The short way, while every time is too long the values of phi do not depend on the time asked for and come from the numbers of tenths by which phi was moved, so that y is zero for countably many shapes only; for the others the thousand times have a positive lower bound, below which the transfers exist but are never returned. Proved for ellipses and for hyperbolas between that one and the neighborhood of the parabola (with y positive), away from the parabola, by the halving of the bracket, an explicit Lipschitz constant of the time of flight and its growth near a full turn.

*Status:* partial. Proved for the ellipses which are longer than a bound close to the time on the parabola, for positions at least a meter apart, and for the hyperbolas between the one with phi = -4π² and the neighborhood of the parabola if y stays positive there (always the long way round): the thousand rounds of the bisection are enough. Refuted close to the parabola, for every fast transfer the long way round, and, for all shapes but countably many, for every transfer the short way below a bound: it exists but the solver gives up. When the solver fails, gooding_outcome says for which reasons. Missing: the slower hyperbolas the short way when y becomes negative.

*Theorems:* `Verif.Lambert.gooding_elliptic_partial`, `Verif.Lambert.gooding_hyperbolic_partial`, `Verif.Lambert.gooding_window`, `Verif.Lambert.gooding_fast_false`, `Verif.Lambert.gooding_fast_short_false`, `Verif.Lambert.fast_short_witness`, `Verif.Lambert.gooding_outcome`

### C232 — The Dhall schemas are those of what is written and read

*Plan/model:* Values and types of Dhall with the typing rules; the derived serializations and the hand written types are functions into them. Proved for the options, the force models, the point masses, the maneuvers and the phases. Refuted: the type of a gravity field has no frame and is paired with one, so acceleration models have their type exactly without a gravity field, and no document of the declared type with one can be read; the maps of thrusters and propagators are declared as lists of pairs but written as maps, so no sequence with one of them has its type, however serde_dhall writes maps.

*Status:* partial. Refuted for gravity fields and for sequences with thrusters or propagators; proved for the other configurations. How serde_dhall writes maps and nalgebra writes vectors is a parameter.

*Theorems:* `Verif.Schema.options_schema`, `Verif.Schema.force_schema`, `Verif.Schema.masses_schema`, `Verif.Schema.maneuver_schema`, `Verif.Schema.phase_schema`, `Verif.Schema.accel_schema_partial`, `Verif.Schema.prop_schema`, `Verif.Schema.gravity_schema_false`, `Verif.Schema.plan_schema_false`, `Verif.Schema.activity_schema_false`, `Verif.Schema.plan_schema_partial`, `Verif.Schema.accel_roundtrip`, `Verif.Schema.map_roundtrip`, `Verif.Schema.declared_gravity_unreadable`, `Verif.Schema.declared_map_unreadable`

### C233 — The stability test and the warning of the dual targeter mean what they say

*Plan/model:* The eigenvalues computed by nalgebra are a parameter with their defining property. A motion which is not bounded is built from the eigenvector whenever the test fails; with independent eigenvectors the test is exact. Refuted: the free particle has the eigenvalue 0 twice, is called stable and drifts away; and the gradient of the dynamics has zero rows for the reflectivity, drag and propellant, so every transition matrix has the eigenvalue 1, whose real part is positive: the targeter warns in every iteration (the test for x' = A x is applied to the matrix of a discrete step).

*Status:* partial. Refuted: the free particle passes the test but is not bounded, and the warning is issued in every iteration of every target. Proved: a failed test means motions without bound, and the test is exact for matrices with independent eigenvectors.

*Theorems:* `Verif.Stability.stable_bounded_partial`, `Verif.Stability.unstable_unbounded`, `Verif.Stability.stable_jordan_false`, `Verif.Stability.dual_always_warns`

### C234 — The objectives made from a B-plane target are that target

*Plan/model:* Which planes meet the objectives is characterised exactly. Proved to put the plane on the target if the tolerance given is no greater than those of the target, and the planes found by try_achieve_b_plane meet them if it is at least those. Refuted: to_objectives accepts a plane a kilometer off though the tolerance of the target is a millimeter; the objective on the time of flight accepts 60 years with the default tolerance, multiplied by 1e5; the tolerances shown in meters are a millionth of them.

*Status:* partial. Refuted: the tolerances of the target are not used, that of the time of flight is multiplied by 1e5, and the meters shown are wrong. Proved for a tolerance no greater than those of the target.

*Theorems:* `Verif.BPlane.objectives_within_iff`, `Verif.BPlane.all_objectives_iff`, `Verif.BPlane.objectives_on_target_partial`, `Verif.BPlane.achieved_meets`, `Verif.BPlane.objectives_loose`, `Verif.BPlane.all_objectives_ignore_time`, `Verif.BPlane.shown_tolerance_false`

### C235 — Timestamped exports keep their names apart

*Plan/model:* Names as lists of characters with the extension of the standard library and its replacement of all occurrences. Proved when the dot and extension do not occur in the stem. Refuted: name.ext.ext and name.ext are written to the same path, any further occurrence of the extension is dropped from the stem, and a name without an extension gets no stamp.

*Status:* partial. Refuted when the extension also occurs in the stem (files overwrite one another) and without an extension; proved otherwise.

*Theorems:* `Verif.Io.timestamp_name_partial`, `Verif.Io.timestamp_end`, `Verif.Io.timestamp_collision`, `Verif.Io.no_extension_no_timestamp`

### C236 — Tracking configurations survive their text and refuse unreadable entries

*Plan/model:* The trees of values of a YAML document, with the derived writing and reading. Round trip proved; a configuration that is read has readable sampling and cadence. Refuted for the sample alignment: an unreadable text is read as no alignment at all, whereas a missing one is refused; and the derived default of the scheduler is not that of its builder.

*Status:* partial. The round trip is proved; refuted for the alignment, which is dropped when it is not readable.

*Theorems:* `Verif.Sched.config_text_round`, `Verif.Sched.unreadable_refused_partial`, `Verif.Sched.unreadable_alignment`, `Verif.Sched.missing_alignment`, `Verif.Sched.scheduler_default_differs`

### C237 — Shooting nodes survive their text and become the objectives of their position

*Plan/model:* Printing and parsing of epochs are parameters. Round trip, objectives and updates proved exactly. Refuted: an epoch that is not readable panics instead of the error of the signature; a node without a speed becomes one at rest, whose four objectives ask for a speed of at most a meter per second.

*Status:* partial. Refuted for epochs that are not readable (panic) and for nodes without a speed; the rest is proved.

*Theorems:* `Verif.Shooting.nodes_round`, `Verif.Shooting.nodes_read_partial`, `Verif.Shooting.node_objectives3`, `Verif.Shooting.node_objectives4`, `Verif.Shooting.node_update`, `Verif.Shooting.bad_epoch_panics`, `Verif.Shooting.open_velocity_is_rest`

### C238 — Objective::new gives the documented tolerance to every parameter that can be targeted

*Plan/model:* The tolerance is proved to be a thousandth of the unit, but for the period. Refuted: the documented tenth holds for the period only, and the time of flight in the B-plane, which the targeters accept, panics.

*Status:* partial. Refuted: a thousandth instead of a tenth, and a panic for the time of flight.

*Theorems:* `Verif.Shooting.default_tolerance_partial`, `Verif.Shooting.default_tolerance_false`, `Verif.Shooting.ltof_objective_panics`

### C239 — A link between spacecraft measures over its integration time and says what it lacks

*Plan/model:* The link of C126 with the two instants of its integration. Proved: each value is the mean of what is seen at both ends plus the noise over the root of two, drawn at the middle, and nothing changes when an end is missing or hidden. Refuted: the Doppler over the time is not the change of distance over it; without noises the covariance and the bias panic; the location outside of the trajectory panics.

*Status:* partial. Refuted: the Doppler over the integration time is not the change of distance; a link without noises panics when its covariance is asked for; so does the location outside of the trajectory. The mean of both ends is proved.

*Theorems:* `Verif.Device.link_integrated_partial`, `Verif.Device.link_measure_instant`, `Verif.Device.link_transmitter_missing`, `Verif.Device.integrated_doppler_false`, `Verif.Device.link_covar_panics`, `Verif.Device.link_covar`, `Verif.Device.link_location_panics`

### C240 — Exact data leave a filter on the truth

*Plan/model:* Proved by an invariant of the whole run when the epochs of the measurements are reached exactly (they and the steps are multiples of a duration no less than the epoch precision). Refuted otherwise: within the precision the propagated state is given the epoch of the measurement, and the estimate leaves the truth.

*Status:* partial. Refuted when a measurement is within the epoch precision of a step; proved when the epochs are reached exactly.

*Theorems:* `Verif.Process.exact_data_partial`, `Verif.Process.exact_data_early`

### C241 — Exact data leave the batch least squares on the truth

*Plan/model:* Proved for both solvers by an invariant of the accumulation, when the epochs are reached exactly. Refuted otherwise: with a precision of two nanoseconds the correct guess is moved.

*Status:* partial. Refuted when a measurement is within the epoch precision of a step; proved when the epochs are reached exactly.

*Theorems:* `Verif.Blse.exact_batch_partial`, `Verif.Blse.exact_batch_early`

### C242 — A filter run can be resumed from its last estimate

*Plan/model:* A simulation between the whole run and the resumed one. Proved for deviation tracking with white noises when the last estimate is that of the last measurement before the cut. Refuted for reference updates: both functions start from the nominal state of the estimate, without its deviation, so the last correction is lost; a prediction is proved not to depend on the deviation at all.

*Status:* partial. Refuted for reference updates: the last correction is lost. Proved for deviation tracking with white noises.

*Theorems:* `Verif.Process.resume_partial`, `Verif.Process.resume_reference_false`, `Verif.Process.predict_ignores_deviation`, `Verif.Process.predict_reference_false`

### C243 — A targeter starts from the initial guesses of its variables

*Plan/model:* The constructors and the start of the targeter. Proved for the variables of the state. Refuted for those of the thrust: the perturbation is applied instead of the guess, so that guesses are proved to change nothing but the correction that is reported; a right guess fails and a wrong one is reported as the solution. The steps of vnc are not the documented ones either, and a thrust level in a local frame panics.

*Status:* partial. Refuted for the variables of the thrust, whose guesses are only reported; proved for those of the state.

*Theorems:* `Verif.Target.good_guess_kept_partial`, `Verif.Target.thrust_guess_unused`, `Verif.Target.good_thrust_guess_missed`, `Verif.Target.wrong_guess_reported`, `Verif.Target.constructors_valid`, `Verif.Target.vnc_step`, `Verif.Target.vnc_level_panics`

### C244 — Simulated noise-free data processed by an estimator started on the truth give the truth

*Plan/model:* The models of the simulator (C47), of the sort of the data (C08) and of the estimators (C240, C241) put together. Proved through overlapping strands, whose duplicates are merged, when the strands, samplings and steps are on a grid no finer than the epoch precision. Refuted otherwise, with a complete run.

*Status:* partial. Refuted when the epochs are within the epoch precision of the steps; proved on a grid.

*Theorems:* `Verif.Simulated.simulated_filter_partial`, `Verif.Simulated.simulated_batch_partial`, `Verif.Simulated.simulated_values`, `Verif.Simulated.simulated_early`

### C245 — Exact data bring the batch least squares from a wrong guess to the truth on a linear problem

*Plan/model:* On the model of the estimator. For a state at rest the error after n iterations is (1 + ΣHᵀWH)⁻ⁿ times that of the guess, by induction on the iterations; convergence means that the information times the error is below the tolerance. Refuted when the state moves: the transition matrices from the initial epoch are multiplied with each other, and on a plane that turns a wrong guess is returned as converged although the data determine the state.

*Status:* partial. Refuted for states that move; proved for states at rest with the normal equations.

*Theorems:* `Verif.Blse.static_batch_partial`, `Verif.Blse.static_error_bound`, `Verif.Blse.rotating_batch_false`

### C246 — Adding a tracker to a simulation leaves the data of the others unchanged

*Plan/model:* On the model of the simulator (C47). The loop on the devices is split at the added ones; the strands of a tracker share no epoch, so that the merge of the duplicates after the unstable sort does not matter. Without noise, through the exact epochs of C47 and the values of C244. Refuted for any generator whose first two values differ: the trackers share one generator and are simulated one after the other in the order of their names.

*Status:* partial. Refuted with noise: a tracker that comes before in the order of the names shifts the draws of those after it. Proved for the trackers that come before the added one, and for all without noise.

*Theorems:* `Verif.Added.earlier_unchanged_partial`, `Verif.Added.quiet_unchanged`, `Verif.Added.added_tracker_false`

### C247 — A noise on the time tags moves measurements without losing any

*Plan/model:* On the model of the simulator (C47), with devices that also return the epoch of the request, related to the code's by naturality of the loops. If twice the noise is less than the samplings and the gaps between strands, the tags of a tracker are distinct and the merge of the sort does nothing. Refuted otherwise: two measurements of a strand with the same tag become one.

*Status:* partial. Refuted when the noise of the tags can reach the sampling period: two measurements with one tag are merged. Proved for smaller noises.

*Theorems:* `Verif.Stamped.stamped_kept_partial`, `Verif.Stamped.colliding_tags_false`

### C248 — A filter without process noise gives the least squares solution of the whole arc

*Plan/model:* On the model of the filter (C28) and of the process (C35). The total cost is shown, by induction on the operations, to be a constant plus the distance of its end to the estimate, weighted with the covariance of the filter; the process is shown to be a run of its filter whose operations are read from the entries of the solution. The linear dynamics are those of the transition matrices which the process used.

*Status:* proved. For positive definite initial and measurement covariances and invertible transitions.

*Theorems:* `Verif.ProcessArc.process_is_least_squares`, `Verif.ProcessArc.process_forgets`, `Verif.KalmanArc.run_is_least_squares`, `Verif.KalmanArc.run_information`, `Verif.KalmanArc.guess_forgotten`

### C249 — Deviation tracking and reference updates agree on linear problems

*Plan/model:* A simulation between the two runs on the model of the process (C35): at each action the nominal state of the reference update is that of deviation tracking moved by the deviation. Proved without a rejection threshold, for epochs reached exactly and initial estimates without deviation; what deviation tracking reports as postfit is shown to be the prefit residual of the reference update. Refuted with a threshold, as deviation tracking tests the distance to the nominal state instead of the innovation and rejects good measurements; refuted for initial deviations, which reference updates drop.

*Status:* partial. Refuted with a rejection threshold and for initial estimates with a deviation; proved without.

*Theorems:* `Verif.Variants.variants_agree_partial`, `Verif.Variants.variants_threshold_false`, `Verif.Variants.variants_deviation_false`

### C250 — The values of the measurements do not change the covariances of a deviation tracking filter

*Plan/model:* A simulation between three runs on the model of the process (C35), the third with the mixture of the values and of the initial deviations of the two others. Proved for devices whose sensitivity does not use the values, shown for the angles of ground stations. Refuted for ranges: the row of a range divides by the measured value instead of the computed one.

*Status:* partial. Refuted for ranges, whose sensitivity divides by the measured value; proved for devices whose sensitivity does not use the values, such as stations that measure angles.

*Theorems:* `Verif.Analysis.solution_mix_partial`, `Verif.Analysis.values_leave_covariance_partial`, `Verif.Analysis.angles_blind`, `Verif.Analysis.range_value_false`

### C251 — A ground station made in Python simulates the same data for the same seed

*Plan/model:* py_new is modelled from the list of the items of the HashMap in any order, on the model of the station (C123). Proved for the configuration and for measurements without noise. Refuted with noise: the types take the order of the hash map, so the noises of the range and of the Doppler are swapped between two runs with the same seed.

*Status:* partial. Refuted with noise: the types take the random order of a HashMap, so the same seed gives other data; proved for the configuration and for measurements without noise.

*Theorems:* `Verif.DevPy.py_new_partial`, `Verif.DevPy.py_seed_false`

### C252 — A ground station edited in Python stays able to measure

*Plan/model:* Each method is modelled on the station of C122; the stations made in Python are an inductive predicate over all edits. The effect of each edit is proved, and measuring is proved while each enabled type has a noise, which most edits keep. Refuted for remove_stochastic_noise and clear_stochastic_noises, which leave the type enabled without noise: measuring fails, and measurement_covar fails or panics.

*Status:* partial. Refuted for remove_stochastic_noise and clear_stochastic_noises, which leave a type enabled without noise; proved for stations whose enabled types have a noise, which the other edits keep.

*Theorems:* `Verif.DevPy.py_edit_effects`, `Verif.DevPy.py_edits_partial`, `Verif.DevPy.remove_noise_false`

### C253 — A continuous thrust targeter burns during the whole segment

*Plan/model:* On the model of the targeter (C60). The maneuvers tried are observed through the propagator: the outcome is proved not to depend on what the propagator does with maneuvers of another length or level, by an invariant of the loop. to_mnvr never fails as each component stays between -1 and 1.

*Status:* proved. 

*Theorems:* `Verif.Target.thrust_whole_segment`, `Verif.Target.thrust_mnvr_whole`, `Verif.Target.continuous_constructors`

### C254 — Generating the measurements again gives another sample of the same noise

*Plan/model:* The processes of C118, kept by the devices from one call to the next, and the simulator of C47. Epochs and trackers are proved to be the same for every call. White noises: the draws of every measurement of every call are proved. Refuted with a Gauss-Markov bias: the second call carries the bias backward over the arc, which multiplies it by exp(arc / tau); with the default bias of the ranges it panics as soon as the arc lasts twelve hours.

*Status:* partial. Epochs and trackers: proved, the same for every call. White noises: proved for every call. Refuted with a Gauss-Markov bias, whose state at the end of the arc is used at the start of the next call: the variance grows by exp(2 arc / tau), and the default bias of the ranges panics after an arc of twelve hours.

*Theorems:* `Verif.Noise.again_white_partial`, `Verif.SchedAgain.again_same_epochs_partial`, `Verif.Noise.again_variance`, `Verif.Noise.again_panics`

### C255 — Appending a field to an export configuration adds a column

*Plan/model:* On the model of the file of a trajectory (C190). Proved for configurations with a list of fields. Refuted for the default configuration: append_field replaces the default by the one field, and the file cannot be read anymore.

*Status:* partial. Refuted for the default fields, which append_field replaces by the one field: the file cannot be read. Proved for a configuration with a list of fields.

*Theorems:* `Verif.Export.append_keeps_partial`, `Verif.Export.append_default_drops`

### C256 — The metadata given to an export are in the file

*Plan/model:* The hash map is modelled as a list of entries with different keys, in any order for what is stated. The last entry for a key is specified by a split of the list.

*Status:* proved. 

*Theorems:* `Verif.Export.metadata_written`

### C257 — The ground track has the latitude, longitude and height only

*Plan/model:* On the model of the file of a trajectory (C190), after the change of frame (C201), with the states of every_between. The columns and cells are proved; the file has the radius too, against the documentation.

*Status:* partial. Refuted: the file has the radius too, which the documentation does not name. All its columns and cells are proved.

*Theorems:* `Verif.Export.ground_track_partial`, `Verif.Export.ground_track_radius`

### C258 — Two seeds give two simulations

*Plan/model:* The generator Pcg64Mcg of rand_pcg is modelled on bit vectors from its definition; that crate is not in the repository. Its multiplication is shown to be injective. Refuted for an even seed and the next one: Pcg64Mcg::new sets the lowest bit of the seed.

*Status:* partial. Refuted for an even seed and the next one, which give the same draws. For other pairs the generators are proved to be never in the same state after the same number of words; that their words differ is not proved.

*Theorems:* `Verif.Seed.seeds_apart_partial`, `Verif.Seed.next_seed_same`

### C259 — Asking for more samples keeps the first ones

*Plan/model:* On the model of the runs (C63), with any sampler and any state of the generator.

*Status:* proved. 

*Theorems:* `Verif.Seed.py_samples`, `Verif.Seed.more_runs`

### C260 — An arc cut in Python keeps its measurements

*Plan/model:* On the model of the arcs (C21, C24). Proved for epochs. Refuted for offsets, for every arc: the measurements at the last epoch are in neither part.

*Status:* partial. Refuted for offsets: the measurements at the last epoch are lost. Proved for epochs.

*Theorems:* `Verif.Cut.cut_epoch_partial`, `Verif.Cut.cut_offset_loses`, `Verif.Cut.exclude_and_filter`

### C261 — The covariance and the bias of a transmitter for ground assets are those configured

*Plan/model:* On the model of the measurements of an asset (C183). Refuted: the bias panics when no noise is configured, and the filter subtracts it from the computed observation, so that the residual has twice the bias.

*Status:* partial. Refuted: the bias panics without noises, the bias is divided by the square root of two over an integration time, and the residual of the filter has twice the bias. The values for configured types are proved.

*Theorems:* `Verif.Ground.covar_bias_partial`, `Verif.Ground.no_noise_panics`, `Verif.Ground.asset_bias_doubled`, `Verif.Ground.asset_bias_integrated`

### C262 — A constant bias of a link between spacecraft is removed by the filter

*Plan/model:* On the model of the link (C126, C239). Refuted: the residual has twice the bias at an instant, and over an integration time the measurement has the bias divided by the square root of two.

*Status:* partial. Refuted: the residual of the filter has twice the bias, and the bias is divided by the square root of two over an integration time. At an instant, that the observation has the bias and that measurement_bias gives it is proved.

*Theorems:* `Verif.Device.link_bias_partial`, `Verif.Device.link_bias_doubled`, `Verif.Device.link_bias_integrated`
