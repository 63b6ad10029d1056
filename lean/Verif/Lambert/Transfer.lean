import Verif.Lambert.Deriv
/-!
What `LambertInput` and `LambertSolution` promise: the checks on the two states, the orbits of the transfer, and the
hyperbolic excess velocity at departure.
-/
namespace Verif.Lambert
open Matrix
open Verif.MathU (V3 nrm atan2 dot3 nrm_sq nrm_nonneg ext3 cross0 cross1 cross2)

/-- **The input.** `from_planetary_states` accepts two states exactly when they are in the same frame and the frame has a
gravitational parameter, and keeps both. -/
theorem planetary_states {i f : Orbit} {inp : Input} :
    fromPlanetaryStates i f = some inp ↔ f.frame = i.frame ∧ (∃ mu, i.frame.mu = some mu) ∧ inp = ⟨i, f⟩ := by
  rw [fromPlanetaryStates]
  by_cases h : f.frame = i.frame
  · rw [if_neg (not_not.2 h)]
    rcases hm : i.frame.mu with _ | mu
    · simp
    · simp only [Option.some.injEq]
      exact ⟨fun h' => ⟨h, ⟨mu, rfl⟩, h'.symm⟩, fun h' => h'.2.2.symm⟩
  · rw [if_pos h]
    simp [h]

theorem goodStep_no_panic (mu a n1 n2 tof : ℝ) (s : Iter) : goodStep mu a n1 n2 tof s ≠ .panic := by
  rw [goodStep]
  simp only
  split_ifs <;> simp

/-- The loop of Gooding does not panic. -/
theorem goodLoop_no_panic (mu a n1 n2 tof : ℝ) : ∀ n s, goodLoop mu a n1 n2 tof n s ≠ .panic
  | 0, s => by
    rw [goodLoop]
    split_ifs <;> simp
  | n + 1, s => by
    rw [goodLoop]
    split_ifs
    · exact Res.bind_ne_panic (goodStep_no_panic _ _ _ _ _ _) fun s' => goodLoop_no_panic mu a n1 n2 tof n s'
    · simp

/-- On an accepted input the solver of Gooding never panics, and the one of Izzo panics only for equal positions. -/
theorem accepted_panics {i f : Orbit} {inp : Input} (h : fromPlanetaryStates i f = some inp) (kind : Kind) :
    gooding inp kind ≠ .panic ∧ (izzo inp kind = .panic ↔ i.pos = f.pos) := by
  obtain ⟨-, ⟨mu, hm⟩, rfl⟩ := planetary_states.1 h
  refine ⟨?_, izzo_panic_iff hm⟩
  rw [gooding]
  refine Res.bind_ne_panic ?_ fun m => Res.bind_ne_panic ?_ fun dm => ?_
  · rw [Input.mu]
    show (match i.frame.mu with | some m => Res.ok m | none => .panic) ≠ .panic
    rw [hm]; simp
  · cases kind <;> simp only [Kind.direction]
    · split_ifs <;> simp
    · simp
    · simp
    · simp
  · simp only
    split_ifs
    · simp
    · exact Res.bind_ne_panic (goodLoop_no_panic _ _ _ _ _ _ _) fun s => by simp

/-- **The orbits of the transfer.** The transfer orbit is the departure state with only its velocity replaced, the arrival
orbit is the arrival state with only its velocity replaced. -/
theorem transfer_orbits {s : Solution} {v1 v2 : V3} (h1 : s.vInit = some v1) (h2 : s.vFinal = some v2) :
    ∃ o a, s.transferOrbit = some o ∧ s.arrivalOrbit = some a ∧
      o.pos = s.input.initial.pos ∧ o.epoch = s.input.initial.epoch ∧ o.frame = s.input.initial.frame ∧ o.vel = v1 ∧
      a.pos = s.input.final.pos ∧ a.epoch = s.input.final.epoch ∧ a.frame = s.input.final.frame ∧ a.vel = v2 := by
  rw [Solution.transferOrbit, Solution.arrivalOrbit, h1, h2]
  exact ⟨_, _, rfl, rfl, rfl, rfl, rfl, rfl, rfl, rfl, rfl, rfl⟩

/-- **The departure asymptote.** The declination and the right ascension are those of the excess velocity: the velocity of
the transfer relative to the planet that is left. `c3` is its square.
Missing from C147: the signs of the vectors of the excess velocities (`v_inf_opposite`). -/
theorem departure_partial {s : Solution} {v1 : V3} (h1 : s.vInit = some v1) (hne : v1 ≠ s.input.initial.vel) :
    ∃ dec ra c3, s.declination = some dec ∧ s.rightAscension = some ra ∧ s.c3 = some c3 ∧
      c3 = nrm (v1 - s.input.initial.vel) ^ 2 ∧ 0 < c3 ∧
      -90 ≤ dec ∧ dec ≤ 90 ∧ -180 < ra ∧ ra ≤ 180 ∧
      v1 - s.input.initial.vel = Real.sqrt c3 • ![Real.cos (dec * Real.pi / 180) * Real.cos (ra * Real.pi / 180),
        Real.cos (dec * Real.pi / 180) * Real.sin (ra * Real.pi / 180), Real.sin (dec * Real.pi / 180)] := by
  rw [Solution.declination, Solution.rightAscension, Solution.c3, Solution.vInfOut, h1]
  refine ⟨_, _, _, rfl, rfl, rfl, ?_⟩
  have hv : -(s.input.initial.vel - v1) = v1 - s.input.initial.vel := neg_sub _ _
  have hdot : (s.input.initial.vel - v1) ⬝ᵥ (s.input.initial.vel - v1) =
      (v1 - s.input.initial.vel) ⬝ᵥ (v1 - s.input.initial.vel) := by
    rw [← hv, neg_dotProduct, dotProduct_neg, neg_neg]
  simp only
  rw [hv, hdot]
  have hw : v1 - s.input.initial.vel ≠ 0 := sub_ne_zero.2 hne
  generalize v1 - s.input.initial.vel = w at *
  have hn : 0 < nrm w := Verif.MathU.nrm_pos _ hw
  have hsq : w ⬝ᵥ w = nrm w ^ 2 := by rw [← nrm_sq]; ring
  have h3 : nrm w ^ 2 = w 0 * w 0 + w 1 * w 1 + w 2 * w 2 := by rw [← hsq, dot3]
  have hpi := Real.pi_pos
  have hb : -1 ≤ w 2 / nrm w ∧ w 2 / nrm w ≤ 1 := by
    have : (w 2) ^ 2 ≤ nrm w ^ 2 := by nlinarith [mul_self_nonneg (w 0), mul_self_nonneg (w 1)]
    have := abs_le_of_sq_le_sq' this hn.le
    constructor
    · rw [le_div_iff₀ hn]; linarith
    · rw [div_le_one hn]; exact this.2
  have e1 : Real.arcsin (w 2 / nrm w) * 180 / Real.pi * Real.pi / 180 = Real.arcsin (w 2 / nrm w) := by field_simp
  have e2 : atan2 (w 1) (w 0) * 180 / Real.pi * Real.pi / 180 = atan2 (w 1) (w 0) := by field_simp
  obtain ⟨p1, p2⟩ := Verif.MathU.atan2_polar (w 1) (w 0)
  have hcos : nrm w * Real.cos (Real.arcsin (w 2 / nrm w)) = Real.sqrt (w 0 * w 0 + w 1 * w 1) := by
    rw [Real.cos_arcsin]
    have : w 0 * w 0 + w 1 * w 1 = nrm w ^ 2 * (1 - (w 2 / nrm w) ^ 2) := by
      field_simp; linarith
    rw [this, Real.sqrt_mul (by positivity), Real.sqrt_sq hn.le]
  refine ⟨hsq, by rw [hsq]; positivity, ?_, ?_, ?_, ?_, ?_⟩
  · have := Real.neg_pi_div_two_le_arcsin (w 2 / nrm w)
    rw [le_div_iff₀ hpi]; linarith
  · have := Real.arcsin_le_pi_div_two (w 2 / nrm w)
    rw [div_le_iff₀ hpi]; linarith
  · have : -Real.pi < atan2 (w 1) (w 0) := Complex.neg_pi_lt_arg _
    rw [lt_div_iff₀ hpi]; linarith
  · have : atan2 (w 1) (w 0) ≤ Real.pi := Complex.arg_le_pi _
    rw [div_le_iff₀ hpi]; linarith
  · rw [e1, e2, hsq, Real.sqrt_sq hn.le, Real.sin_arcsin hb.1 hb.2]
    refine ext3 ?_ ?_ ?_ <;> simp only [Pi.smul_apply, smul_eq_mul, Matrix.cons_val_zero, Matrix.cons_val_one,
      Matrix.cons_val_two, Matrix.cons_val, Matrix.head_cons, Matrix.tail_cons]
    · rw [← mul_assoc, hcos]; exact p1.symm
    · rw [← mul_assoc, hcos]; exact p2.symm
    · field_simp

/-- **False of the code.** The vectors `v_inf_outgoing_km_s` and `v_inf_incoming_km_s` are opposite to the excess
velocities, the velocities of the transfer relative to the planets; the first is opposite to the asymptote whose
declination and right ascension the same solution reports. -/
theorem v_inf_opposite {s : Solution} {v1 v2 : V3} (h1 : s.vInit = some v1) (h2 : s.vFinal = some v2)
    (hne : v1 ≠ s.input.initial.vel) (hne2 : v2 ≠ s.input.final.vel) :
    ∃ vo vi, s.vInfOut = some vo ∧ s.vInfIn = some vi ∧ vo = -(v1 - s.input.initial.vel) ∧
      vi = -(v2 - s.input.final.vel) ∧ vo ≠ v1 - s.input.initial.vel ∧ vi ≠ v2 - s.input.final.vel := by
  rw [Solution.vInfOut, Solution.vInfIn, h1, h2]
  refine ⟨_, _, rfl, rfl, (neg_sub _ _).symm, (neg_sub _ _).symm, ?_, ?_⟩ <;> intro h
  · refine hne (sub_eq_zero.1 (?_ : v1 - s.input.initial.vel = 0))
    have h' : s.input.initial.vel - v1 = v1 - s.input.initial.vel := h
    rw [← neg_sub] at h'
    exact self_eq_neg.1 h'.symm
  · refine hne2 (sub_eq_zero.1 (?_ : v2 - s.input.final.vel = 0))
    have h' : s.input.final.vel - v2 = v2 - s.input.final.vel := h
    rw [← neg_sub] at h'
    exact self_eq_neg.1 h'.symm

/-- A solution whose velocities differ from those of the planets. -/
noncomputable def sampleSolution : Solution :=
  ⟨some ![0, 1, 0], some ![1, 0, 0], 0, quarter 1 1⟩

example : sampleSolution.vInit = some ![0, 1, 0] ∧ (![0, 1, 0] : V3) ≠ sampleSolution.input.initial.vel ∧
    (![1, 0, 0] : V3) ≠ sampleSolution.input.final.vel := by
  refine ⟨rfl, fun h => ?_, fun h => ?_⟩
  · have := congrFun h 1
    simp [sampleSolution, quarter] at this
  · have := congrFun h 0
    simp [sampleSolution, quarter] at this

/-- An input that is accepted. -/
example : fromPlanetaryStates (quarter 1 1).initial (quarter 1 1).final = some (quarter 1 1) :=
  planetary_states.2 ⟨rfl, ⟨1, rfl⟩, rfl⟩

/-- The derivatives at the transfer of least energy. -/
example : HasDerivAt (flight (1 / 2) 0) (tofP 0 (computeY 0 (1 / 2)) (flight (1 / 2) 0 0) (1 / 2)) 0 :=
  flight_deriv (by norm_num) (by norm_num) (by norm_num) 0

example (kind : Kind) := accepted_panics (i := (quarter 1 1).initial) (f := (quarter 1 1).final) (planetary_states.2 ⟨rfl, ⟨1, rfl⟩, rfl⟩) kind

example := transfer_orbits (s := sampleSolution) rfl rfl

example := departure_partial (s := sampleSolution) rfl (fun h => by have := congrFun h 1; simp [sampleSolution, quarter] at this)

example := v_inf_opposite (s := sampleSolution) rfl rfl (fun h => by have := congrFun h 1; simp [sampleSolution, quarter] at this)
  (fun h => by have := congrFun h 0; simp [sampleSolution, quarter] at this)

/-- **C144, in part.** For two different positions, aligned or not, and whatever the time of flight, neither solver panics. Missing: equal
positions, and the solutions which are not numbers (`gooding_zero_time`, `gooding_opposite`). -/
theorem degenerate_partial {i f : Orbit} {inp : Input} (h : fromPlanetaryStates i f = some inp) (hne : i.pos ≠ f.pos) (kind : Kind) :
    gooding inp kind ≠ .panic ∧ izzo inp kind ≠ .panic :=
  ⟨(accepted_panics h kind).1, fun hp => hne ((accepted_panics h kind).2.1 hp)⟩

example (kind : Kind) := degenerate_partial (i := (quarter 1 1).initial) (f := (quarter 1 1).final)
  (planetary_states.2 ⟨rfl, ⟨1, rfl⟩, rfl⟩) (fun h => by have := congrFun h 0; simp [quarter] at this) kind

end Verif.Lambert
