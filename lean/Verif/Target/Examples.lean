import Verif.Target.Witness
import Verif.Target.DualLinear
/-!
A world with a thruster, in which C111 fails, and concrete cases of the hypotheses of the theorems on the
targeter.
-/
namespace Verif.Target
open Matrix
open Verif.Spacecraft (Craft)
open Verif.MathU (V3 nrm pseudoInverse tryInverse)

/-! ### A thruster along x -/

/-- The time of a burn between two epochs, weighted by the thrust level, in minutes. -/
noncomputable def burnt (m : Option Burn) (t0 t : Int) : ℝ :=
  m.elim 0 fun b => b.level * ((max 0 (min t b.stop - max t0 b.start) : Int) : ℝ) / 60

/-- Full thrust during a minute adds one kilometre per second along x and uses one kilogram. -/
noncomputable def burning (v : Variable) (o : Objective Unit) : Cfg Unit Unit Unit 1 1 where
  prop := fun m _ x t => some { x with
    epoch := t, vel := fun i => x.vel i + if i = 0 then burnt m x.epoch t else 0, prop := x.prop - burnt m x.epoch t }
  transform := fun _ o => some o
  bplane := fun _ => none
  element := fun _ o => some (o.vel 0, Pi.single 3 1)
  dcm := fun _ _ => none
  secs := fun x => ⌊x⌋
  objs := fun _ => o
  vars := fun _ => v
  objFrame := none
  corrFrame := none
  iterations := 20

/-- The burn of a minute at a thrust level. -/
noncomputable def minute (L : ℝ) : Burn := { Burn.initial 0 60 with level := L }

theorem burning_flow (v : Variable) (o : Objective Unit) (L : ℝ) (x : Craft ℝ Unit) (hx : x.epoch = 0) :
    ∃ xf, (burning v o).flow true (minute L) x 60 = some xf ∧ xf.vel 0 = x.vel 0 + L ∧ xf.prop = x.prop - L ∧
      xf.epoch = 60 := by
  refine ⟨_, rfl, ?_, ?_, rfl⟩
  · show x.vel 0 + (if (0 : Fin 3) = 0 then burnt none x.epoch 0 else 0) +
      (if (0 : Fin 3) = 0 then burnt (some (minute L)) 0 60 else 0) +
      (if (0 : Fin 3) = 0 then burnt (some (minute L)) 60 60 else 0) = _
    rw [if_pos rfl, if_pos rfl, if_pos rfl]
    simp [burnt, minute, Burn.initial]
  · show x.prop - burnt none x.epoch 0 - burnt (some (minute L)) 0 60 - burnt (some (minute L)) 60 60 = _
    simp [burnt, minute, Burn.initial]

/-- The default variable for the thrust level. -/
noncomputable def lvl : Variable := Variable.ofVary .thrustLevel

theorem lvl_valid : lvl.Valid := by
  refine ⟨?_, ?_, ?_⟩
  · show ¬ (0.2 : ℝ) < 0
    norm_num
  · show ¬ (1 : ℝ) < 0
    norm_num
  · show ¬ (0.0001 : ℝ) > 1
    norm_num

/-- With a thruster, at rest. -/
noncomputable def armed : Craft ℝ Unit :=
  ⟨(), 0, ![7000, 0, 0], ![0, 0, 0], 100, 50, 0, 0, 0, 0, 0, some ⟨1, 300⟩, .coast, none, none⟩

theorem burning_start (v : Variable) (o : Objective Unit) : (burning v o).prop none none armed 0 = some armed := by
  have h1 : ∀ i, armed.vel i + (if i = 0 then (0 : ℝ) else 0) = armed.vel i := by intro i; split <;> simp
  have h2 : armed.prop - (0 : ℝ) = armed.prop := by simp
  show some ({ armed with epoch := 0, vel := fun i => armed.vel i + (if i = 0 then (0 : ℝ) else 0), prop := armed.prop - 0 } : Craft ℝ Unit) = _
  simp only [h1, h2]
  rfl

theorem lvl_try (o : Objective Unit) : (burning lvl o).tryAchieve armed 0 60 =
    (burning lvl o).loop armed 0 60 true 21 0 none (minute (9999 / 10000)) armed fun _ => 1 := by
  have hl : List.finRange 1 = [0] := rfl
  have hg : foldRes ((burning lvl o).guessOne true) [0] (Burn.initial 0 60, false, 0) =
      .ok (minute (9999 / 10000), true, 0) := by
    have : (burning lvl o).guessOne true (Burn.initial 0 60, false, 0) 0 = .ok (minute (9999 / 10000), true, 0) := by
      have hf : (burning lvl o).frameCheck lvl = .ok () := rfl
      have hi : lvl.comp.isFinite = true := rfl
      have hs0 : (burning lvl o).vars 0 = lvl := rfl
      have hc : (Burn.initial 0 60).guess (burning lvl o).secs lvl = .ok (minute (9999 / 10000)) := by
        show Res.ok { Burn.initial 0 60 with level := clamp01 (1 + -0.0001) } = _
        have : clamp01 (1 + -0.0001) = 9999 / 10000 := by
          rw [clamp01, if_neg (by norm_num), if_neg (by norm_num)]
          norm_num
        rw [this]
        rfl
      rw [Cfg.guessOne]
      simp only [hs0]
      rw [if_neg (not_not.2 lvl_valid), hf, ok_bind, if_pos hi, if_pos trivial, hc, ok_bind]
    rw [foldRes, this]
    rfl
  rw [Cfg.tryAchieve, if_neg (by simp), hl, burning_start]
  show Res.bind (foldRes ((burning lvl o).guessOne true) [0] (Burn.initial 0 60, false, 0)) _ = _
  rw [hg, ok_bind]
  rfl

/-- The objective: velocity along x, within one meter per second. -/
noncomputable def want (d : ℝ) : Objective Unit := ⟨.element (), d, 1 / 1000, 1, 0⟩

theorem lvl_jac (d L : ℝ) (h0 : 1 / 10000 ≤ L) (h1 : L ≤ 1) :
    (burning lvl (want d)).jacEntry true armed (minute L) 60 L (want d) lvl = .ok (-1) := by
  have hB : ∀ y, (burning lvl (want d)).bp y = some none := fun y => by
    rw [Cfg.bp, if_neg]
    simp [Cfg.isB, burning, want, Param.isB]
  have := level_jacobian_sign (C := burning lvl (want d)) (x := armed) (b := minute L) (t := 60) (o := want d) (v := lvl)
    (a := 0) (g := 1) rfl (by show (-0.0001 : ℝ) ≠ 0; norm_num)
    (by show 0 ≤ L + -0.0001; norm_num; linarith) (by show L + -0.0001 ≤ 1; norm_num; linarith)
    (fun L' => by
      obtain ⟨xf, k1, k2, -⟩ := burning_flow lvl (want d) L' armed rfl
      refine ⟨xf, _, none, Pi.single 3 1, k1, rfl, hB _, ?_⟩
      show Res.ok (xf.vel 0, _) = _
      rw [k2]
      show Res.ok ((0 : ℝ) + L', _) = _
      simp)
  have e : (0 : ℝ) + 1 * (minute L).level = L := by show (0 : ℝ) + 1 * L = L; ring
  rw [e] at this
  exact this

theorem lvl_eval (d L : ℝ) (h0 : 1 / 10000 ≤ L) (h1 : L ≤ 1) : ∃ o,
    (burning lvl (want d)).evaluate true armed (minute L) 60 =
      .ok ⟨o, fun _ => (want d).met L, fun _ => (want d).error L, of fun _ _ => -1⟩ ∧ o.vel 0 = L ∧
      ∃ xf, (burning lvl (want d)).flow true (minute L) armed 60 = some xf ∧ o = orbitOf xf ∧ xf.prop = 50 - L := by
  obtain ⟨xf, k1, k2, k3, -⟩ := burning_flow lvl (want d) L armed rfl
  have k2' : xf.vel 0 = L := by rw [k2]; show (0 : ℝ) + L = L; ring
  refine ⟨orbitOf xf, ?_, k2', xf, k1, rfl, k3⟩
  exact evaluate_one (C := burning lvl (want d)) (el := ()) (g := Pi.single 3 1) rfl rfl k1
    (by show some (xf.vel 0, _) = _; rw [k2']) (lvl_jac d L h0 h1)

theorem lvl_correct (d L c L' : ℝ) (h : lvl.bound (L + c) = L') :
    (burning lvl (want d)).burnCorr 0 60 (minute L) (fun _ => c) = .ok (minute L') := by
  have hl : List.finRange 1 = [0] := rfl
  rw [Cfg.burnCorr, hl]
  show Res.bind (Res.ok { minute L with level := lvl.bound (L + c) }) _ = _
  rw [h]
  rfl

theorem lvl_full {x : ℝ} (h : 1 < x) : lvl.bound x = 1 := by
  rw [Variable.bound, if_pos (by exact h)]
  rfl

theorem met_iff (d L : ℝ) : (want d).met L = true ↔ |d - L| ≤ 1 / 1000 := by
  rw [Objective.met, decide_eq_true_eq]
  show |1 * (d - L) + 0| ≤ 1 / 1000 ↔ _
  rw [one_mul, add_zero]

theorem err_eq (d L : ℝ) : (want d).error L = d - L := by
  show 1 * (d - L) + 0 = _
  ring

/-- C111, refuted. The velocity wanted is reached exactly with half thrust. The targeter with the default
thrust level variable starts from nearly full thrust, moves away from the solution because of the sign of
the Jacobian, and gives up. -/
theorem thrust_level_diverges : (burning lvl (want (1 / 2))).tryAchieve armed 0 60 = .err .ineffective ∧
    ∃ xf, (burning lvl (want (1 / 2))).flow true (minute (1 / 2)) armed 60 = some xf ∧ xf.vel 0 = 1 / 2 := by
  refine ⟨?_, ?_⟩
  · obtain ⟨o1, e1, -⟩ := lvl_eval (1 / 2) (9999 / 10000) (by norm_num) (by norm_num)
    obtain ⟨o2, e2, -⟩ := lvl_eval (1 / 2) 1 (by norm_num) le_rfl
    have hnot : ∀ L : ℝ, 1 / 1000 < |1 / 2 - L| → (want (1 / 2)).met L = false := fun L h => by
      rw [Bool.eq_false_iff, ne_eq, met_iff]
      linarith
    have hst : ∀ w, (burning lvl (want (1 / 2))).stateCorr w = .ok 0 := fun w => rfl
    have hap : (burning lvl (want (1 / 2))).applyCorr armed 0 = some armed := by
      show some (armed.add6 0) = _
      simp [Craft.add6]
    rw [lvl_try]
    rw [loop_next e1 (hnot _ (by norm_num [abs_of_neg])) rfl (by norm_num) (lvl_correct _ _ _ 1 (lvl_full (by
      rw [err_eq]; norm_num))) (hst _) hap]
    rw [loop_next e2 (hnot _ (by norm_num [abs_of_neg])) (by
      simp only [stalled, nrm_one, Option.elim, decide_eq_false_iff_not, err_eq]; norm_num [abs_of_pos, abs_of_neg])
      (by norm_num) (lvl_correct _ _ _ 1 (lvl_full (by rw [err_eq]; norm_num))) (hst _) hap]
    exact loop_stalled e2 (hnot _ (by norm_num [abs_of_neg])) (by
      simp only [stalled, nrm_one, Option.elim, decide_eq_true_eq]; norm_num)
  · obtain ⟨xf, k1, k2, -⟩ := burning_flow lvl (want (1 / 2)) (1 / 2) armed rfl
    exact ⟨xf, k1, by rw [k2]; show (0 : ℝ) + 1 / 2 = _; ring⟩

/-- C60, refuted for a finite burn. The propagation which achieves the objective uses almost one kilogram
of propellant; the achieved state has the propellant of the start. -/
theorem achieved_mass_wrong : ∃ s, (burning lvl (want (9999 / 10000))).tryAchieve armed 0 60 = .ok s ∧
    s.achieved.prop = 50 ∧
    ∃ xf, (burning lvl (want (9999 / 10000))).flow true (minute (9999 / 10000)) armed 60 = some xf ∧
      orbitOf xf = orbitOf s.achieved ∧ xf.prop = 50 - 9999 / 10000 := by
  obtain ⟨o1, e1, -, xf, k1, k2, k3⟩ := lvl_eval (9999 / 10000) (9999 / 10000) (by norm_num) (by norm_num)
  have hap : (burning lvl (want (9999 / 10000))).applyCorr armed 0 = some armed := by
    show some (armed.add6 0) = _
    simp [Craft.add6]
  rw [lvl_try, loop_last e1 ((met_iff _ _).2 (by norm_num)), Cfg.finish, if_pos rfl, ok_bind, hap]
  exact ⟨_, rfl, rfl, xf, k1, k2.symm, k3⟩

/-! ### The hypotheses are met -/

theorem still_arrives (v : Variable) (o : Objective Unit) (lf : Option Unit)
    (dcm : Orb Unit → Option (Matrix (Fin 3) (Fin 3) ℝ)) (n : Nat) :
    ∀ m hm x t y, (still v o lf dcm n).prop m hm x t = some y → y.epoch = t := by
  intro m hm x t y h
  cases h
  rfl

-- `objectives_met`, `achieved_keeps_mass`, `total_bounded_partial`, `corrected_reproduces_partial` and
-- `apply_accepts_partial` on a problem which needs two corrections.
example : ∃ s, (still (vx 4) (wantVx 7 1) none (fun _ => none) 100).tryAchieve atRest 0 60 = .ok s ∧
    s.achieved.epoch = 60 ∧ |s.errors 0| ≤ 1 / 1000 ∧ |s.correction 0 - 0| ≤ (s.iterations : ℝ) * 4 ∧
    (∃ xf, (still (vx 4) (wantVx 7 1) none (fun _ => none) 100).apply s = .ok xf ∧ orbitOf xf = orbitOf s.achieved) ∧
    s.achieved.prop = 50 := by
  obtain ⟨s, hs, -⟩ := total_exceeds_bounds
  obtain ⟨-, h1, -, y, -, h2⟩ := objectives_met hs (still_arrives _ _ _ _ _)
  obtain ⟨v, -, -, h3⟩ := h2 0
  obtain ⟨start, h4, h5, -⟩ := achieved_keeps_mass hs
  cases h4
  exact ⟨s, hs, h1, h3, (total_bounded_partial hs 0).2 rfl (by show (-5 : ℝ) ≤ 0; norm_num),
    apply_accepts_partial hs (fun _ => rfl) (fun f hf => by simp [still] at hf) rfl (fun _ => ⟨rfl, rfl⟩)
      (still_arrives _ _ _ _ _), h5⟩

example : ∃ s, (still (vx 4) (wantVx 7 1) none (fun _ => none) 100).tryAchieve atRest 0 60 = .ok s ∧
    ∃ xf, (still (vx 4) (wantVx 7 1) none (fun _ => none) 100).prop none none s.corrected 60 = some xf ∧
      orbitOf xf = orbitOf s.achieved := by
  obtain ⟨s, hs, -⟩ := total_exceeds_bounds
  exact ⟨s, hs, (corrected_reproduces_partial hs (fun _ => rfl) (fun f hf => by simp [still] at hf)).1⟩

-- `finite_burn_corrected`
example : ∃ s, (burning lvl (want (9999 / 10000))).tryAchieve armed 0 60 = .ok s ∧
    (burning lvl (want (9999 / 10000))).prop none none armed 0 = some s.corrected := by
  obtain ⟨s, hs, -⟩ := achieved_mass_wrong
  exact ⟨s, hs, finite_burn_corrected hs ⟨0, rfl⟩ rfl⟩

-- `to_mnvr_full_thrust`
example : ∃ s, (burning lvl (want (9999 / 10000))).tryAchieve armed 0 60 = .ok s ∧
    (burning lvl (want (9999 / 10000))).toMnvr s = .ok (Burn.initial s.corrected.epoch s.achieved.epoch) := by
  obtain ⟨o1, e1, -⟩ := lvl_eval (9999 / 10000) (9999 / 10000) (by norm_num) (by norm_num)
  have hap : (burning lvl (want (9999 / 10000))).applyCorr armed 0 = some armed := by
    show some (armed.add6 0) = _
    simp [Craft.add6]
  rw [lvl_try, loop_last e1 ((met_iff _ _).2 (by norm_num)), Cfg.finish, if_pos rfl, ok_bind, hap]
  exact ⟨_, rfl, to_mnvr_full_thrust _ rfl _ (by show (0 : ℝ) ≤ 1; norm_num)⟩

-- `gives_up_after`: with steps of at most one and two iterations allowed, 7 is not reached.
example : (still (vx 1) (wantVx 7 1) none (fun _ => none) 2).tryAchieve atRest 0 60 = .err .tooMany ∧
    ∃ l : List (Craft ℝ Unit × Burn), l.length = 3 := by
  have hl : ∀ x : ℝ, 1 < x → (vx 1).limited x = 1 := fun x hx => by
    show (if |x| > |(1 : ℝ)| then |(1 : ℝ)| * (if x < 0 then -1 else 1) else _) = 1
    rw [if_pos (by rw [abs_of_pos (by linarith)]; simpa using hx), if_neg (by linarith)]
    norm_num
  have hst : ∀ a b : ℝ, 0 < b → b + 1 ≤ a → stalled (some |a|) (fun _ : Fin 1 => b) = false := fun a b hb hab => by
    simp only [stalled, nrm_one, Option.elim, decide_eq_false_iff_not]
    have h1 : |b| = b := abs_of_pos hb
    have h2 : |a| = a := abs_of_pos (by linarith)
    have h3 : |b - a| = -(b - a) := abs_of_neg (by linarith)
    rw [h1, h2, h3]
    linarith
  have h0 : ({ atRest with epoch := 0 } : Craft ℝ Unit).vel 0 = 0 := rfl
  have h : (still (vx 1) (wantVx 7 1) none (fun _ => none) 2).tryAchieve atRest 0 60 = .err .tooMany := by
    rw [vx_try 1 7 1 (by norm_num), vx_next 7 1 (by rw [h0]; norm_num) (by norm_num) rfl (hl _ (by norm_num)),
      vx_next 6 1 (by rw [add6_vel0, h0]; norm_num) (by norm_num) (hst _ _ (by norm_num) (by norm_num)) (hl _ (by norm_num)),
      vx_next 5 1 (by rw [add6_vel0, add6_vel0, h0]; norm_num) (by norm_num) (hst _ _ (by norm_num) (by norm_num)) (hl _ (by norm_num))]
    rfl
  obtain ⟨l, hl, -⟩ := gives_up_after h
  exact ⟨h, l, hl⟩

-- `affine_solved_partial` and `factor_two_fails`
theorem still_plain (d mult : ℝ) : Plain (still (vx 4) (wantVx d mult) none (fun _ => none) 100) where
  state := fun _ => rfl
  valid := fun _ => by
    refine ⟨?_, ?_, ?_⟩
    · show ¬ (4 : ℝ) < 0
      norm_num
    · show ¬ (5 : ℝ) < 0
      norm_num
    · show ¬ (-5 : ℝ) > 5
      norm_num
  frame := rfl
  pert := fun _ => by show (1 / 10000 : ℝ) ≠ 0; norm_num
  guess := fun _ => rfl
  some_objective := by norm_num
  enough := le_rfl

theorem still_slopes (d mult : ℝ) :
    slopes (still (vx 4) (wantVx d mult) none (fun _ => none) 100) (of fun _ => Pi.single 3 1) = of fun _ _ => 1 := by
  ext i j
  simp only [slopes, of_apply]
  rw [Finset.sum_eq_single 3]
  · rw [if_pos (by rfl)]; simp
  · intro k _ hk
    rw [if_neg]
    show ¬ some 3 = some k.val
    intro e
    simp only [Option.some.injEq] at e
    exact hk (Fin.ext e.symm)
  · simp

theorem still_affine (d mult : ℝ) : Affine (still (vx 4) (wantVx d mult) none (fun _ => none) 100)
    ({ atRest with epoch := 0 } : Craft ℝ Unit) 60 (fun _ => 0) (of fun _ => Pi.single 3 1) := by
  intro c
  have hB : ∀ y, (still (vx 4) (wantVx d mult) none (fun _ => none) 100).bp y = some none := fun y => by
    rw [Cfg.bp, if_neg]
    simp [Cfg.isB, still, wantVx, Param.isB]
  refine ⟨_, _, none, rfl, rfl, hB _, fun i => ⟨Pi.single 3 1, ?_⟩⟩
  have : (({ atRest with epoch := 0 } : Craft ℝ Unit).add6 c).vel 0 = 0 + ((of fun (_ : Fin 1) => Pi.single (3 : Fin 6) (1 : ℝ)) *ᵥ c) i := by
    show (0 : ℝ) + c 3 = 0 + Pi.single (3 : Fin 6) (1 : ℝ) ⬝ᵥ c
    rw [single_one_dotProduct]
  show Res.ok ((({ atRest with epoch := 0 } : Craft ℝ Unit).add6 c).vel 0, _) = _
  rw [this]

theorem still_newton (d mult : ℝ) (hd : |mult * d| ≤ 4) :
    ∃ P, Newton (still (vx 4) (wantVx d mult) none (fun _ => none) 100) (fun _ => 0) (of fun _ => Pi.single 3 1) P := by
  obtain ⟨P, hP, hPe⟩ := pinv_one (q := 1) one_ne_zero
  refine ⟨P, by rw [still_slopes, hP], fun j => ?_⟩
  rw [hPe]
  show |(mult * (d - 0) + 0) / 1| ≤ 4 ∧ (-5 : ℝ) ≤ (mult * (d - 0) + 0) / 1 ∧ (mult * (d - 0) + 0) / 1 ≤ 5
  rw [sub_zero, add_zero, div_one]
  have := abs_le.1 hd
  exact ⟨hd, by linarith, by linarith⟩

example : ∃ s, (still (vx 4) (wantVx 3 1) none (fun _ => none) 100).tryAchieve atRest 0 60 = .ok s ∧ s.iterations ≤ 1 ∧
    (s.iterations = 1 → ∀ i, s.errors i = 0) := by
  obtain ⟨P, hP⟩ := still_newton 3 1 (by norm_num [abs_of_pos])
  exact affine_solved_partial (still_plain 3 1) rfl hP (still_affine 3 1) (fun _ => rfl)
    (fun _ => by show (0 : ℝ) ≤ 1 / 1000; norm_num) (by show 1 ≤ 100; omega)

example : (still (vx 4) (wantVx 1 2) none (fun _ => none) 100).tryAchieve atRest 0 60 = .err .ineffective := by
  obtain ⟨P, hP⟩ := still_newton 1 2 (by norm_num [abs_of_pos])
  exact factor_two_fails (still_plain 1 2) rfl hP (still_affine 1 2) (fun _ => rfl) (by show 1 ≤ 100; omega)
    ⟨0, by show (1 / 1000 : ℝ) < |2 * (1 - 0) + 0|; norm_num [abs_of_pos]⟩

-- `angle_rate_solution`: a targeter with the rate of the azimuth of the thrust, guess 1/10, on a spacecraft
-- without thruster, "solves" by moving the spacecraft by 100 meters along y.
noncomputable def aDot : Variable := { Variable.ofVary .mnvrAlphaDot with guess := 1 / 10 }

example : ∃ s, (still aDot (wantVx 0 1) none (fun _ => none) 100).tryAchieve atRest 0 60 = .ok s ∧
    s.corrected = ({ atRest with epoch := 0 } : Craft ℝ Unit).add6 (Pi.single 1 (1 / 10)) ∧
    (still aDot (wantVx 0 1) none (fun _ => none) 100).toMnvr s = .err .notFinite := by
  have hai : ∀ x : ℝ, addIdx 0 (Vary.mnvrAlphaDot).vecIndex x = .ok (Pi.single 1 x) := fun x => by
    rw [addIdx]
    show (if h : 1 < 6 then Res.ok (Function.update (0 : Fin 6 → ℝ) ⟨1, h⟩ ((0 : Fin 6 → ℝ) ⟨1, h⟩ + x)) else Res.panic) = _
    rw [dif_pos (by omega)]
    simp [Pi.single]
  have hv : aDot.Valid := by
    have := Real.pi_pos
    refine ⟨?_, ?_, ?_⟩
    · show ¬ Real.pi / 8 < 0
      linarith
    · show ¬ Real.pi < 0
      linarith
    · show ¬ (0 : ℝ) > Real.pi
      linarith
  have hl : List.finRange 1 = [0] := rfl
  have hg : foldRes ((still aDot (wantVx 0 1) none (fun _ => none) 100).guessOne false) [0] (Burn.initial 0 60, false, 0) =
      .ok (Burn.initial 0 60, false, Pi.single 1 (1 / 10)) := by
    have : (still aDot (wantVx 0 1) none (fun _ => none) 100).guessOne false (Burn.initial 0 60, false, 0) 0 =
        .ok (Burn.initial 0 60, false, Pi.single 1 (1 / 10)) := by
      have hf : (still aDot (wantVx 0 1) none (fun _ => none) 100).frameCheck aDot = .ok () := rfl
      have hc : addIdx 0 aDot.comp.vecIndex aDot.guess = .ok (Pi.single 1 (1 / 10)) := hai _
      have hi : ¬ aDot.comp.isFinite = true := by simp [aDot, Variable.ofVary, Vary.isFinite]
      have hs0 : (still aDot (wantVx 0 1) none (fun _ => none) 100).vars 0 = aDot := rfl
      rw [Cfg.guessOne]
      simp only [hs0]
      rw [if_neg (not_not.2 hv), hf]
      simp only [Res.bind, if_neg hi, hc]
    rw [foldRes, this]
    rfl
  have hev : ∀ x : Craft ℝ Unit, ∃ q, (still aDot (wantVx 0 1) none (fun _ => none) 100).evaluate false x (Burn.initial 0 60) 60 =
      .ok ⟨⟨x.frame, 60, x.pos, x.vel⟩, fun _ => (wantVx 0 1).met (x.vel 0), fun _ => (wantVx 0 1).error (x.vel 0),
        of fun _ _ => q⟩ := fun x =>
    ⟨_, still_evaluate (el := ()) rfl (still_jac (el := ()) rfl rfl (hai _) rfl)⟩
  have hs : ∃ s, (still aDot (wantVx 0 1) none (fun _ => none) 100).tryAchieve atRest 0 60 = .ok s ∧ s.correction 0 = 1 / 10 := by
    obtain ⟨q, hq⟩ := hev (({ atRest with epoch := 0 } : Craft ℝ Unit).add6 (Pi.single 1 (1 / 10)))
    rw [Cfg.tryAchieve, if_neg (by simp), hl]
    show ∃ s, Res.bind (foldRes ((still aDot (wantVx 0 1) none (fun _ => none) 100).guessOne false) [0]
      (Burn.initial 0 60, false, 0)) _ = Res.ok s ∧ _
    rw [hg, ok_bind]
    show ∃ s, (still aDot (wantVx 0 1) none (fun _ => none) 100).loop { atRest with epoch := 0 } 0 60 false 101 0 none
      (Burn.initial 0 60) (({ atRest with epoch := 0 } : Craft ℝ Unit).add6 (Pi.single 1 (1 / 10))) (fun _ => 1 / 10) = _ ∧ _
    rw [loop_last hq]
    · obtain ⟨c, hc⟩ := stateCorr_total (still aDot (wantVx 0 1) none (fun _ => none) 100) fun _ => 1 / 10
      rw [Cfg.finish, if_neg (by simp), hc]
      exact ⟨_, rfl, rfl⟩
    · show (wantVx 0 1).met _ = true
      rw [Objective.met, decide_eq_true_eq]
      have : (({ atRest with epoch := 0 } : Craft ℝ Unit).add6 (Pi.single 1 (1 / 10))).vel 0 = 0 := by
        show (0 : ℝ) + (Pi.single 1 (1 / 10) : Fin 6 → ℝ) 3 = 0
        simp
      rw [this]
      show |1 * (0 - 0) + 0| ≤ (1 / 1000 : ℝ)
      norm_num
  obtain ⟨s, hs, hc⟩ := hs
  obtain ⟨⟨start, h1, h2⟩, h3⟩ := angle_rate_solution hs (fun _ => Or.inl rfl) rfl
  cases h1
  rw [Fin.sum_univ_one, hc] at h2
  exact ⟨s, hs, h2, h3⟩

-- `dual_solution_partial`: one correction of 3 km/s.
example : ∃ s, (still (vx 4) (wantVx 3 1) none (fun _ => none) 100).tryDual atRest 0 60 = .ok s ∧ s.iterations = 1 ∧
    s.corrected.vel 0 = 3 ∧
    (still (vx 4) (wantVx 3 1) none (fun _ => none) 100).prop none none s.corrected.resetStm 60 = some s.achieved := by
  have hB : ∀ y, (still (vx 4) (wantVx 3 1) none (fun _ => none) 100).bp y = some none := fun y => by
    rw [Cfg.bp, if_neg]
    simp [Cfg.isB, still, wantVx, Param.isB]
  have hev : ∀ x : Craft ℝ Unit, (still (vx 4) (wantVx 3 1) none (fun _ => none) 100).dualEval x 60 =
      .ok ({ x.resetStm with epoch := 60 }, ⟨⟨x.frame, 60, x.pos, x.vel⟩, fun _ => (wantVx 3 1).met (x.vel 0),
        fun _ => (wantVx 3 1).error (x.vel 0), of fun _ _ => 1⟩) := by
    intro x
    have hcol : Pi.single (3 : Fin 6) (1 : ℝ) ⬝ᵥ stmColumn 1 3 = 1 := by
      rw [single_one_dotProduct]
      simp [stmColumn]
    have hr : seqFin 1 (fun i => ((still (vx 4) (wantVx 3 1) none (fun _ => none) 100).value none
        (orbitOf { x.resetStm with epoch := 60 }) ((still (vx 4) (wantVx 3 1) none (fun _ => none) 100).objs i).param).bind fun w =>
        (seqFin 1 fun j => (unwrapO ((still (vx 4) (wantVx 3 1) none (fun _ => none) 100).vars j).comp.stateIndex).bind
          fun k => Res.ok (w.2 ⬝ᵥ stmColumn 1 k)).bind fun row => Res.ok (w.1, row)) = .ok fun _ => (x.vel 0, fun _ => 1) := by
      rw [seqFin_ok]
      intro i
      refine bind_ok.2 ⟨(x.vel 0, Pi.single 3 1), rfl, bind_ok.2 ⟨fun _ => 1, seqFin_ok.2 fun j => ?_, rfl⟩⟩
      exact bind_ok.2 ⟨3, rfl, congrArg Res.ok hcol⟩
    exact bind_ok.2 ⟨_, rfl, bind_ok.2 ⟨1, rfl, bind_ok.2 ⟨_, rfl, bind_ok.2 ⟨none, orErr_ok.2 (hB _),
      bind_ok.2 ⟨_, hr, rfl⟩⟩⟩⟩⟩
  have hc : ∀ (x : Craft ℝ Unit) (w : Fin 1 → ℝ), (still (vx 4) (wantVx 3 1) none (fun _ => none) 100).dualCorr x w =
      .ok (x.add6 (Pi.single 3 (w 0))) := fun x w => rfl
  have hs : ∃ s, (still (vx 4) (wantVx 3 1) none (fun _ => none) 100).tryDual atRest 0 60 = .ok s ∧ s.iterations = 1 ∧
      s.corrected.vel 0 = 3 := by
    obtain ⟨P, hP, hPe⟩ := pinv_one (q := 1) one_ne_zero
    have hm : ∀ a : ℝ, (wantVx 3 1).met a = true ↔ |3 - a| ≤ 1 / 1000 := fun a => by
      rw [Objective.met, decide_eq_true_eq]
      show |1 * (3 - a) + 0| ≤ 1 / 1000 ↔ _
      rw [one_mul, add_zero]
    have he : (wantVx 3 1).error 0 = 3 := by
      show (1 : ℝ) * (3 - 0) + 0 = 3
      norm_num
    have hst : (vx 4).dualStep 3 = 3 := by
      show (if |(3 : ℝ)| > 4 then _ else if (3 : ℝ) > 5 then 5 else if (3 : ℝ) < -5 then -5 else 3) = 3
      rw [if_neg (by norm_num), if_neg (by norm_num), if_neg (by norm_num)]
    have v0 : (({ atRest with epoch := 0 } : Craft ℝ Unit).add6 (Pi.single 3 0)).vel 0 = 0 := by
      rw [add6_vel0]
      show (0 : ℝ) + 0 = 0
      norm_num
    rw [Cfg.tryDual, if_neg (by simp)]
    show ∃ s, (still (vx 4) (wantVx 3 1) none (fun _ => none) 100).dualLoop { atRest with epoch := 0 } 60 101 0 none
      (({ atRest with epoch := 0 } : Craft ℝ Unit).add6 (Pi.single 3 0)) (fun _ => 0) = .ok s ∧ _
    rw [Cfg.dualLoop, hev, ok_bind, if_neg (by
      intro h
      have := (hm _).1 (h 0)
      rw [v0] at this
      norm_num at this), if_neg (by simp [stalled]), v0]
    simp only [hP, he]
    show ∃ s, Res.bind (Res.ok P) _ = .ok s ∧ _
    rw [ok_bind]
    simp only [hPe]
    rw [hc, ok_bind, Cfg.dualLoop, hev, ok_bind, if_pos (by
      intro i
      refine (hm _).2 ?_
      rw [add6_vel0]
      show |(3 : ℝ) - ((({ atRest with epoch := 0 } : Craft ℝ Unit).add6 (Pi.single 3 0)).vel 0 + (vx 4).dualStep (3 / 1))| ≤ _
      rw [v0, div_one, hst]
      norm_num), hc, ok_bind]
    refine ⟨_, rfl, rfl, ?_⟩
    show (({ atRest with epoch := 0 } : Craft ℝ Unit).add6 (Pi.single 3 (0 + (vx 4).dualStep (3 / 1)))).vel 0 = 3
    rw [add6_vel0, div_one, hst]
    show (0 : ℝ) + (0 + 3) = 3
    norm_num
  obtain ⟨s, h1, h2, h3⟩ := hs
  exact ⟨s, h1, h2, h3, (dual_solution_partial h1).1⟩

-- `dual_unsupported`
example : (burning lvl (want 1)).tryDual armed 0 60 = .err .unsupported :=
  dual_unsupported (by simp) (burning_start _ _) ⟨0, (stateIndex_none _).1 rfl⟩

-- `dual_affine_solved`: the velocity along x of a spacecraft at rest.
example : ∃ s, (still (vx 4) (wantVx 3 1) none (fun _ => none) 100).tryDual atRest 0 60 = .ok s ∧ s.iterations ≤ 1 ∧
    (s.iterations = 1 → ∀ i, s.errors i = 0) := by
  obtain ⟨P, hP, hPe⟩ := pinv_one (q := 1) one_ne_zero
  have hsl : slopesOf (still (vx 4) (wantVx 3 1) none (fun _ => none) 100) (of fun _ => Pi.single 3 1) = of fun _ _ => 1 := by
    ext i j
    rw [slopesOf_eq (k := 3) i rfl]
    simp
  have hB : ∀ y, (still (vx 4) (wantVx 3 1) none (fun _ => none) 100).bp y = some none := fun y => by
    rw [Cfg.bp, if_neg]
    simp [Cfg.isB, still, wantVx, Param.isB]
  have ha : AffineStm (still (vx 4) (wantVx 3 1) none (fun _ => none) 100) ({ atRest with epoch := 0 } : Craft ℝ Unit) 60
      (fun _ => 0) (of fun _ => Pi.single 3 1) := by
    intro c
    refine ⟨_, _, none, 1, rfl, rfl, rfl, hB _, fun i => ⟨Pi.single 3 1, ?_, fun k => ?_⟩⟩
    · have : (({ atRest with epoch := 0 } : Craft ℝ Unit).add6 c).vel 0 =
          0 + ((of fun (_ : Fin 1) => Pi.single (3 : Fin 6) (1 : ℝ)) *ᵥ c) i := by
        show (0 : ℝ) + c 3 = 0 + Pi.single (3 : Fin 6) (1 : ℝ) ⬝ᵥ c
        rw [single_one_dotProduct]
      show Res.ok ((({ atRest with epoch := 0 } : Craft ℝ Unit).add6 c).vel 0, _) = _
      rw [this]
    · rw [Finset.sum_eq_single 3]
      · simp only [of_apply, Pi.single_apply, one_apply, Fin.ext_iff]
        simp [eq_comm]
      · intro b _ hb
        simp [hb]
      · simp
  refine dual_affine_solved (by norm_num) le_rfl (fun _ => ⟨3, rfl⟩) (fun _ => rfl) rfl ha (by rw [hsl, hP]) (fun j => ?_)
    (fun _ => rfl) (fun _ => by show (0 : ℝ) ≤ 1 / 1000; norm_num) (by show 1 ≤ 100; omega)
  rw [hPe]
  show |(1 * (3 - 0) + 0) / 1| ≤ (4 : ℝ) ∧ (-5 : ℝ) ≤ (1 * (3 - 0) + 0) / 1 ∧ (1 * (3 - 0) + 0) / 1 ≤ (5 : ℝ)
  norm_num [abs_of_pos]

end Verif.Target
