import Verif.Target.Examples
/-!
C243: the initial guesses of the variables and the constructors of the targeter.
-/
namespace Verif.Target
open Matrix
open Verif.Spacecraft (Craft)
open Verif.MathU (V3 nrm pseudoInverse tryInverse)

variable {Fr E LF : Type} {nv no : Nat}

/-! ### Constructors -/

/-- `Targeter::delta_v`, on a targeter with the propagator and the objectives. md/opti/targeter.rs:70-84. -/
noncomputable def Cfg.deltaV (C : Cfg Fr E LF 3 no) : Cfg Fr E LF 3 no :=
  { C with
    vars := ![Variable.ofVary .velocityX, Variable.ofVary .velocityY, Variable.ofVary .velocityZ]
    iterations := 100, objFrame := none, corrFrame := none }

/-- `Targeter::delta_r`. md/opti/targeter.rs:87-100. -/
noncomputable def Cfg.deltaR (C : Cfg Fr E LF 3 no) : Cfg Fr E LF 3 no :=
  { C with
    vars := ![Variable.ofVary .positionX, Variable.ofVary .positionY, Variable.ofVary .positionZ]
    iterations := 100, objFrame := none, corrFrame := none }

/-- `Targeter::vnc`; `f` is the frame VNC. md/opti/targeter.rs:103-116. -/
noncomputable def Cfg.vnc (C : Cfg Fr E LF 3 no) (f : LF) : Cfg Fr E LF 3 no :=
  { C with
    vars := ![Variable.ofVary .velocityX, Variable.ofVary .velocityY, Variable.ofVary .velocityZ]
    iterations := 100, objFrame := none, corrFrame := some f }

/-- `Targeter::thrust_dir`. md/opti/targeter.rs:121-138. -/
noncomputable def Cfg.thrustDir (C : Cfg Fr E LF 4 no) : Cfg Fr E LF 4 no :=
  { C with
    vars := ![Variable.ofVary .thrustX, Variable.ofVary .thrustY, Variable.ofVary .thrustZ, Variable.ofVary .thrustLevel]
    iterations := 20, objFrame := none, corrFrame := none }

/-- `Targeter::vnc_with_components`. md/opti/targeter.rs:229-242. -/
def Cfg.vncWith (C : Cfg Fr E LF nv no) (f : LF) (vars : Fin nv → Variable) : Cfg Fr E LF nv no :=
  { C with vars := vars, iterations := 100, objFrame := none, corrFrame := some f }

/-! ### State variables -/

/-- The variables which change the state: what each of them names. -/
def Names : Vary → Fin 6 → Prop
  | .positionX, k => k = 0
  | .positionY, k => k = 1
  | .positionZ, k => k = 2
  | .velocityX, k => k = 3
  | .velocityY, k => k = 4
  | .velocityZ, k => k = 5
  | _, _ => False

instance (v : Vary) (k : Fin 6) : Decidable (Names v k) := by
  cases v <;> unfold Names <;> infer_instance

theorem names_moves {v : Variable} (h : ∃ k, Names v.comp k) (k : Fin 6) : moves v k ↔ Names v.comp k := by
  obtain ⟨c, p, g, s, M, m⟩ := v
  obtain ⟨j, hj⟩ := h
  unfold moves
  cases c <;> simp only [Names] at hj ⊢ <;> fin_cases k <;> simp [Vary.isFinite, Vary.vecIndex]

theorem names_state {v : Vary} (h : ∃ k, Names v k) : v.isFinite = false := by
  obtain ⟨j, hj⟩ := h
  cases v <;> simp only [Names] at hj <;> rfl

/-- The sum of the guesses which name a component. -/
noncomputable def guessed (C : Cfg Fr E LF nv no) (k : Fin 6) : ℝ := ∑ i, if Names (C.vars i).comp k then (C.vars i).guess else 0

/-- The state moved by the guesses. -/
noncomputable def movedBy (x : Craft ℝ Fr) (d : Fin 6 → ℝ) : Craft ℝ Fr :=
  { x with
    pos := ![x.pos 0 + d 0, x.pos 1 + d 1, x.pos 2 + d 2]
    vel := ![x.vel 0 + d 3, x.vel 1 + d 4, x.vel 2 + d 5] }

theorem add6_moved (x : Craft ℝ Fr) (d : Fin 6 → ℝ) : x.add6 d = movedBy x d := by
  unfold Craft.add6 movedBy
  congr 1 <;> funext i <;> fin_cases i <;> rfl

theorem guess_total (C : Cfg Fr E LF nv no) (thr : Bool) (hn : ∀ i, (C.vars i).comp.isFinite = false) (hv : ∀ i, (C.vars i).Valid)
    (hf : ∀ i, C.frameCheck (C.vars i) = .ok ()) (b : Burn) : ∀ (l : List (Fin nv)) (c : Fin 6 → ℝ),
    ∃ c', foldRes (C.guessOne thr) l (b, false, c) = .ok (b, false, c')
  | [], c => ⟨c, rfl⟩
  | i :: l, c => by
    obtain ⟨d, hd⟩ := addIdx_total (c := c) (hn i) (C.vars i).guess
    have : C.guessOne thr (b, false, c) i = .ok (b, false, d) := by
      unfold Cfg.guessOne
      rw [if_neg (not_not.2 (hv i)), hf i, ok_bind, if_neg (by rw [hn i]; simp), hd, ok_bind]
    obtain ⟨c', hc'⟩ := guess_total C thr hn hv hf b l d
    exact ⟨c', by rw [foldRes, this, ok_bind]; exact hc'⟩

/-- C243. A guess that meets the objectives is the solution: with variables of the state only, when the state moved by the guesses meets
them, `try_achieve_from` returns that state, without any iteration, and the guesses as the correction. -/
theorem good_guess_kept_partial (C : Cfg Fr E LF nv no) (hno : no ≠ 0) (hn : ∀ i, ∃ k, Names (C.vars i).comp k)
    (hv : ∀ i, (C.vars i).maxStep ≥ 0 ∧ (C.vars i).maxValue ≥ 0 ∧ (C.vars i).minValue ≤ (C.vars i).maxValue) (hf : C.corrFrame = none)
    {x0 start : Craft ℝ Fr} {t0 t : Int} (hs : C.prop none none x0 t0 = some start) {ev : Eval Fr nv no}
    (he : C.evaluate false (movedBy start (guessed C)) (Burn.initial t0 t) t = .ok ev) (hmet : ∀ i, ev.met i = true) :
    C.tryAchieve x0 t0 t =
      .ok ⟨movedBy start (guessed C), withOrbit start ev.xf, fun i => (C.vars i).guess, ev.err, 0⟩ := by
  have hst : ∀ i, (C.vars i).comp.isFinite = false := fun i => names_state (hn i)
  obtain ⟨c, hc⟩ := guess_total C start.thruster.isSome hst
    (fun i => ⟨not_lt.2 (hv i).1, not_lt.2 (hv i).2.1, not_lt.2 (hv i).2.2⟩) (fun i => by rw [Cfg.frameCheck, hf]; rfl)
    (Burn.initial t0 t) (List.finRange nv) 0
  have h1 : C.stateCorr (fun i => (C.vars i).guess) = .ok c := (guess_corr hc).1
  have hcg : c = guessed C := by
    funext k
    rw [stateCorr_ok h1]
    exact Finset.sum_congr rfl fun i _ => by simp only [names_moves (hn i)]
  subst hcg
  have ha : C.applyCorr start (guessed C) = some (movedBy start (guessed C)) := by
    rw [Cfg.applyCorr, hf, ← add6_moved]
    rfl
  rw [Cfg.tryAchieve, if_neg hno, hs]
  show Res.bind (foldRes _ _ _) _ = _
  rw [hc, ok_bind]
  show Res.bind (orErr (C.applyCorr start (guessed C)) .astro) _ = _
  rw [ha]
  show C.loop start t0 t false (C.iterations + 1) 0 none (Burn.initial t0 t) (movedBy start (guessed C)) _ = _
  rw [Cfg.loop, he, ok_bind, if_pos hmet, Cfg.finish, if_neg (by simp), h1, ok_bind, ha]
  rfl

/-! ### Thrust variables -/

/-- The direction of the thrust, its rates and accelerations, and its level. -/
def Thrusts : Vary → Prop
  | .thrustX | .thrustY | .thrustZ | .thrustLevel => True
  | .thrustRateX | .thrustRateY | .thrustRateZ | .thrustAccelX | .thrustAccelY | .thrustAccelZ => True
  | _ => False

/-- The same targeter with other guesses. -/
def Cfg.withGuesses (C : Cfg Fr E LF nv no) (g : Fin nv → ℝ) : Cfg Fr E LF nv no :=
  { C with vars := fun i => { C.vars i with guess := g i } }

/-- The solution with another correction. -/
def Sol.shift (s : Sol Fr nv no) (d : Fin nv → ℝ) : Sol Fr nv no := { s with correction := fun i => s.correction i + d i }

theorem guess_unused {secs : ℝ → Int} {b : Burn} {v : Variable} (h : Thrusts v.comp) (g : ℝ) :
    b.guess secs { v with guess := g } = b.guess secs v := by
  obtain ⟨c, p, g', s, M, m⟩ := v
  cases c <;> first | rfl | exact h.elim

theorem loop_guesses (C : Cfg Fr E LF nv no) (g : Fin nv → ℝ) (start : Craft ℝ Fr) (t0 t : Int) (d : Fin nv → ℝ) : ∀ (n it : Nat)
    (prev : Option ℝ) (b : Burn) (x : Craft ℝ Fr) (total : Fin nv → ℝ),
    (C.withGuesses g).loop start t0 t true n it prev b x (fun i => total i + d i) =
      (C.loop start t0 t true n it prev b x total).bind fun s => .ok (s.shift d)
  | 0, _, _, _, _, _ => rfl
  | n + 1, it, prev, b, x, total => by
    have e1 : (C.withGuesses g).evaluate true x b t = C.evaluate true x b t := rfl
    have e2 : ∀ w, (C.withGuesses g).burnCorr t0 t b w = C.burnCorr t0 t b w := fun w => rfl
    have e3 : ∀ w, (C.withGuesses g).stateCorr w = C.stateCorr w := fun w => rfl
    have e4 : ∀ x c, (C.withGuesses g).applyCorr x c = C.applyCorr x c := fun x c => rfl
    have e5 : ∀ i w, ((C.withGuesses g).vars i).limited w = (C.vars i).limited w := fun i w => rfl
    rw [Cfg.loop, Cfg.loop, e1]
    cases hev : C.evaluate true x b t with
    | err e => rfl
    | panic => rfl
    | ok ev =>
      rw [ok_bind, ok_bind]
      by_cases hm : ∀ i, ev.met i = true
      · rw [if_pos hm, if_pos hm, Cfg.finish, Cfg.finish, if_pos rfl, if_pos rfl, ok_bind, ok_bind, e4]
        cases C.applyCorr start 0 <;> rfl
      · rw [if_neg hm, if_neg hm]
        by_cases hst : stalled prev ev.err = true
        · rw [if_pos hst, if_pos hst]
          rfl
        · rw [if_neg hst, if_neg hst]
          cases hP : pseudoInverse ev.jac with
          | none => rfl
          | some P =>
            show Res.bind ((C.withGuesses g).burnCorr t0 t b (P *ᵥ ev.err)) _ = Res.bind (Res.bind (C.burnCorr t0 t b (P *ᵥ ev.err)) _) _
            rw [e2]
            cases C.burnCorr t0 t b (P *ᵥ ev.err) with
            | err e => rfl
            | panic => rfl
            | ok b' =>
              rw [ok_bind, ok_bind]
              simp only [e5, e3]
              cases C.stateCorr fun i => (C.vars i).limited ((P *ᵥ ev.err) i) with
              | err e => rfl
              | panic => rfl
              | ok c =>
                rw [ok_bind, ok_bind, e4]
                cases C.applyCorr x c with
                | none => rfl
                | some x' =>
                  have := loop_guesses C g start t0 t d n (it + 1) (some (nrm ev.err)) b' x'
                    (fun i => total i + (C.vars i).limited ((P *ᵥ ev.err) i))
                  simp only [add_right_comm] at this
                  exact this

theorem guessOne_unused (C : Cfg Fr E LF nv no) (h : ∀ i, Thrusts (C.vars i).comp) (g : Fin nv → ℝ) (thr : Bool) :
    (C.withGuesses g).guessOne thr = C.guessOne thr := by
  funext s i
  have e1 : ((C.withGuesses g).vars i).Valid ↔ (C.vars i).Valid := Iff.rfl
  have e2 : (C.withGuesses g).frameCheck ((C.withGuesses g).vars i) = C.frameCheck (C.vars i) := rfl
  have e3 : s.1.guess (C.withGuesses g).secs ((C.withGuesses g).vars i) = s.1.guess C.secs (C.vars i) := guess_unused (h i) (g i)
  have e4 : (C.vars i).comp.isFinite = true := by
    have := h i
    cases hc : (C.vars i).comp <;> rw [hc] at this <;> first | rfl | exact this.elim
  unfold Cfg.guessOne
  rw [e2, e3]
  have e5 : ((C.withGuesses g).vars i).comp.isFinite = true := e4
  simp only [e1, e4, e5, if_true]

/-- **C243 refuted.** With variables of the thrust only, the guesses are not used: they change nothing but the correction reported,
which is theirs plus that of the targeter started elsewhere. -/
theorem thrust_guess_unused (C : Cfg Fr E LF nv no) (hnv : nv ≠ 0) (h : ∀ i, Thrusts (C.vars i).comp) (g : Fin nv → ℝ) (x0 : Craft ℝ Fr)
    (t0 t : Int) : (C.withGuesses g).tryAchieve x0 t0 t =
      (C.tryAchieve x0 t0 t).bind fun s => .ok (s.shift fun i => g i - (C.vars i).guess) := by
  unfold Cfg.tryAchieve
  split
  · rfl
  · rw [show (C.withGuesses g).prop none none x0 t0 = C.prop none none x0 t0 from rfl]
    cases C.prop none none x0 t0 with
    | none => rfl
    | some start =>
      show Res.bind (foldRes _ _ _) _ = Res.bind (Res.bind (foldRes _ _ _) _) _
      rw [guessOne_unused C h g]
      cases hfold : foldRes (C.guessOne start.thruster.isSome) (List.finRange nv) (Burn.initial t0 t, false, 0) with
      | err e => rfl
      | panic => rfl
      | ok r =>
        have hfin : r.2.1 = true := by
          rw [(guess_corr hfold).2, Cfg.isFinite, decide_eq_true_eq]
          refine ⟨⟨0, Nat.pos_of_ne_zero hnv⟩, ?_⟩
          have := h ⟨0, Nat.pos_of_ne_zero hnv⟩
          cases hc : (C.vars ⟨0, Nat.pos_of_ne_zero hnv⟩).comp <;> rw [hc] at this <;> first | rfl | exact this.elim
        rw [ok_bind, ok_bind, hfin, if_pos rfl, if_pos rfl, ok_bind, ok_bind]
        have := loop_guesses C g start t0 t (fun i => g i - (C.vars i).guess) (C.iterations + 1) 0 none r.1 start
          (fun i => (C.vars i).guess)
        simp only [add_sub_cancel] at this
        exact this

/-- **C243 refuted.** Half thrust reaches the velocity wanted; the targeter whose guess is half thrust fails. -/
theorem good_thrust_guess_missed : ((burning lvl (want (1 / 2))).withGuesses fun _ => 1 / 2).tryAchieve armed 0 60 = .err .ineffective ∧
    ∃ xf, (burning lvl (want (1 / 2))).flow true (minute (1 / 2)) armed 60 = some xf ∧ xf.vel 0 = 1 / 2 := by
  refine ⟨?_, thrust_level_diverges.2⟩
  rw [thrust_guess_unused (burning lvl (want (1 / 2))) (by simp) (fun _ => trivial), thrust_level_diverges.1]
  rfl

/-- **C243 refuted.** A solution flown with nearly full thrust is reported with the guess, half thrust. -/
theorem wrong_guess_reported : ∃ s, ((burning lvl (want (9999 / 10000))).withGuesses fun _ => 1 / 2).tryAchieve armed 0 60 = .ok s ∧
    s.correction 0 = 1 / 2 ∧
    ∃ xf, (burning lvl (want (9999 / 10000))).flow true (minute (9999 / 10000)) armed 60 = some xf ∧ orbitOf xf = orbitOf s.achieved := by
  obtain ⟨o1, e1, -, xf, k1, k2, k3⟩ := lvl_eval (9999 / 10000) (9999 / 10000) (by norm_num) (by norm_num)
  have hap : (burning lvl (want (9999 / 10000))).applyCorr armed 0 = some armed := by
    show some (armed.add6 0) = _
    simp [Craft.add6]
  rw [thrust_guess_unused (burning lvl (want (9999 / 10000))) (by simp) (fun _ => trivial), lvl_try, loop_last e1 ((met_iff _ _).2 (by norm_num)), Cfg.finish, if_pos rfl,
    ok_bind, hap]
  refine ⟨_, rfl, ?_, xf, k1, k2.symm⟩
  show (1 : ℝ) + (1 / 2 - 1) = 1 / 2
  norm_num

/-- The hypotheses of `good_guess_kept_partial` can be met: a velocity of 0.3 km/s is wanted, and guessed. -/
example : ∃ s, ((still (vx 4) (wantVx (3 / 10) 1) none (fun _ => none) 100).withGuesses fun _ => 3 / 10).tryAchieve atRest 0 60 = .ok s ∧
    s.iterations = 0 ∧ s.correction 0 = 3 / 10 := by
  have h := good_guess_kept_partial ((still (vx 4) (wantVx (3 / 10) 1) none (fun _ => none) 100).withGuesses fun _ => 3 / 10)
    (by decide) (fun _ => ⟨3, rfl⟩) (fun _ => ⟨by show (4 : ℝ) ≥ 0; norm_num, by show (5 : ℝ) ≥ 0; norm_num, by show (-5 : ℝ) ≤ 5; norm_num⟩) rfl
    (x0 := atRest) (start := { atRest with epoch := 0 }) (t0 := 0) (t := 60) rfl (vx_eval 4 (3 / 10) 1 100 _ _ 60) (fun _ => ?_)
  · exact ⟨_, h, rfl, rfl⟩
  · have : (movedBy ({ atRest with epoch := 0 } : Craft ℝ Unit) (guessed
        ((still (vx 4) (wantVx (3 / 10) 1) none (fun _ => none) 100).withGuesses fun _ => 3 / 10))).vel 0 = 3 / 10 := by
      simp [movedBy, guessed, Names, Cfg.withGuesses, still, vx, atRest, craft]
    rw [this]
    simp [Objective.met, Objective.error, wantVx]

/-! ### The constructors -/

/-- The variables of `delta_v`, `delta_r` and `vnc` are valid and start at zero. -/
theorem constructors_valid (C : Cfg Fr E LF 3 no) (f : LF) (i : Fin 3) : ∀ D ∈ [C.deltaV, C.deltaR, C.vnc f],
    (D.vars i).Valid ∧ (D.vars i).guess = 0 ∧ (D.vars i).comp.isFinite = false ∧ D.frameCheck (D.vars i) = .ok () := by
  intro D hD
  simp only [List.mem_cons, List.not_mem_nil, or_false] at hD
  rcases hD with rfl | rfl | rfl <;> fin_cases i <;>
    refine ⟨⟨?_, ?_, ?_⟩, rfl, rfl, rfl⟩ <;> simp [Cfg.deltaV, Cfg.deltaR, Cfg.vnc, Variable.ofVary] <;> norm_num

/-- **The documentation of `vnc` refuted.** It announces steps of at most 0.5 km/s; no step is greater than 0.2 km/s. -/
theorem vnc_step (C : Cfg Fr E LF 3 no) (f : LF) (i : Fin 3) (d : ℝ) : |((C.vnc f).vars i).limited d| ≤ 1 / 5 := by
  have hv : ((C.vnc f).vars i).comp.isFinite = false ∧ ((C.vnc f).vars i).maxStep = 1 / 5 ∧ ((C.vnc f).vars i).maxValue = 5 ∧
      ((C.vnc f).vars i).minValue = -5 := by
    fin_cases i <;> refine ⟨rfl, ?_, rfl, rfl⟩ <;> simp [Cfg.vnc, Variable.ofVary] <;> norm_num
  obtain ⟨h1, h2, h3, h4⟩ := hv
  rw [Variable.limited, if_neg (by rw [h1]; simp), Variable.step, h2, h3, h4]
  have h5 : |(1 / 5 : ℝ)| = 1 / 5 := abs_of_pos (by norm_num)
  rw [h5]
  split
  · split <;> simp [abs_mul]
  · rename_i h
    rw [gt_iff_lt, not_lt] at h
    have := abs_le.1 h
    rw [if_neg (by linarith), if_neg (by linarith)]
    exact h

/-- A thrust level in the frame VNC panics: `vec_index` of that variable is `unreachable!()`. -/
theorem vnc_level_panics (C : Cfg Fr E LF 1 no) (f : LF) (hno : no ≠ 0) (x0 : Craft ℝ Fr) (t0 t : Int) {start : Craft ℝ Fr}
    (hs : C.prop none none x0 t0 = some start) :
    (C.vncWith f fun _ => Variable.ofVary .thrustLevel).tryAchieve x0 t0 t = .panic := by
  rw [Cfg.tryAchieve, if_neg hno, show (C.vncWith f fun _ => Variable.ofVary .thrustLevel).prop none none x0 t0 = some start from hs]
  show Res.bind (foldRes _ _ _) _ = _
  have hl : List.finRange 1 = [0] := rfl
  have : (C.vncWith f fun _ => Variable.ofVary .thrustLevel).guessOne start.thruster.isSome (Burn.initial t0 t, false, 0) 0 = .panic := by
    unfold Cfg.guessOne
    have hv : ((C.vncWith f fun _ => Variable.ofVary .thrustLevel).vars 0).Valid := lvl_valid
    rw [if_neg (not_not.2 hv)]
    rfl
  rw [hl, foldRes, this]
  rfl

example : (((still (vx 4) (wantVx 0 1) none (fun _ => none) 100).vncWith () fun _ => Variable.ofVary .thrustLevel).tryAchieve atRest 0 60) = .panic :=
  vnc_level_panics _ _ (by simp) _ _ _ rfl

end Verif.Target
