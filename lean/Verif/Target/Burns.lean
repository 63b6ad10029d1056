import Verif.Target.Linear
/-!
C108: what each variable varies. C111: the maneuver of a solution.
-/
namespace Verif.Target
open Matrix
open Verif.Spacecraft (Craft)
open Verif.MathU (V3 nrm pseudoInverse)

variable {Fr E LF : Type} {nv no : Nat} {C : Cfg Fr E LF nv no}

/-- Specification: the quantity which the documentation of a variable names, with its axis.
md/opti/target_variable.rs:28-79. -/
inductive Named where
  | position (axis : Fin 3)
  | velocity (axis : Fin 3)
  | thrust (part : Part) (axis : Fin 3)
  | azimuth (order : Nat)
  | elevation (order : Nat)
  | start | duration | stop | level

/-- Specification: the documented meaning of the variables. -/
def Vary.named : Vary → Named
  | .positionX => .position 0
  | .positionY => .position 1
  | .positionZ => .position 2
  | .velocityX => .velocity 0
  | .velocityY => .velocity 1
  | .velocityZ => .velocity 2
  | .mnvrAlpha => .azimuth 0
  | .mnvrAlphaDot => .azimuth 1
  | .mnvrAlphaDDot => .azimuth 2
  | .mnvrDelta => .elevation 0
  | .mnvrDeltaDot => .elevation 1
  | .mnvrDeltaDDot => .elevation 2
  | .startEpoch => .start
  | .duration => .duration
  | .endEpoch => .stop
  | .thrustX => .thrust .direction 0
  | .thrustY => .thrust .direction 1
  | .thrustZ => .thrust .direction 2
  | .thrustLevel => .level
  | .thrustRateX => .thrust .rate 0
  | .thrustRateY => .thrust .rate 1
  | .thrustRateZ => .thrust .rate 2
  | .thrustAccelX => .thrust .accel 0
  | .thrustAccelY => .thrust .accel 1
  | .thrustAccelZ => .thrust .accel 2

/-- C108. A position or velocity variable adds its correction to the component it names, and to no other.
Missing: the rates of the angles, which move the position (`angle_rate_moves_position`), and those of the
direction (`rate_variable_slot`). -/
theorem state_variable_moves_partial (v : Variable) (x : ℝ) (c c' : Fin 6 → ℝ) (h : addIdx c v.comp.vecIndex x = .ok c') :
    (∀ k, v.comp.named = .position k → c' = c + Pi.single (⟨k.val, by omega⟩ : Fin 6) x) ∧
    (∀ k, v.comp.named = .velocity k → c' = c + Pi.single (⟨3 + k.val, by omega⟩ : Fin 6) x) := by
  have hj := addIdx_ok h
  constructor <;>
  · intro k hk
    funext j
    rw [hj, Pi.add_apply]
    congr 1
    cases hv : v.comp <;> rw [hv] at hk <;> simp only [Vary.named, Named.position.injEq, Named.velocity.injEq, reduceCtorEq] at hk <;>
      subst hk <;> fin_cases j <;> simp [Vary.vecIndex, Pi.single_apply]

/-- C108. A thrust direction variable changes the component of the direction it names. -/
theorem direction_variable_slot (c : Vary) (k : Fin 3) (h : c.named = .thrust .direction k) :
    c.slot = some (.direction, k) := by
  cases c <;> simp only [Vary.named, Named.thrust.injEq, reduceCtorEq, false_and, true_and] at h <;> subst h <;> rfl

/-- C108, refuted. Every rate or acceleration variable changes the component before the one it names: the
variable of X changes Z, that of Y changes X, that of Z changes Y. -/
theorem rate_variable_slot (c : Vary) (p : Part) (k : Fin 3) (h : c.named = .thrust p k)
    (hp : p = .rate ∨ p = .accel) : c.slot = some (p, k - 1) ∧ k - 1 ≠ k := by
  rcases hp with rfl | rfl <;>
  cases c <;> simp only [Vary.named, Named.thrust.injEq, reduceCtorEq, false_and, true_and] at h <;> subst h <;>
    exact ⟨rfl, by decide⟩

example := rate_variable_slot .thrustRateX .rate 0 rfl (.inl rfl)

/-- C108. An angle variable which is a finite burn variable adds its value to the coefficient it names of
the polynomial it names. -/
theorem angle_variable_adds (b : Burn) (a1 b1 c1 a2 b2 c2 : ℝ)
    (hb : b.repr = .angles (.quadratic a1 b1 c1) (.quadratic a2 b2 c2)) (x : ℝ) :
    b.addAngle true .mnvrAlpha x = .ok { b with repr := .angles (.quadratic a1 b1 (x + c1)) (.quadratic a2 b2 c2) } ∧
    b.addAngle true .mnvrAlphaDDot x = .ok { b with repr := .angles (.quadratic (x + a1) b1 c1) (.quadratic a2 b2 c2) } ∧
    b.addAngle false .mnvrDelta x = .ok { b with repr := .angles (.quadratic a1 b1 c1) (.quadratic a2 b2 (x + c2)) } ∧
    b.addAngle false .mnvrDeltaDDot x = .ok { b with repr := .angles (.quadratic a1 b1 c1) (.quadratic (x + a2) b2 c2) } := by
  refine ⟨?_, ?_, ?_, ?_⟩ <;> rw [Burn.addAngle, hb] <;> rfl

/-- C108, refuted. The variables of the angle rates are not treated as finite burn variables: with only
such variables, no maneuver is flown, and their corrections are added to the position, component Y. -/
theorem angle_rate_moves_position (v : Variable) (hv : v.comp = .mnvrAlphaDot ∨ v.comp = .mnvrDeltaDot)
    (c c' : Fin 6 → ℝ) (x : ℝ) (h : addIdx c v.comp.vecIndex x = .ok c') :
    v.comp.isFinite = false ∧ c' = c + Pi.single (1 : Fin 6) x := by
  have hj := addIdx_ok h
  refine ⟨by rcases hv with hv | hv <;> rw [hv] <;> rfl, ?_⟩
  funext j
  rw [hj, Pi.add_apply]
  congr 1
  rcases hv with hv | hv <;> rw [hv] <;> fin_cases j <;> simp [Vary.vecIndex, Pi.single_apply]

/-- C108, refuted. A targeter whose variables are all angle rates succeeds only with a state moved along Y,
without any maneuver. -/
theorem angle_rate_solution {x0 : Craft ℝ Fr} {t0 t : Int} {s : Sol Fr nv no} (h : C.tryAchieve x0 t0 t = .ok s)
    (hv : ∀ i, (C.vars i).comp = .mnvrAlphaDot ∨ (C.vars i).comp = .mnvrDeltaDot) (hn : C.corrFrame = none) :
    (∃ start, C.prop none none x0 t0 = some start ∧ s.corrected = start.add6 (Pi.single 1 (∑ i, s.correction i))) ∧
    C.toMnvr s = .err .notFinite := by
  have hf : ∀ i, (C.vars i).comp.isFinite = false := fun i => by rcases hv i with h | h <;> rw [h] <;> rfl
  obtain ⟨-, h2⟩ := corrected_reproduces_partial h hf (by rw [hn]; simp)
  obtain ⟨start, hs, hc⟩ := h2 hn
  refine ⟨⟨start, hs, ?_⟩, by rw [Cfg.toMnvr, if_neg (by simp [Cfg.isFinite, hf])]⟩
  rw [hc]
  congr 1
  funext k
  have : ∀ i, (C.vars i).comp.vecIndex = some 1 := fun i => by rcases hv i with h | h <;> rw [h] <;> rfl
  by_cases hk : k = 1
  · subst hk
    simp [this]
  · rw [Pi.single_apply, if_neg hk]
    refine Finset.sum_eq_zero fun i _ => ?_
    rw [this, if_neg]
    simp only [Option.some.injEq]
    intro e
    exact hk (Fin.ext e.symm)

/-- C111, refuted. The correction of a duration variable does not depend on the correction: when the
achievement epoch is after the correction epoch by at least the opposite of the minimum, the burn gets the
minimum duration, which is zero by default. -/
theorem duration_ignores_correction (secs : ℝ → Int) (t0 t : Int) (b : Burn) (v : Variable) (corr : ℝ)
    (hv : v.comp = .duration) (hcorr : 1 / 1000 < |corr|) (hvalid : v.Valid) (ht : toSecs (t0 - t) ≤ v.minValue) :
    b.correct secs t0 t v corr = .ok { b with stop := b.start + secs v.minValue } := by
  obtain ⟨-, -, h3⟩ := hvalid
  rw [gt_iff_lt, not_lt] at h3
  have : v.bound (toSecs (t0 - t)) = v.minValue := by
    unfold Variable.bound
    rw [if_neg (by linarith)]
    split
    · rfl
    · linarith
  unfold Burn.correct
  rw [hv]
  simp only
  rw [if_pos hcorr, this]

example : (Burn.initial 0 (10 ^ 9)).correct (fun x => ⌊x⌋) 0 (10 ^ 9) (Variable.ofVary .duration) 5 =
    .ok { Burn.initial 0 (10 ^ 9) with stop := 0 } :=
  (duration_ignores_correction _ _ _ _ _ _ rfl (by norm_num)
    ⟨by norm_num [Variable.ofVary], by norm_num [Variable.ofVary], by norm_num [Variable.ofVary]⟩
    (by norm_num [Variable.ofVary, toSecs])).trans (by simp [Variable.ofVary, Burn.initial])

/-- C111, refuted. The entry of the Jacobian for a thrust level has the wrong sign: for an objective affine
in the level with slope `g`, around a level which the perturbation keeps between zero and one, it is
`-g`. -/
theorem level_jacobian_sign {x : Craft ℝ Fr} {b : Burn} {t : Int} {o : Objective E} {v : Variable} {a g : ℝ}
    (hv : v.comp = .thrustLevel) (hp : v.pert ≠ 0) (h0 : 0 ≤ b.level + v.pert) (h1 : b.level + v.pert ≤ 1)
    (haff : ∀ L, ∃ xf y bp d, C.flow true { b with level := L } x t = some xf ∧ C.view (orbitOf xf) = some y ∧
      C.bp y = some bp ∧ C.value bp y o.param = .ok (a + g * L, d)) :
    C.jacEntry true x b t (a + g * b.level) o v = .ok (-g) := by
  obtain ⟨xf, y, bp, d, k1, k2, k3, k4⟩ := haff (b.level + v.pert)
  have hcl : clamp01 (b.level + v.pert) = b.level + v.pert := by
    rw [clamp01, if_neg (not_lt.2 h0), if_neg (not_lt.2 h1)]
  have hper : C.perturb x b v = .ok (x, { b with level := b.level + v.pert }, false) := by
    rw [Cfg.perturb, if_pos (by rw [hv]; rfl), Burn.perturb, hv]
    simp only
    rw [hcl]
    rfl
  rw [Cfg.jacEntry, hper]
  show Res.bind (unwrapO (C.flow true { b with level := b.level + v.pert } x t)) _ = _
  rw [k1]
  show Res.bind (unwrapO (C.view (orbitOf xf))) _ = _
  rw [k2]
  show Res.bind (unwrapO (C.bp y)) _ = _
  rw [k3]
  show Res.bind (Res.unwrap (C.value bp y o.param)) _ = _
  rw [k4]
  show Res.ok (if v.comp = .thrustLevel then -(if false = true then _ else (a + g * (b.level + v.pert) - (a + g * b.level)) / v.pert) else _) = _
  rw [if_pos hv, if_neg (by simp)]
  congr 2
  field_simp
  ring

/-- C111, refuted. With the default thrust level variable, whose initial guess is one, the maneuver of a
solution always has full thrust unless the corrections sum to less than minus one, whatever level the
targeter flew. -/
theorem to_mnvr_full_thrust (C : Cfg Fr E LF 1 no) (hv : C.vars = fun _ => Variable.ofVary .thrustLevel)
    (s : Sol Fr 1 no) (hs : 0 ≤ s.correction 0) :
    C.toMnvr s = .ok (Burn.initial s.corrected.epoch s.achieved.epoch) := by
  have hf : C.isFinite = true := by simp [Cfg.isFinite, hv, Variable.ofVary, Vary.isFinite]
  rw [Cfg.toMnvr, if_pos hf]
  have hl : List.finRange 1 = [0] := rfl
  rw [hl]
  simp only [foldRes, hv]
  have hb : (Variable.ofVary .thrustLevel).bound (1 + s.correction 0) = 1 := by
    unfold Variable.bound
    have hx : (Variable.ofVary .thrustLevel).maxValue = 1 := rfl
    have hn : (Variable.ofVary .thrustLevel).minValue = 1e-4 := rfl
    by_cases h : 1 + s.correction 0 > (Variable.ofVary .thrustLevel).maxValue
    · rw [if_pos h, hx]
    · rw [if_neg h, if_neg (by rw [hn]; norm_num; linarith)]
      rw [gt_iff_lt, not_lt, hx] at h
      linarith
  have : Burn.correctAny C.secs s.corrected.epoch s.achieved.epoch (Burn.initial s.corrected.epoch s.achieved.epoch)
      (Variable.ofVary .thrustLevel) (s.correction 0) = .ok (Burn.initial s.corrected.epoch s.achieved.epoch) := by
    show Res.ok { Burn.initial s.corrected.epoch s.achieved.epoch with
      level := (Variable.ofVary .thrustLevel).bound (1 + s.correction 0) } = _
    rw [hb]
    rfl
  rw [this]
  rfl

example := state_variable_moves_partial (Variable.ofVary .velocityY) 2 0 _ rfl
example := direction_variable_slot .thrustY 1 rfl
example := angle_variable_adds ⟨0, 10 ^ 9, 1, .angles (.quadratic 0 0 1) (.quadratic 0 0 2)⟩ 0 0 1 0 0 2 rfl 5
example := angle_rate_moves_position (Variable.ofVary .mnvrAlphaDot) (.inl rfl) 0 _ 5 rfl

/-- A correction of an angle adds to its constant coefficient. -/
theorem correct_angle (secs : ℝ → Int) (t0 t : Int) (b : Burn) (v : Variable) (x a1 b1 c1 a2 b2 c2 : ℝ)
    (hb : b.repr = .angles (.quadratic a1 b1 c1) (.quadratic a2 b2 c2)) :
    (v.comp = .mnvrAlpha → b.correct secs t0 t v x = .ok { b with repr := .angles (.quadratic a1 b1 (x + c1)) (.quadratic a2 b2 c2) }) ∧
    (v.comp = .mnvrDelta → b.correct secs t0 t v x = .ok { b with repr := .angles (.quadratic a1 b1 c1) (.quadratic a2 b2 (x + c2)) }) := by
  have h := angle_variable_adds b a1 b1 c1 a2 b2 c2 hb x
  constructor <;> intro hv <;> rw [Burn.correct, hv]
  · exact h.1
  · exact h.2.2.1

/-- **C111, in part.** The maneuver which is built from the sum of the corrections of an angle is the one which the corrections, one
after the other, have made. Missing: the durations and the thrust levels, for which it is not (`duration_ignores_correction`,
`to_mnvr_full_thrust`). -/
theorem angle_burn_partial (secs : ℝ → Int) (t0 t : Int) (v : Variable) (hv : v.comp = .mnvrAlpha ∨ v.comp = .mnvrDelta) (cs : List ℝ) :
    ∃ b, foldRes (fun b c => b.correct secs t0 t v c) cs (Burn.initial t0 t) = .ok b ∧
      (Burn.initial t0 t).correctAny secs t0 t v cs.sum = .ok b := by
  have hany : ∀ (b : Burn) (x : ℝ), b.correctAny secs t0 t v x = b.correct secs t0 t v x := by
    intro b x
    rw [Burn.correctAny]
    rcases hv with hv | hv <;> rw [hv]
  have key : ∀ (cs : List ℝ) (b : Burn) (c1 c2 : ℝ), b.repr = .angles (.quadratic 0 0 c1) (.quadratic 0 0 c2) →
      ∃ b', foldRes (fun b c => b.correct secs t0 t v c) cs b = .ok b' ∧ b.correct secs t0 t v cs.sum = .ok b' := by
    intro cs
    induction cs with
    | nil =>
      intro b c1 c2 hb
      have h := correct_angle secs t0 t b v 0 0 0 c1 0 0 c2 hb
      refine ⟨b, rfl, ?_⟩
      rcases hv with hv | hv
      · rw [List.sum_nil, h.1 hv, zero_add, ← hb]
      · rw [List.sum_nil, h.2 hv, zero_add, ← hb]
    | cons c cs ih =>
      intro b c1 c2 hb
      rcases hv with hv | hv
      · have e := (correct_angle secs t0 t b v c 0 0 c1 0 0 c2 hb).1 hv
        obtain ⟨b', h1, h2⟩ := ih { b with repr := .angles (.quadratic 0 0 (c + c1)) (.quadratic 0 0 c2) } _ _ rfl
        refine ⟨b', ?_, ?_⟩
        · rw [foldRes, e]; exact h1
        · rw [← h2, (correct_angle secs t0 t b v _ 0 0 c1 0 0 c2 hb).1 hv, (correct_angle secs t0 t _ v _ 0 0 (c + c1) 0 0 c2 rfl).1 hv,
            List.sum_cons, show c + cs.sum + c1 = cs.sum + (c + c1) by ring]
      · have e := (correct_angle secs t0 t b v c 0 0 c1 0 0 c2 hb).2 hv
        obtain ⟨b', h1, h2⟩ := ih { b with repr := .angles (.quadratic 0 0 c1) (.quadratic 0 0 (c + c2)) } _ _ rfl
        refine ⟨b', ?_, ?_⟩
        · rw [foldRes, e]; exact h1
        · rw [← h2, (correct_angle secs t0 t b v _ 0 0 c1 0 0 c2 hb).2 hv, (correct_angle secs t0 t _ v _ 0 0 c1 0 0 (c + c2) rfl).2 hv,
            List.sum_cons, show c + cs.sum + c2 = cs.sum + (c + c2) by ring]
  obtain ⟨b, h1, h2⟩ := key cs (Burn.initial t0 t) 0 0 rfl
  exact ⟨b, h1, (hany _ _).trans h2⟩

example := angle_burn_partial (fun x => ⌊x⌋) 0 (10 ^ 9) (Variable.ofVary .mnvrDelta) (.inr rfl) [1, -2, 5]

end Verif.Target
