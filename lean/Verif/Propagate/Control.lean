import Verif.Propagate.Theorems
/-!
Property theorems about the step controller (C06, C07, C08) and reuse of an instance (C04).
-/
namespace Verif.Propagate

variable {X E Fr C : Type}

/-! ## A small concrete environment used for witnesses -/

/-- A propagation whose payload is just the frame it is expressed in: the stages always succeed with the given
error estimate, the root function is constantly one. `fails` says for which step (seconds) the dynamics fail. -/
def demo (err : Rat) (fails : Rat → Bool) (frame : Option Bool) : Env Bool Unit Bool where
  opts := { minStep := 2, maxStep := 1000, tol := 1, attempts := 50, order := 4 }
  rk := fun s h => if fails h then .error () else .ok ⟨s.x, err, false⟩
  root := fun _ _ => 1
  finally_ := fun s => .ok s
  integrationFrame := frame
  frameOf := id
  transform := fun f s => .ok ⟨s.epoch, f⟩

theorem demo_keeps (err : Rat) (fails : Rat → Bool) (frame : Option Bool) :
    (demo err fails frame).KeepsEpoch := by
  constructor
  · intro s s' h; simp only [demo, Except.ok.injEq] at h; rw [h]
  · intro f s s' h; simp only [demo, Except.ok.injEq] at h; rw [← h]

theorem demo_sane (err : Rat) (he : 0 ≤ err) (fails : Rat → Bool) (frame : Option Bool) :
    (demo err fails frame).SaneControl := by
  refine ⟨by simp [demo], by simp [demo], by simp [demo], ?_, ?_, ?_, ?_⟩
  · intro x n _; simp [demo]
  · intro x n _ _; simp [demo]
  · intro x n _; simp [demo]
  · intro s h r hr
    simp only [demo] at hr
    split at hr
    · simp at hr
    · simp only [Except.ok.injEq] at hr; subst hr; exact he

/-- Non-vacuity of C01, C02, C03: a concrete propagation over 25 ns by adaptive steps of at least
2 ns completes, publishes, and meets the hypotheses. -/
example : Drivable (demo (1/2) (fun _ => false) none) 2
    (⟨⟨0, false⟩, 10, false⟩ : Inst Bool) :=
  ⟨by norm_num, by norm_num, fun _ => ⟨demo_sane _ (by norm_num) _ _, by simp [demo]⟩⟩

example : ∃ o, forDuration (demo (1/2) (fun _ => false) none) 10 25
    (⟨⟨0, false⟩, 10, true⟩ : Inst Bool) = some o ∧ o.res = .ok ⟨25, false⟩ ∧
      o.sent.map St.epoch = [10, 20, 25] ∧ o.inst.step = 10 := ⟨_, rfl, rfl, rfl, rfl⟩

example : ∃ o, forDuration (demo (1/2) (fun _ => false) (some true)) 10 (-25)
    (⟨⟨0, false⟩, 10, true⟩ : Inst Bool) = some o ∧ o.res = .ok ⟨-25, false⟩ ∧
      o.sent.map St.epoch = [-10, -20, -25] ∧ o.inst.step = 10 := ⟨_, rfl, rfl, rfl, rfl⟩

/-! ## C06 -/

/-- **C06.** A successful forward adaptive step of an instance whose step is in range: the new
payload is the Runge-Kutta candidate for the step actually used; that step meets the tolerance, or
is at the minimum step, or the attempts are exhausted; the time taken is positive and at most the
current step size; the next step size is within `[min_step, max_step]`. -/
theorem derive_forward_control (env : Env X E Fr) (hc : env.SaneControl) (i : Inst X)
    (hf : i.fixed = false) (hlo : env.opts.minStep ≤ i.step) (hhi : i.step ≤ env.opts.maxStep)
    (d : Derived X) (h : derive env i = .ok d) :
    (∃ r, env.rk i.st d.used = .ok r ∧ r.x = d.x ∧ r.isNaN = false ∧
      (r.err ≤ env.opts.tol ∨ d.used = toSec env.opts.minStep ∨ d.attempts ≥ env.opts.attempts)) ∧
    d.dt = toDur d.used ∧ env.opts.minStep ≤ d.dt ∧ d.dt ≤ i.step ∧
    env.opts.minStep ≤ d.newStep ∧ d.newStep ≤ env.opts.maxStep := by
  unfold derive at h
  rw [if_neg (by simp [hf])] at h
  have hpos : 0 < i.step := lt_of_lt_of_le hc.minPos hlo
  obtain ⟨⟨r, r1, r2, r3, r4⟩, a2, a3, a4, a5, a6, a7, _, _⟩ :=
    deriveAdaptive_fwd hc i.st 1 (toSec i.step) (toSec_pos.mpr hpos) d h
  have hmin : toSec env.opts.minStep ≤ d.used := by
    rcases a5 with a5 | a5
    · rw [a5]; exact toSec_le_toSec.mpr hlo
    · exact a5
  have h0 : 0 ≤ d.used := le_trans (toSec_pos.mpr hc.minPos).le hmin
  have hdt : d.dt ≤ i.step := by rw [a3]; exact toDur_le h0 a4
  refine ⟨⟨r, r1, r2, r4, ?_⟩, a3, ?_, hdt, a6, ?_⟩
  · rw [r3]
    rcases a2 with h | h | h
    · exact Or.inl h
    · exact Or.inr (Or.inl (le_antisymm h hmin))
    · exact Or.inr (Or.inr h)
  · rw [a3]; exact le_toDur hc.minPos.le hmin
  · rcases a7 with h | h
    · exact h
    · refine le_trans h (max_le hc.minMax ?_)
      rw [← a3]; omega

example : (demo (1/2) (fun _ => false) none).SaneControl ∧
    (demo (1/2) (fun _ => false) none).opts.minStep ≤ 10 ∧
    10 ≤ (demo (1/2) (fun _ => false) none).opts.maxStep ∧
    ∃ d, derive (demo (1/2) (fun _ => false) none) (⟨⟨0, false⟩, 10, false⟩ : Inst Bool) = .ok d := by
  refine ⟨demo_sane _ (by norm_num) _ _, by simp [demo], by simp [demo], ?_⟩
  unfold derive
  rw [if_neg (by simp), deriveAdaptive]
  simp [demo, accepts]
  norm_num

/-- The step sizes tried within one `derive` are strictly decreasing and stay at or above the
minimum step (forward). -/
theorem derive_forward_tries_decrease (env : Env X E Fr) (hc : env.SaneControl) (st : St X)
    (n : Nat) (s : Rat) (hs : toSec env.opts.minStep ≤ s) :
    ((deriveAdaptive env st n s).2).Pairwise (· > ·) ∧
    ∀ x ∈ (deriveAdaptive env st n s).2, toSec env.opts.minStep ≤ x ∧ x ≤ s := by
  fun_induction deriveAdaptive env st n s with
  | case1 n s e h => simp [hs]
  | case2 n s r h ha hn => simp [hs]
  | case3 n s r h ha hn s' => simp [hs]
  | case4 n s r h ha rec_ ih =>
    simp only [accepts, not_or, not_le] at ha
    obtain ⟨h1, h2⟩ := shrink_bounds hc ha.2.1 ha.1
    obtain ⟨i1, i2⟩ := ih h1
    refine ⟨List.pairwise_cons.mpr ⟨?_, i1⟩, ?_⟩
    · intro x hx; exact lt_of_le_of_lt (i2 x hx).2 h2
    · intro x hx
      rcases List.mem_cons.mp hx with rfl | hx
      · exact ⟨hs, le_refl _⟩
      · exact ⟨(i2 x hx).1, le_trans (i2 x hx).2 h2.le⟩

/-! ## C07 -/

/-- **C07, what the code does.** Every backward adaptive step is accepted at the first attempt,
with the step used being the whole current step, whatever the error estimate. -/
theorem derive_backward_always_accepts (env : Env X E Fr) (hm : 0 < env.opts.minStep) (i : Inst X)
    (hf : i.fixed = false) (hs : i.step < 0) (r : RkOut X)
    (hr : env.rk i.st (toSec i.step) = .ok r) (hn : r.isNaN = false) :
    ∃ d, derive env i = .ok d ∧ d.attempts = 1 ∧ d.dt = i.step ∧ d.x = r.x ∧ d.err = r.err := by
  have hacc : accepts env.opts r.err (toSec i.step) 1 :=
    Or.inr (Or.inl (le_trans (toSec_neg.mpr hs).le (toSec_pos.mpr hm).le))
  unfold derive
  rw [if_neg (by simp [hf]), deriveAdaptive]
  simp only [hr]
  rw [if_pos hacc, if_neg (by simp [hn])]
  exact ⟨_, rfl, rfl, toDur_toSec _, rfl, rfl⟩

/-- **C07 refuted.** There is a backward step whose error is above the tolerance, whose magnitude
is above the minimum step, with attempts to spare, and which is nevertheless accepted. -/
theorem backward_error_control_false : ∃ (env : Env Bool Unit Bool) (i : Inst Bool)
    (d : Derived Bool), env.SaneControl ∧ i.step < 0 ∧ i.fixed = false ∧ derive env i = .ok d ∧
      ¬ (d.err ≤ env.opts.tol) ∧ ¬ (|d.used| ≤ toSec env.opts.minStep) ∧
      ¬ (d.attempts ≥ env.opts.attempts) := by
  obtain ⟨d, h1, h2, h3, h4, h5⟩ := derive_backward_always_accepts (demo 5 (fun _ => false) none)
    (by simp [demo]) ⟨⟨0, false⟩, -10, false⟩ rfl (by norm_num) ⟨false, 5, false⟩ rfl rfl
  have hu : d.used = toSec (-10) := by
    unfold derive at h1
    rw [if_neg (by simp)] at h1
    exact ((deriveAdaptive_bwd (by simp [demo]) _ 1 _ (toSec_neg.mpr (by norm_num))).2 d h1).1
  refine ⟨_, _, d, demo_sane 5 (by norm_num) _ _, by norm_num, rfl, h1, ?_, ?_, ?_⟩
  · rw [h5]; simp [demo]
  · rw [hu]; simp [demo, toSec]; norm_num
  · rw [h2]; simp [demo]

/-- **C07, partial.** What survives of error control backward: if the first attempt happens to meet
the tolerance the step is within tolerance. Missing: rejection of the others (refuted above). -/
theorem backward_error_control_partial (env : Env X E Fr) (hm : 0 < env.opts.minStep) (i : Inst X)
    (hf : i.fixed = false) (hs : i.step < 0) (d : Derived X) (h : derive env i = .ok d) :
    (∃ r, env.rk i.st (toSec i.step) = .ok r ∧ r.x = d.x ∧ r.err = d.err ∧
      (r.err ≤ env.opts.tol → d.err ≤ env.opts.tol)) ∧ d.dt = i.step := by
  unfold derive at h
  rw [if_neg (by simp [hf])] at h
  obtain ⟨_, _, a3, r, b1, b2, b3, _⟩ :=
    (deriveAdaptive_bwd hm i.st 1 _ (toSec_neg.mpr hs)).2 d h
  exact ⟨⟨r, b1, b2, b3, by rw [b3]; exact id⟩, by rw [a3, toDur_toSec]⟩

/-! ## C08 -/

/-- **C08.** The stages are evaluated at least once and at most `max 1 attempts` times per `derive`
(all dynamics, any error estimates, any step, forward or backward, success or failure); the reported
number of attempts is the number of evaluations. -/
theorem derive_evaluations_bounded (env : Env X E Fr) (st : St X) (s : Rat) :
    1 ≤ (deriveAdaptive env st 1 s).2.length ∧
    (deriveAdaptive env st 1 s).2.length ≤ max 1 env.opts.attempts ∧
    ∀ d, (deriveAdaptive env st 1 s).1 = .ok d →
      d.attempts = (deriveAdaptive env st 1 s).2.length := by
  have key : ∀ (n : Nat) (s : Rat), 1 ≤ n →
      1 ≤ (deriveAdaptive env st n s).2.length ∧
      (deriveAdaptive env st n s).2.length + n ≤ max n env.opts.attempts + 1 ∧
      ∀ d, (deriveAdaptive env st n s).1 = .ok d →
        d.attempts + 1 = (deriveAdaptive env st n s).2.length + n := by
    intro n s hn
    fun_induction deriveAdaptive env st n s with
    | case1 n s e h => refine ⟨by simp, by simp; omega, by intro d hd; simp at hd⟩
    | case2 n s r h ha hn => refine ⟨by simp, by simp; omega, by intro d hd; simp at hd⟩
    | case3 n s r h ha hn s' =>
      refine ⟨by simp, by simp; omega, ?_⟩
      intro d hd
      simp only [Except.ok.injEq] at hd
      subst hd
      simp; omega
    | case4 n s r h ha rec_ ih =>
      obtain ⟨i1, i2, i3⟩ := ih (by omega)
      simp only [accepts, not_or, not_le] at ha
      have := ha.2.2
      refine ⟨by simp, ?_, ?_⟩
      · simp only [List.length_cons, rec_]; omega
      · intro d hd
        have := i3 d hd
        simp only [List.length_cons, rec_]; omega
  obtain ⟨a, b, c⟩ := key 1 s (le_refl _)
  refine ⟨a, by omega, ?_⟩
  intro d hd
  have := c d hd
  omega

/-- The bound is reached by dynamics whose error estimate is always above the tolerance: with three attempts
allowed there are two rejections and the third is accepted. -/
example : ((deriveAdaptive { demo 5 (fun _ => false) none with
      opts := { minStep := 2, maxStep := 1000, tol := 1, attempts := 3, order := 4 } }
    (⟨0, false⟩ : St Bool) 1 1).2).length = 3 := by
  rw [deriveAdaptive]; simp only [demo, accepts]; norm_num [toSec, shrink]
  rw [deriveAdaptive]; simp only [demo, accepts]; norm_num [toSec, shrink]
  rw [deriveAdaptive]; simp only [demo, accepts]; norm_num [toSec, shrink]

/-! ## C04 -/

/-- A history of completed propagations: each is run with its fuel and must return `Ok`. -/
def runAll [DecidableEq Fr] (env : Env X E Fr) : List (Nat × Int) → Inst X → Option (Inst X)
  | [], i => some i
  | (fuel, d) :: rest, i =>
    match forDuration env fuel d i with
    | some ⟨.ok _, i', _, _⟩ => runAll env rest i'
    | _ => none

/-- **C04 (partial: completed propagations).** After any history of completed forward and backward propagations the
instance is still drivable with the same bound, has the same fixed/adaptive flag, the same step if
fixed, and its epoch is the start plus the sum of the durations. Missing: histories containing early
stops or errors, for which the claim is refuted below. -/
theorem reusable_partial [DecidableEq Fr] (env : Env X E Fr) (hk : env.KeepsEpoch) (m : Int)
    (hm : 2 ≤ m) (hist : List (Nat × Int)) : ∀ (i i' : Inst X), Drivable env m i →
    runAll env hist i = some i' →
    Drivable env m i' ∧ i'.fixed = i.fixed ∧ (i.fixed = true → i'.step = i.step) ∧
    i'.st.epoch = i.st.epoch + (hist.map Prod.snd).sum := by
  induction hist with
  | nil =>
    intro i i' hi h
    simp only [runAll, Option.some.injEq] at h
    subst h
    exact ⟨hi, rfl, fun _ => rfl, by simp⟩
  | cons fd rest ih =>
    obtain ⟨fuel, d⟩ := fd
    intro i i' hi h
    rw [runAll] at h
    split at h
    · rename_i o s i1 sent mem ho
      have harr := forDuration_arrives env hk fuel d i _ s ho rfl
      simp only at harr
      have hstep : m ≤ i1.step ∧ i1.fixed = i.fixed ∧ (i.fixed = true → i1.step = i.step) := by
        by_cases hd : d = 0
        · subst hd
          rw [forDuration, propagate_zero] at ho
          simp only [Option.some.injEq, Outcome.mk.injEq] at ho
          obtain ⟨_, ho, _⟩ := ho
          subst ho
          exact ⟨hi.step, rfl, fun _ => rfl⟩
        · exact (forDuration_completed env hk fuel d i m hd hi (fun _ => hm) _ s ho rfl).2
      obtain ⟨h1, h2, h3⟩ := hstep
      have hi1 : Drivable env m i1 := ⟨hi.pos, h1, by rw [h2]; exact hi.ctl⟩
      obtain ⟨a, b, c, e⟩ := ih i1 i' hi1 h
      refine ⟨a, by rw [b, h2], ?_, ?_⟩
      · intro hf; rw [c (by rw [h2, hf]), h3 hf]
      · rw [e, List.map_cons, List.sum_cons]
        rw [harr.2]; omega
    · simp at h

example : runAll (demo (1/2) (fun _ => false) none) [(10, 25), (10, -7), (10, 0), (10, 33)]
    (⟨⟨0, false⟩, 10, true⟩ : Inst Bool) = some ⟨⟨51, false⟩, 10, true⟩ := rfl

/-- **C04 refuted (early stop).** A backward propagation stopped by its condition leaves the step
negative in the instance. -/
theorem backward_stop_leaks_negative_step : ∃ o : Outcome Bool Unit Unit,
    propagate (demo 0 (fun _ => false) none) (fun _ _ => (.ok true, ())) 5 (-100)
      ⟨⟨0, false⟩, 10, true⟩ () = some o ∧ o.res = .ok ⟨-10, false⟩ ∧ o.inst.step = -10 :=
  ⟨_, rfl, rfl, rfl⟩

/-- A forward propagation from an instance with a negative fixed step never returns if the dynamics
never fail. -/
theorem negative_step_diverges [DecidableEq Fr] (env : Env X E Fr) (hk : env.KeepsEpoch)
    (hrk : ∀ s h, ∃ r, env.rk s h = .ok r) (hfin : ∀ s, ∃ s', env.finally_ s = .ok s')
    (hif : env.integrationFrame = none) (i : Inst X) (hf : i.fixed = true) (hs : i.step < 0)
    (d : Int) (hd : 0 < d) (fuel : Nat) : forDuration env fuel d i = none := by
  have hstep : ∀ j : Inst X, j.fixed = true →
      ∃ j', singleStep env j = (.ok (), j') := by
    intro j hj
    obtain ⟨r, hr⟩ := hrk j.st (toSec j.step)
    have hde : derive env j = .ok ⟨j.step, r.x, j.step, 1, 0, toSec j.step⟩ := by
      unfold derive; rw [if_pos hj, hr]
    obtain ⟨s', hs'⟩ := hfin ⟨j.st.epoch + j.step, r.x⟩
    exact ⟨⟨s', j.step, j.fixed⟩, by unfold singleStep; rw [hde]; simp only [hs']⟩
  have hloop : ∀ (n : Nat) (j : Inst X) (sent : List (St X)) (stop : Int), j.fixed = true →
      j.step < 0 → j.st.epoch ≤ stop →
      loop env (never (E := E)) false stop none n j sent () = none := by
    intro n
    induction n with
    | zero => intros; rfl
    | succ n ih =>
      intro j sent stop hj hs hle
      rw [loop]
      simp only
      rw [if_neg (by simp; omega)]
      obtain ⟨j', hj'⟩ := hstep j hj
      obtain ⟨a, b, c⟩ := singleStep_fixed hk hj hj'
      rw [hj']
      simp only [never]
      exact ih j' _ _ c (by omega) (by omega)
  unfold forDuration propagate
  rw [if_neg (by omega)]
  obtain ⟨s', hs'⟩ := hfin i.st
  have := hk.fin _ _ hs'
  simp only [hs', hif]
  have hdec : decide (d < 0) = false := by simp; omega
  rw [hdec]
  simp only [Bool.false_eq_true, if_false]
  exact hloop fuel _ _ _ hf hs (by simp only; omega)

/-- **C04 refuted.** A fresh instance can propagate forward 100 ns, but after a backward propagation
stopped by its condition the same forward propagation never returns. -/
theorem reuse_false :
    (∃ o, forDuration (demo 0 (fun _ => false) none) 20 100
      (⟨⟨-10, false⟩, 10, true⟩ : Inst Bool) = some o ∧ o.res = .ok ⟨90, false⟩) ∧
    ∃ o : Outcome Bool Unit Unit,
      propagate (demo 0 (fun _ => false) none) (fun _ _ => (.ok true, ())) 5 (-100)
        ⟨⟨0, false⟩, 10, true⟩ () = some o ∧ o.inst.st = ⟨-10, false⟩ ∧
      ∀ fuel, forDuration (demo 0 (fun _ => false) none) fuel 100 o.inst = none := by
  refine ⟨⟨_, rfl, rfl⟩, ?_⟩
  refine ⟨_, rfl, rfl, ?_⟩
  intro fuel
  apply negative_step_diverges _ (demo_keeps _ _ _) _ _ rfl
  · rfl
  · norm_num
  · norm_num
  · intro s h; exact ⟨_, rfl⟩
  · intro s; exact ⟨s, rfl⟩

/-- **C04 refuted (error).** An error of the dynamics in the last, shortened step leaves the
instance with that shortened step and in fixed step mode, although it was adaptive. -/
theorem final_step_error_leaks : ∃ o : Outcome Bool Unit Unit,
    forDuration (demo 0 (fun _ => true) none) 5 5 ⟨⟨0, false⟩, 10, false⟩ = some o ∧
    o.res = .error (.dyn ()) ∧ o.inst.step = 5 ∧ o.inst.fixed = true := by
  refine ⟨_, rfl, ?_, ?_, ?_⟩ <;> rfl

end Verif.Propagate
