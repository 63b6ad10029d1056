import Verif.Propagate.Stop
/-!
The hypotheses of the theorems on propagation are met: each theorem is applied to a concrete case.
-/
namespace Verif.Propagate

/-- Fixed steps of 10 ns, no integration frame. -/
abbrev exEnv : Env Bool Unit Bool := demo (1/2) (fun _ => false) none

/-- An instance with a fixed step of 10 ns. -/
def exFixed : Inst Bool := ⟨⟨0, false⟩, 10, true⟩

theorem exFixed_drivable : Drivable exEnv 2 exFixed :=
  ⟨by norm_num, by norm_num [exFixed], fun h => by cases h⟩

/-- An adaptive instance. -/
def exAdaptive : Inst Bool := ⟨⟨0, false⟩, 10, false⟩

theorem exAdaptive_drivable : Drivable exEnv 2 exAdaptive :=
  ⟨by norm_num, by norm_num [exAdaptive], fun _ => ⟨demo_sane _ (by norm_num) _ _, by simp [demo]⟩⟩

theorem exForward : ∃ o, forDuration exEnv 10 25 exFixed = some o ∧ o.res = .ok ⟨25, false⟩ :=
  ⟨_, rfl, rfl⟩

theorem exBackward : ∃ o, forDuration exEnv 10 (-25) exFixed = some o ∧ o.res = .ok ⟨-25, false⟩ :=
  ⟨_, rfl, rfl⟩

/-- `forDuration_arrives`, `forDuration_completed`, `propagate_published_ordered`, `fixed_step_grid`, in
both directions. -/
example : ∃ o, forDuration exEnv 10 (-25) exFixed = some o ∧ o.inst.st = ⟨-25, false⟩ ∧
    (∃ l, o.sent.getLast? = some l ∧ l.epoch = -25) ∧ o.inst.step = 10 ∧
    o.sent.map St.epoch = gridEpochs true 0 10 25 ∧
    (o.sent.map St.epoch).Pairwise (After true) := by
  obtain ⟨o, h, hr⟩ := exBackward
  have h1 := forDuration_arrives exEnv (demo_keeps _ _ _) 10 (-25) exFixed o _ h hr
  obtain ⟨⟨l, h2, h3, _⟩, _, _, h4⟩ := forDuration_completed exEnv (demo_keeps _ _ _) 10 (-25) exFixed 2
    (by decide) exFixed_drivable (fun _ => le_refl _) o _ h hr
  have h5 := fixed_step_grid exEnv (demo_keeps _ _ _) 10 (-25) 10 (by decide) (by decide) exFixed rfl rfl
    o _ h hr
  have h6 := propagate_published_ordered exEnv (demo_keeps _ _ _) never 10 (-25) exFixed () 2
    exFixed_drivable (fun _ => le_refl _) o h
  exact ⟨o, h, h1.2, ⟨l, h2, h3⟩, h4 rfl, h5, h6.1⟩

example : ∃ o, untilEpoch exEnv 10 25 exFixed = some o ∧ o.inst.st.epoch = 25 := by
  obtain ⟨o, h, hr⟩ := exForward
  have h1 := untilEpoch_arrives exEnv (demo_keeps _ _ _) 10 25 exFixed o _ h hr
  exact ⟨o, h, by rw [h1.2]⟩

/-- Forward and backward, fixed and adaptive. -/
example : (propagate exEnv never 13 25 exFixed ()).isSome ∧
    (propagate exEnv never 13 (-25) exAdaptive ()).isSome :=
  ⟨propagate_terminates exEnv (demo_keeps _ _ _) never 25 exFixed () 2 exFixed_drivable (by decide),
   propagate_terminates exEnv (demo_keeps _ _ _) never (-25) exAdaptive () 2 exAdaptive_drivable
    (fun _ => le_refl _)⟩

example : propagate exEnv never 0 0 exFixed () = some ⟨.ok ⟨0, false⟩, exFixed, [], ()⟩ :=
  propagate_zero _ _ _ _ _

example : ∃ i', runAll exEnv [(10, 25), (10, -7), (10, 0), (10, 33)] exFixed = some i' ∧
    i'.step = 10 ∧ i'.st.epoch = 51 := by
  have h : ∃ i', runAll exEnv [(10, 25), (10, -7), (10, 0), (10, 33)] exFixed = some i' := ⟨_, rfl⟩
  obtain ⟨i', h⟩ := h
  obtain ⟨_, _, h2, h3⟩ := reusable_partial exEnv (demo_keeps _ _ _) 2 (le_refl _) _ exFixed i'
    exFixed_drivable h
  exact ⟨i', h, h2 rfl, by rw [h3]; rfl⟩

/-- An adaptive forward step. -/
theorem exDerive : ∃ d, derive exEnv exAdaptive = .ok d := by
  simp only [derive, exAdaptive, Bool.false_eq_true, if_false]
  rw [deriveAdaptive]
  have h : accepts exEnv.opts (1/2) (toSec 10) 1 := by
    left; simp only [demo]; norm_num
  simp only [demo, Bool.false_eq_true, if_false] at h ⊢
  rw [if_pos h]
  exact ⟨_, rfl⟩

example : ∃ d, derive exEnv exAdaptive = .ok d ∧ 2 ≤ d.newStep ∧ d.newStep ≤ 1000 ∧
    d.attempts = (evaluations exEnv exAdaptive).length ∧ d.attempts ≤ 50 := by
  obtain ⟨d, h⟩ := exDerive
  obtain ⟨_, _, _, _, h1, h2⟩ := derive_forward_control exEnv (demo_sane _ (by norm_num) _ _) exAdaptive rfl
    (by simp [demo, exAdaptive]) (by simp [demo, exAdaptive]) d h
  obtain ⟨_, _, h3⟩ := derive_attempts_reported exEnv exAdaptive
  obtain ⟨h4, _, h5, _⟩ := h3 d h
  exact ⟨d, h, h1, h2, h4, h5⟩

/-- A rejected error estimate: several decreasing tries. -/
example : ((deriveAdaptive (demo 5 (fun _ => false) none) (⟨0, false⟩ : St Bool) 1 1).2).Pairwise (· > ·) ∧
    (deriveAdaptive (demo 5 (fun _ => false) none) (⟨0, false⟩ : St Bool) 1 1).2.length ≤ 50 :=
  ⟨(derive_forward_tries_decrease _ (demo_sane _ (by norm_num) _ _) _ _ _
      (by simp [demo, toSec]; norm_num)).1,
   (derive_evaluations_bounded _ _ _).2.1⟩

/-- Backward, with an error estimate above the tolerance. -/
example : ∃ d, derive (demo 5 (fun _ => false) none) (⟨⟨0, false⟩, -10, false⟩ : Inst Bool) = .ok d ∧
    d.attempts = 1 ∧ d.err = 5 ∧ d.dt = -10 := by
  obtain ⟨d, h1, h2, h3, _, h4⟩ := derive_backward_always_accepts (demo 5 (fun _ => false) none)
    (by simp [demo]) (⟨⟨0, false⟩, -10, false⟩ : Inst Bool) rfl (by decide) ⟨false, 5, false⟩ rfl rfl
  have := (backward_error_control_partial (demo 5 (fun _ => false) none) (by simp [demo])
    (⟨⟨0, false⟩, -10, false⟩ : Inst Bool) rfl (by decide) d h1).2
  exact ⟨d, h1, h2, h4, this⟩

example (fuel : Nat) : forDuration exEnv fuel 7 (⟨⟨0, false⟩, -10, true⟩ : Inst Bool) = none :=
  negative_step_diverges exEnv (demo_keeps _ _ _) (fun s h => ⟨_, rfl⟩) (fun s => ⟨_, rfl⟩) rfl _ rfl
    (by decide) 7 (by decide) fuel

example : (25 : Int) ∈ gridEpochs false 5 10 25 :=
  (mem_gridEpochs false 5 10 25 25 (by decide) (by decide)).2 (Or.inl ⟨2, by decide, by decide, by decide⟩)

/-- Three steps of 10 then 7. -/
example : ∃ o1 o2, forDuration exEnv 9 (3 * 10) exFixed = some o1 ∧
    forDuration exEnv 9 7 o1.inst = some o2 ∧
    ∃ n, forDuration exEnv n (3 * 10 + 7) exFixed = some ⟨o2.res, o2.inst, o1.sent ++ o2.sent, ()⟩ := by
  have h : ∃ o1 o2, forDuration exEnv 9 (3 * 10) exFixed = some o1 ∧
    forDuration exEnv 9 7 o1.inst = some o2 ∧ o1.res = .ok ⟨30, false⟩ := ⟨_, _, rfl, rfl, rfl⟩
  obtain ⟨o1, o2, h1, h2, h3⟩ := h
  exact ⟨o1, o2, h1, h2, fixed_step_composes exEnv (demo_keeps _ _ _) rfl
    (fun _ _ h => by simp only [demo, Except.ok.injEq] at h ⊢) 10 7 (by decide) (by decide) 3 (by decide)
    exFixed rfl rfl 9 9 o1 o2 _ h1 h3 h2⟩

/-- Integration in another frame. -/
example : ∃ o, forDuration (demo 0 (fun _ => false) (some true)) 9 25 exFixed = some o ∧
    ∃ s, o.res = .ok s ∧ s.x = false := by
  have h : ∃ o s, forDuration (demo 0 (fun _ => false) (some true)) 9 25 exFixed = some o ∧
      o.res = .ok s := ⟨_, _, rfl, rfl⟩
  obtain ⟨o, s, h1, h2⟩ := h
  refine ⟨o, h1, s, h2, result_frame_partial (demo 0 (fun _ => false) (some true)) (demo_keeps _ _ _)
    ⟨?_, ?_, ?_⟩ 9 25 exFixed o s h1 h2⟩
  · intro f s s' h; simp only [demo, Except.ok.injEq] at h; subst h; rfl
  · intro s h r hr; simp only [demo] at hr; simp at hr; subst hr; rfl
  · intro s s' h; simp only [demo, Except.ok.injEq] at h; subst h; rfl

/-- A stop condition that triggers. -/
example : ∃ o : Outcome Bool Unit Unit, propagate exEnv
      (fun _ s => (.ok (decide (s.epoch ≥ 20)), ())) 5 100 exFixed () = some o ∧
    o.res = .ok ⟨20, false⟩ ∧ o.sent.length = 1 := by
  have h : ∃ o : Outcome Bool Unit Unit, propagate exEnv
      (fun _ s => (.ok (decide (s.epoch ≥ 20)), ())) 5 100 exFixed () = some o ∧
      o.res = .ok ⟨20, false⟩ ∧ o.sent.length = 1 := ⟨_, rfl, rfl, rfl⟩
  obtain ⟨o, h1, h2, h3⟩ := h
  have := stop_condition_first exEnv (demo_keeps _ _ _) _ 5 100 exFixed () o _ h1 h2
  exact ⟨o, h1, h2, h3⟩

end Verif.Propagate
