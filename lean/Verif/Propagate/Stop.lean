import Verif.Propagate.Grid
/-!
Stop conditions of `propagate` (propagators/instance.rs:232-246) and C08 on `derive` itself.
-/
namespace Verif.Propagate

variable {X E Fr C : Type}

/-- Specification: the closure, started with memory `m`, answers `false` on every state of the list
in turn, and is left with memory `m'`. -/
inductive AllFalse (cond : Cond X E C) : C → List (St X) → C → Prop
  | nil (m : C) : AllFalse cond m [] m
  | snoc {m m1 m2 : C} {l : List (St X)} {s : St X} : AllFalse cond m l m1 →
      cond m1 s = (.ok false, m2) → AllFalse cond m (l ++ [s]) m2

theorem rotateBack_sent (env : Env X E Fr) (orig : Option Fr) (i : Inst X) (sent : List (St X))
    (m : C) : (rotateBack env orig i sent m).sent = sent ∧
      (rotateBack env orig i sent m).mem = m := by
  unfold rotateBack
  cases orig with
  | none => exact ⟨rfl, rfl⟩
  | some f => simp only; cases env.transform f i.st <;> exact ⟨rfl, rfl⟩

theorem loop_stop (env : Env X E Fr) (cond : Cond X E C) (back : Bool)
    (stop : Int) (orig : Option Fr) (n : Nat) (m0 : C) :
    ∀ (i : Inst X) (sent : List (St X)) (mem : C) (o : Outcome X E C) (s : St X),
      AllFalse cond m0 sent mem →
      loop env cond back stop orig n i sent mem = some o → o.res = .ok s →
      (∃ m1, AllFalse cond m0 o.sent m1 ∧ cond m1 s = (.ok true, o.mem) ∧ o.inst.st = s) ∨
      AllFalse cond m0 o.sent o.mem ∨
      (∃ l last, o.sent = l ++ [last] ∧ AllFalse cond m0 l o.mem) := by
  induction n with
  | zero => intro i sent mem o s _ h; simp [loop] at h
  | succ n ih =>
    intro i sent mem o s hI h hok
    rw [loop] at h
    simp only at h
    split at h
    · split at h
      · simp only [Option.some.injEq] at h
        subst h
        obtain ⟨h1, h2⟩ := rotateBack_sent env orig i sent mem
        right; left; rw [h1, h2]; exact hI
      · split at h
        · simp only [Option.some.injEq] at h; subst h; simp at hok
        · rename_i i' hi
          simp only [Option.some.injEq] at h
          subst h
          right; right
          refine ⟨_, _, (rotateBack_sent _ _ _ _ _).1, ?_⟩
          rw [(rotateBack_sent _ _ _ _ _).2]
          exact hI
    · split at h
      · simp only [Option.some.injEq] at h; subst h; simp at hok
      · rename_i i' hi
        split at h
        · simp only [Option.some.injEq] at h; subst h; simp at hok
        · rename_i m' hc
          simp only [Option.some.injEq] at h
          subst h
          simp only [Except.ok.injEq] at hok
          left; exact ⟨mem, hI, by rw [← hok]; exact hc, hok⟩
        · rename_i m' hc
          exact ih _ _ _ _ _ (.snoc hI hc) h hok

/-- **C85.** A propagation that returns a state either was stopped by its condition: then the
condition answered `true` for exactly the returned state (which is also the state of the instance),
and `false` for every published state before it, evaluated once each and in order; or it reached the
stop epoch: then the condition answered `false` on every published state but the last one, which
alone is not tested. -/
theorem stop_condition_first [DecidableEq Fr] (env : Env X E Fr) (hk : env.KeepsEpoch)
    (cond : Cond X E C) (fuel : Nat) (d : Int) (i : Inst X) (mem : C) (o : Outcome X E C) (s : St X)
    (h : propagate env cond fuel d i mem = some o) (hok : o.res = .ok s) :
    (∃ m1, AllFalse cond mem o.sent m1 ∧ cond m1 s = (.ok true, o.mem) ∧ o.inst.st = s) ∨
    AllFalse cond mem o.sent o.mem ∨
    (∃ l last, o.sent = l ++ [last] ∧ AllFalse cond mem l o.mem) := by
  by_cases hd : d = 0
  · unfold propagate at h
    rw [if_pos hd] at h
    simp only [Option.some.injEq] at h
    subst h
    right; left; exact .nil _
  · rcases propagate_cases env hk cond fuel d i mem hd with ⟨e, i', he⟩ | ⟨i', orig, hrun, _⟩
    · rw [he] at h; simp only [Option.some.injEq] at h; subst h; simp at hok
    · rw [hrun] at h
      exact loop_stop env cond _ _ _ _ _ _ _ _ _ _ (.nil _) h hok

/-- Non-vacuity of C85: stop at the first state from 20 ns on; 10 has been published. -/
example : ∃ o : Outcome Bool Unit Unit,
    propagate (demo 0 (fun _ => false) none)
      (fun _ s => (.ok (decide (s.epoch ≥ 20)), ())) 5 100
      ⟨⟨0, false⟩, 10, true⟩ () = some o ∧ o.res = .ok ⟨20, false⟩ ∧
      o.sent.map St.epoch = [10] := ⟨_, rfl, rfl, rfl⟩

/-- Specification for C08: the steps (in seconds) for which `derive` evaluates the stages. -/
def evaluations (env : Env X E Fr) (i : Inst X) : List Rat :=
  if i.fixed then [toSec i.step] else (deriveAdaptive env i.st 1 (toSec i.step)).2

/-- **C08.** Whatever the dynamics, the error estimates, the step, the direction: `derive` evaluates
the stages at least once and at most `max 1 attempts` times, and the number of attempts it reports is
the number of evaluations. -/
theorem derive_attempts_reported (env : Env X E Fr) (i : Inst X) :
    1 ≤ (evaluations env i).length ∧ (evaluations env i).length ≤ max 1 env.opts.attempts ∧
    ∀ d, derive env i = .ok d → d.attempts = (evaluations env i).length ∧
      1 ≤ d.attempts ∧ d.attempts ≤ max 1 env.opts.attempts ∧
      (∃ r, env.rk i.st d.used = .ok r ∧ r.x = d.x) ∧ (evaluations env i).getLast? = some d.used := by
  have key : ∀ (n : Nat) (s : Rat) (d : Derived X), (deriveAdaptive env i.st n s).1 = .ok d →
      (∃ r, env.rk i.st d.used = .ok r ∧ r.x = d.x) ∧
      (deriveAdaptive env i.st n s).2.getLast? = some d.used := by
    intro n s d
    fun_induction deriveAdaptive env i.st n s with
    | case1 n s e h => intro hd; simp at hd
    | case2 n s r h ha hn => intro hd; simp at hd
    | case3 n s r h ha hn s' =>
      intro hd
      simp only [Except.ok.injEq] at hd
      subst hd
      exact ⟨⟨r, h, rfl⟩, by simp⟩
    | case4 n s r h ha rec_ ih =>
      intro hd
      obtain ⟨h1, h2⟩ := ih hd
      refine ⟨h1, ?_⟩
      rw [List.getLast?_cons, h2]; rfl
  unfold evaluations derive
  cases hf : i.fixed with
  | true =>
    simp only [if_true]
    refine ⟨by simp, by simp, ?_⟩
    intro d hd
    split at hd
    · simp at hd
    · rename_i r hr
      simp only [Except.ok.injEq] at hd
      subst hd
      exact ⟨rfl, by simp, by simp, ⟨r, hr, rfl⟩, rfl⟩
  | false =>
    simp only [Bool.false_eq_true, if_false]
    obtain ⟨h1, h2, h3⟩ := derive_evaluations_bounded env i.st (toSec i.step)
    refine ⟨h1, h2, ?_⟩
    intro d hd
    have := h3 d hd
    obtain ⟨k1, k2⟩ := key _ _ d hd
    exact ⟨this, by omega, by omega, k1, k2⟩

example : ∃ d, derive (demo (1/2) (fun _ => false) none)
    (⟨⟨0, false⟩, 10, false⟩ : Inst Bool) = .ok d := by
  simp only [derive, Bool.false_eq_true, if_false]
  rw [deriveAdaptive]
  have h : accepts (demo (1/2) (fun _ => false) none).opts (1/2) (toSec 10) 1 := by
    left; simp only [demo]; norm_num
  simp only [demo, Bool.false_eq_true, if_false] at h ⊢
  rw [if_pos h]
  exact ⟨_, rfl⟩

end Verif.Propagate
