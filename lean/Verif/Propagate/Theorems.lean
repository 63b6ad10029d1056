import Verif.Propagate.Lemmas
import Mathlib.Tactic.Ring
/-!
Property theorems about propagation (C01 – C08, C10, C11 and the frame property).
-/
namespace Verif.Propagate

variable {X E Fr C : Type}

/-! ## Specification vocabulary (independent of the loop) -/

/-- `+1` forward, `-1` backward. -/
def dirn (back : Bool) : Int := if back then -1 else 1

/-- `b` is strictly later than `a` in the direction of propagation. -/
def After (back : Bool) (a b : Int) : Prop := 0 < dirn back * (b - a)

/-- A step size that can drive a propagation: at least `m` nanoseconds long, and if the step is
adaptive the controller's options are sane and do not allow steps under `m`. -/
structure Drivable (env : Env X E Fr) (m : Int) (i : Inst X) : Prop where
  pos : 0 < m
  step : m ≤ i.step
  ctl : i.fixed = false → env.SaneControl ∧ m ≤ env.opts.minStep

/-! ## Lemmas on the loop -/

theorem rotateBack_spec (env : Env X E Fr) (hk : env.KeepsEpoch) (orig : Option Fr) (i : Inst X)
    (sent : List (St X)) (m : C) :
    (rotateBack env orig i sent m).sent = sent ∧
    (rotateBack env orig i sent m).inst.step = i.step ∧
    (rotateBack env orig i sent m).inst.fixed = i.fixed ∧
    (∀ s, (rotateBack env orig i sent m).res = .ok s →
      s.epoch = i.st.epoch ∧ (rotateBack env orig i sent m).inst.st = s ∧
      (orig = none → s = i.st)) := by
  unfold rotateBack
  cases orig with
  | none => simp
  | some f =>
    simp only
    split
    · simp
    · rename_i s hs
      refine ⟨rfl, rfl, rfl, ?_⟩
      intro s' h
      simp only [Except.ok.injEq] at h
      subst h
      exact ⟨hk.tr _ _ _ hs, rfl, by simp⟩

theorem loop_arrives (env : Env X E Fr) (hk : env.KeepsEpoch) (back : Bool) (stop : Int)
    (orig : Option Fr) (n : Nat) : ∀ (i : Inst X) (sent : List (St X)) (o : Outcome X E Unit)
    (s : St X), loop env never back stop orig n i sent () = some o → o.res = .ok s →
      s.epoch = stop ∧ o.inst.st = s := by
  induction n with
  | zero => intro i sent o s h; simp [loop] at h
  | succ n ih =>
    intro i sent o s h hs
    rw [loop] at h
    simp only at h
    split at h
    · split at h
      · rename_i he
        simp only [Option.some.injEq] at h
        subst h
        obtain ⟨_, _, _, h4⟩ := rotateBack_spec env hk orig i sent ()
        obtain ⟨a, b, _⟩ := h4 s hs
        exact ⟨by omega, b⟩
      · split at h
        · simp only [Option.some.injEq] at h; subst h; simp at hs
        · rename_i i' hi
          simp only [Option.some.injEq] at h
          subst h
          obtain ⟨_, _, _, h4⟩ := rotateBack_spec env hk orig
            { i' with step := if back then -i.step else i.step, fixed := i.fixed }
            (sent ++ [i'.st]) ()
          obtain ⟨a, b, _⟩ := h4 s hs
          have := (singleStep_fixed hk rfl hi).1
          simp only at this a
          exact ⟨by omega, b⟩
    · split at h
      · simp only [Option.some.injEq] at h; subst h; simp at hs
      · simp only [never] at h
        exact ih _ _ _ _ h hs

/-- One step in the direction of propagation. -/
theorem singleStep_dir (env : Env X E Fr) (hk : env.KeepsEpoch) (back : Bool) {m : Int}
    (hm : 0 < m) (hb : back = true → 2 ≤ m) {i i' : Inst X}
    (hs : m ≤ dirn back * i.step)
    (hc : i.fixed = false → env.SaneControl ∧ m ≤ env.opts.minStep)
    (h : singleStep env i = (.ok (), i')) :
    m ≤ dirn back * (i'.st.epoch - i.st.epoch) ∧
    dirn back * (i'.st.epoch - i.st.epoch) ≤ dirn back * i.step ∧
    m ≤ dirn back * i'.step ∧ i'.fixed = i.fixed ∧ (i.fixed = true → i'.step = i.step) := by
  by_cases hf : i.fixed = true
  · obtain ⟨a, b, c⟩ := singleStep_fixed hk hf h
    rw [b, a, c, hf]
    have : i.st.epoch + i.step - i.st.epoch = i.step := by ring
    rw [this]
    exact ⟨hs, le_refl _, hs, rfl, fun _ => rfl⟩
  · have hf' : i.fixed = false := by simpa using hf
    obtain ⟨hc1, hc2⟩ := hc hf'
    cases back with
    | false =>
      simp only [dirn] at *
      obtain ⟨a, b, c, d⟩ := singleStep_fwd hk hc1 (by simp at hs; omega) h
      simp only [Bool.false_eq_true, if_false, one_mul] at *
      refine ⟨?_, by omega, ?_, d, fun h => absurd h hf⟩
      · have : m ≤ min env.opts.minStep i.step := le_min hc2 hs
        omega
      · rcases c with c | c <;> omega
    | true =>
      have hb' := hb rfl
      simp only [dirn, if_true] at *
      obtain ⟨a, b, c⟩ := singleStep_bwd hk hc1 (by omega) (by omega) h
      refine ⟨by omega, by omega, ?_, c, fun h => absurd h hf⟩
      rcases b with b | b <;> omega

/-- The invariant of the published list. -/
structure Inv (back : Bool) (start : Int) (i : Inst X) (sent : List (St X)) : Prop where
  sorted : (sent.map St.epoch).Pairwise (After back)
  past : ∀ s ∈ sent, After back start s.epoch ∧ 0 ≤ dirn back * (i.st.epoch - s.epoch)
  begun : 0 ≤ dirn back * (i.st.epoch - start)
  last : (sent = [] ∧ i.st.epoch = start) ∨ sent.getLast? = some i.st

theorem Inv.push {back : Bool} {start : Int} {i : Inst X} {sent : List (St X)}
    (h : Inv back start i sent) {i' : Inst X} (ha : After back i.st.epoch i'.st.epoch) :
    Inv back start i' (sent ++ [i'.st]) := by
  have hd : dirn back * (i'.st.epoch - start) =
      dirn back * (i'.st.epoch - i.st.epoch) + dirn back * (i.st.epoch - start) := by ring
  have hb := h.begun
  unfold After at *
  constructor
  · rw [List.map_append, List.pairwise_append]
    refine ⟨h.sorted, by simp, ?_⟩
    intro a hsa b hsb
    simp only [List.map_cons, List.map_nil, List.mem_singleton] at hsb
    subst hsb
    obtain ⟨s, hs, rfl⟩ := List.mem_map.mp hsa
    have h2 := (h.past s hs).2
    have h3 : dirn back * (i'.st.epoch - s.epoch) =
      dirn back * (i'.st.epoch - i.st.epoch) + dirn back * (i.st.epoch - s.epoch) := by ring
    unfold After
    omega
  · intro s hs
    rcases List.mem_append.mp hs with hs | hs
    · obtain ⟨h1, h2⟩ := h.past s hs
      refine ⟨h1, ?_⟩
      have h3 : dirn back * (i'.st.epoch - s.epoch) =
        dirn back * (i'.st.epoch - i.st.epoch) + dirn back * (i.st.epoch - s.epoch) := by ring
      omega
    · simp only [List.mem_singleton] at hs
      subst hs
      unfold After
      refine ⟨by omega, by simp⟩
  · omega
  · right; simp

/-- What holds of every outcome of the loop, whatever the stop condition and the failures. -/
structure Post (env : Env X E Fr) (back : Bool) (start stop : Int) (m : Int) (i : Inst X)
    (orig : Option Fr) (o : Outcome X E C) : Prop where
  sorted : (o.sent.map St.epoch).Pairwise (After back)
  past : ∀ s ∈ o.sent, After back start s.epoch ∧ 0 ≤ dirn back * (stop - s.epoch)

theorem loop_post (env : Env X E Fr) (hk : env.KeepsEpoch) (cond : Cond X E C) (back : Bool)
    (start stop : Int) (orig : Option Fr) {m : Int} (hm : 0 < m) (hb : back = true → 2 ≤ m)
    (n : Nat) : ∀ (i : Inst X) (sent : List (St X)) (mem : C) (o : Outcome X E C),
      m ≤ dirn back * i.step →
      (i.fixed = false → env.SaneControl ∧ m ≤ env.opts.minStep) →
      0 ≤ dirn back * (stop - i.st.epoch) →
      Inv back start i sent →
      loop env cond back stop orig n i sent mem = some o → Post env back start stop m i orig o := by
  induction n with
  | zero => intro i sent mem o _ _ _ _ h; simp [loop] at h
  | succ n ih =>
    intro i sent mem o hs hc hr hI h
    have key : ∀ s ∈ sent, After back start s.epoch ∧ 0 ≤ dirn back * (stop - s.epoch) := by
      intro s hs
      obtain ⟨h1, h2⟩ := hI.past s hs
      refine ⟨h1, ?_⟩
      have h3 : dirn back * (stop - s.epoch) =
        dirn back * (stop - i.st.epoch) + dirn back * (i.st.epoch - s.epoch) := by ring
      omega
    rw [loop] at h
    simp only at h
    split at h
    · rename_i hfin
      split at h
      · simp only [Option.some.injEq] at h
        subst h
        have hrb := rotateBack_spec env hk orig i sent mem
        exact ⟨by rw [hrb.1]; exact hI.sorted, by rw [hrb.1]; exact key⟩
      · rename_i hne
        split at h
        · simp only [Option.some.injEq] at h
          subst h
          exact ⟨hI.sorted, key⟩
        · rename_i i' hi
          simp only [Option.some.injEq] at h
          subst h
          have hst := (singleStep_fixed hk rfl hi).1
          simp only at hst
          have hst' : i'.st.epoch = stop := by omega
          have haft : After back i.st.epoch i'.st.epoch := by
            unfold After; rw [hst']
            cases back <;> simp only [dirn] at * <;> simp at * <;> omega
          have hI' := hI.push haft
          have hrb := rotateBack_spec env hk orig
            { i' with step := if back then -i.step else i.step, fixed := i.fixed }
            (sent ++ [i'.st]) mem
          refine ⟨by rw [hrb.1]; exact hI'.sorted, ?_⟩
          rw [hrb.1]
          intro s hs'
          obtain ⟨h1, h2⟩ := hI'.past s hs'
          rw [hst'] at h2
          exact ⟨h1, h2⟩
    · rename_i hnf
      split at h
      · simp only [Option.some.injEq] at h
        subst h
        exact ⟨hI.sorted, key⟩
      · rename_i i' hi
        obtain ⟨a, b, c, d, _⟩ := singleStep_dir env hk back hm hb hs hc hi
        have haft : After back i.st.epoch i'.st.epoch := by unfold After; omega
        split at h
        · simp only [Option.some.injEq] at h
          subst h
          exact ⟨hI.sorted, key⟩
        · simp only [Option.some.injEq] at h
          subst h
          exact ⟨hI.sorted, key⟩
        · refine ?_
          have hr' : 0 ≤ dirn back * (stop - i'.st.epoch) := by
            cases back <;> simp only [dirn] at * <;> simp at * <;> omega
          have := ih i' (sent ++ [i'.st]) _ o c (by rw [d]; exact hc) hr' (hI.push haft) h
          exact ⟨this.sorted, this.past⟩

/-- On completion the last published state is at the stop epoch, the instance is as before. -/
theorem loop_done (env : Env X E Fr) (hk : env.KeepsEpoch) (back : Bool)
    (start stop : Int) (orig : Option Fr) {m : Int} (hm : 0 < m) (hb : back = true → 2 ≤ m)
    (hne : start ≠ stop)
    (n : Nat) : ∀ (i : Inst X) (sent : List (St X)) (o : Outcome X E Unit) (s : St X),
      m ≤ dirn back * i.step →
      (i.fixed = false → env.SaneControl ∧ m ≤ env.opts.minStep) →
      0 ≤ dirn back * (stop - i.st.epoch) → (back = true → i.st.epoch ≠ stop) →
      Inv back start i sent →
      loop env never back stop orig n i sent () = some o → o.res = .ok s →
      (∃ l, o.sent.getLast? = some l ∧ l.epoch = stop ∧ (orig = none → l = s)) ∧
      m ≤ o.inst.step ∧ o.inst.fixed = i.fixed ∧
      (i.fixed = true → o.inst.step = dirn back * i.step) := by
  induction n with
  | zero => intro i sent o s _ _ _ _ _ h; simp [loop] at h
  | succ n ih =>
    intro i sent o s hs hc hr hbe hI h hok
    rw [loop] at h
    simp only at h
    split at h
    · rename_i hfin
      split at h
      · rename_i he
        simp only [Option.some.injEq] at h
        subst h
        obtain ⟨r1, r2, r3, r4⟩ := rotateBack_spec env hk orig i sent ()
        obtain ⟨q1, q2, q3⟩ := r4 s hok
        have hbf : back = false := by
          cases back with
          | false => rfl
          | true => exact absurd he.symm (hbe rfl)
        subst hbf
        refine ⟨?_, ?_, r3, ?_⟩
        · rw [r1]
          rcases hI.last with ⟨_, h2⟩ | h2
          · omega
          · exact ⟨i.st, h2, he.symm, fun ho => (q3 ho).symm⟩
        · rw [r2]; simpa [dirn] using hs
        · intro _; rw [r2]; simp [dirn]
      · split at h
        · simp only [Option.some.injEq] at h; subst h; simp at hok
        · rename_i i' hi
          simp only [Option.some.injEq] at h
          subst h
          have hst := (singleStep_fixed hk rfl hi).1
          simp only at hst
          obtain ⟨r1, r2, r3, r4⟩ := rotateBack_spec env hk orig
            { i' with step := if back then -i.step else i.step, fixed := i.fixed }
            (sent ++ [i'.st]) ()
          obtain ⟨q1, q2, q3⟩ := r4 s hok
          have hdir : (if back = true then -i.step else i.step) = dirn back * i.step := by
            cases back <;> simp [dirn]
          refine ⟨?_, ?_, r3, ?_⟩
          · rw [r1]
            exact ⟨i'.st, by simp, by omega, fun ho => (q3 ho).symm⟩
          · rw [r2]; simp only; rw [hdir]; exact hs
          · intro _; rw [r2]; simp only; rw [hdir]
    · rename_i hnf
      split at h
      · simp only [Option.some.injEq] at h; subst h; simp at hok
      · rename_i i' hi
        obtain ⟨a, b, c, d, e⟩ := singleStep_dir env hk back hm hb hs hc hi
        simp only [never] at h
        have haft : After back i.st.epoch i'.st.epoch := by unfold After; omega
        have hr' : 0 ≤ dirn back * (stop - i'.st.epoch) ∧ (back = true → i'.st.epoch ≠ stop) := by
          cases back <;> simp only [dirn] at * <;> simp at * <;> omega
        obtain ⟨w1, w2, w3, w4⟩ :=
          ih i' (sent ++ [i'.st]) o s c (by rw [d]; exact hc) hr'.1 hr'.2 (hI.push haft) h hok
        refine ⟨w1, w2, by rw [w3, d], ?_⟩
        intro hf
        rw [w4 (by rw [d, hf]), e hf]

theorem loop_terminates (env : Env X E Fr) (hk : env.KeepsEpoch) (cond : Cond X E C) (back : Bool)
    (stop : Int) (orig : Option Fr) {m : Int} (hm : 0 < m) (hb : back = true → 2 ≤ m)
    (n : Nat) : ∀ (i : Inst X) (sent : List (St X)) (mem : C),
      m ≤ dirn back * i.step →
      (i.fixed = false → env.SaneControl ∧ m ≤ env.opts.minStep) →
      0 ≤ dirn back * (stop - i.st.epoch) →
      dirn back * (stop - i.st.epoch) < n * m →
      (loop env cond back stop orig n i sent mem).isSome := by
  induction n with
  | zero => intro i sent mem _ _ h1 h2; simp at h2; omega
  | succ n ih =>
    intro i sent mem hs hc hr hn
    rw [loop]
    simp only
    split
    · split
      · simp
      · split <;> simp
    · rename_i hnf
      split
      · simp
      · rename_i i' hi
        obtain ⟨a, b, c, d, e⟩ := singleStep_dir env hk back hm hb hs hc hi
        split
        · simp
        · simp
        · apply ih _ _ _ c (by rw [d]; exact hc)
          · cases back <;> simp only [dirn] at * <;> simp at * <;> omega
          · have h3 : dirn back * (stop - i'.st.epoch) =
              dirn back * (stop - i.st.epoch) - dirn back * (i'.st.epoch - i.st.epoch) := by ring
            push_cast at hn
            rw [h3]
            have : ((n : Int) + 1) * m = n * m + m := by ring
            omega

/-- `propagate` with a non zero duration is the loop from a prepared instance, or an early
error that publishes nothing. -/
theorem propagate_cases [DecidableEq Fr] (env : Env X E Fr) (hk : env.KeepsEpoch)
    (cond : Cond X E C) (fuel : Nat) (d : Int) (i : Inst X) (mem : C) (hd : d ≠ 0) :
    (∃ e i', propagate env cond fuel d i mem = some ⟨.error e, i', [], mem⟩) ∨
    (∃ i' orig, propagate env cond fuel d i mem =
        loop env cond (decide (d < 0)) (i.st.epoch + d) orig fuel i' [] mem ∧
      i'.st.epoch = i.st.epoch ∧ i'.fixed = i.fixed ∧
      i'.step = (if d < 0 then -i.step else i.step) ∧
      (env.integrationFrame = none → orig = none)) := by
  unfold propagate
  rw [if_neg hd]
  simp only
  split
  · left; exact ⟨_, _, rfl⟩
  · rename_i s hs
    have hse := hk.fin _ _ hs
    split
    · right
      exact ⟨_, none, rfl, hse, rfl, by simp, fun _ => rfl⟩
    · split
      · right
        exact ⟨_, none, rfl, hse, rfl, by simp, fun _ => rfl⟩
      · split
        · left; exact ⟨_, _, rfl⟩
        · rename_i s' hs'
          right
          refine ⟨_, some _, rfl, ?_, rfl, by simp, ?_⟩
          · have := hk.tr _ _ _ hs'; simp only at this ⊢; omega
          · intro h; simp_all

/-! ## C01 -/

/-- **C01.** A propagation without stop condition that returns `Ok` returns a state at exactly the
start epoch plus the duration (forward or backward), and that state is the instance's new state.
No assumption at all on the step sizes or the step controller. -/
theorem forDuration_arrives [DecidableEq Fr] (env : Env X E Fr) (hk : env.KeepsEpoch)
    (fuel : Nat) (d : Int) (i : Inst X) (o : Outcome X E Unit) (s : St X)
    (h : forDuration env fuel d i = some o) (hs : o.res = .ok s) :
    s.epoch = i.st.epoch + d ∧ o.inst.st = s := by
  unfold forDuration at h
  by_cases hd : d = 0
  · unfold propagate at h
    rw [if_pos hd] at h
    simp only [Option.some.injEq] at h
    subst h
    simp only [Except.ok.injEq] at hs
    subst hs
    exact ⟨by omega, rfl⟩
  · rcases propagate_cases env hk never fuel d i () hd with ⟨e, i', h'⟩ | ⟨i', orig, h', h1, h2, h3, _⟩
    · rw [h'] at h
      simp only [Option.some.injEq] at h
      subst h
      simp at hs
    · rw [h'] at h
      exact loop_arrives env hk _ _ _ _ _ _ _ _ h hs

/-- **C01**, `until_epoch`: the returned state is at the requested epoch. -/
theorem untilEpoch_arrives [DecidableEq Fr] (env : Env X E Fr) (hk : env.KeepsEpoch)
    (fuel : Nat) (e : Int) (i : Inst X) (o : Outcome X E Unit) (s : St X)
    (h : untilEpoch env fuel e i = some o) (hs : o.res = .ok s) :
    s.epoch = e ∧ o.inst.st = s := by
  obtain ⟨a, b⟩ := forDuration_arrives env hk fuel _ i o s h hs
  exact ⟨by omega, b⟩

/-! ## C02 -/

/-- **C02 (every outcome).** Whatever the direction, the stop condition, and wherever a failure
occurs, the published states are strictly ordered in the direction of propagation, strictly past
the start epoch and never past the stop epoch. -/
theorem propagate_published_ordered [DecidableEq Fr] (env : Env X E Fr) (hk : env.KeepsEpoch)
    (cond : Cond X E C) (fuel : Nat) (d : Int) (i : Inst X) (mem : C) (m : Int)
    (hi : Drivable env m i) (hb : d < 0 → 2 ≤ m) (o : Outcome X E C)
    (h : propagate env cond fuel d i mem = some o) :
    (o.sent.map St.epoch).Pairwise (After (decide (d < 0))) ∧
    ∀ s ∈ o.sent, After (decide (d < 0)) i.st.epoch s.epoch ∧
      ¬ After (decide (d < 0)) (i.st.epoch + d) s.epoch := by
  by_cases hd : d = 0
  · unfold propagate at h
    rw [if_pos hd] at h
    simp only [Option.some.injEq] at h
    subst h
    simp
  · rcases propagate_cases env hk cond fuel d i mem hd with ⟨e, i', h'⟩ | ⟨i', orig, h', h1, h2, h3, _⟩
    · rw [h'] at h
      simp only [Option.some.injEq] at h
      subst h
      simp
    · rw [h'] at h
      have hst : m ≤ dirn (decide (d < 0)) * i'.step := by
        have := hi.step
        rw [h3]; unfold dirn
        by_cases hn : d < 0 <;> simp [hn] <;> omega
      have hrem : 0 ≤ dirn (decide (d < 0)) * (i.st.epoch + d - i'.st.epoch) := by
        rw [h1]; unfold dirn
        by_cases hn : d < 0 <;> simp [hn] <;> omega
      have hP := loop_post env hk cond (decide (d < 0)) i.st.epoch (i.st.epoch + d) orig hi.pos
        (by simpa using hb) fuel i' [] mem o hst (by rw [h2]; exact hi.ctl) hrem
        ⟨by simp, by simp, by rw [h1]; simp, Or.inl ⟨rfl, h1⟩⟩ h
      refine ⟨hP.sorted, ?_⟩
      intro s hs
      obtain ⟨a, b⟩ := hP.past s hs
      refine ⟨a, ?_⟩
      unfold After
      have : dirn (decide (d < 0)) * (s.epoch - (i.st.epoch + d)) =
        - (dirn (decide (d < 0)) * (i.st.epoch + d - s.epoch)) := by ring
      omega

/-- **C02 (completed) and C04 (completed).** When a propagation over a non zero duration completes,
the last published state is at the stop epoch and is the returned state (when no frame change is
configured); the instance keeps its fixed/adaptive flag, its step is positive again (at least `m`),
and a fixed step is exactly what it was. -/
theorem forDuration_completed [DecidableEq Fr] (env : Env X E Fr) (hk : env.KeepsEpoch)
    (fuel : Nat) (d : Int) (i : Inst X) (m : Int) (hd : d ≠ 0)
    (hi : Drivable env m i) (hb : d < 0 → 2 ≤ m) (o : Outcome X E Unit) (s : St X)
    (h : forDuration env fuel d i = some o) (hs : o.res = .ok s) :
    (∃ l, o.sent.getLast? = some l ∧ l.epoch = i.st.epoch + d ∧
      (env.integrationFrame = none → l = s)) ∧
    m ≤ o.inst.step ∧ o.inst.fixed = i.fixed ∧ (i.fixed = true → o.inst.step = i.step) := by
  unfold forDuration at h
  rcases propagate_cases env hk never fuel d i () hd with ⟨e, i', h'⟩ | ⟨i', orig, h', h1, h2, h3, h4⟩
  · rw [h'] at h
    simp only [Option.some.injEq] at h
    subst h
    simp at hs
  · rw [h'] at h
    have hst : m ≤ dirn (decide (d < 0)) * i'.step := by
      have := hi.step
      rw [h3]; unfold dirn
      by_cases hn : d < 0 <;> simp [hn] <;> omega
    have hrem : 0 ≤ dirn (decide (d < 0)) * (i.st.epoch + d - i'.st.epoch) := by
      rw [h1]; unfold dirn
      by_cases hn : d < 0 <;> simp [hn] <;> omega
    obtain ⟨⟨l, w1, w2, w3⟩, w4, w5, w6⟩ :=
      loop_done env hk (decide (d < 0)) i.st.epoch (i.st.epoch + d) orig hi.pos
      (by simpa using hb) (by omega) fuel i' [] o s hst (by rw [h2]; exact hi.ctl) hrem
      (by intro _; omega)
      ⟨by simp, by simp, by rw [h1]; simp, Or.inl ⟨rfl, h1⟩⟩ h hs
    refine ⟨⟨l, w1, w2, fun hn => w3 (h4 hn)⟩, w4, by rw [w5, h2], ?_⟩
    intro hf
    rw [w6 (by rw [h2, hf]), h3]
    unfold dirn
    by_cases hn : d < 0 <;> simp [hn]

/-! ## C03 -/

/-- **C03.** With steps of at least `m`, `|d| / m + 1` loop iterations (hence integrator calls) are
enough, whatever the stop condition and the failures: the propagation returns. -/
theorem propagate_terminates [DecidableEq Fr] (env : Env X E Fr) (hk : env.KeepsEpoch)
    (cond : Cond X E C) (d : Int) (i : Inst X) (mem : C) (m : Int)
    (hi : Drivable env m i) (hb : d < 0 → 2 ≤ m) :
    (propagate env cond (d.natAbs / m.natAbs + 1) d i mem).isSome := by
  by_cases hd : d = 0
  · unfold propagate; rw [if_pos hd]; simp
  · rcases propagate_cases env hk cond (d.natAbs / m.natAbs + 1) d i mem hd with
      ⟨e, i', h'⟩ | ⟨i', orig, h', h1, h2, h3, _⟩
    · rw [h']; simp
    · rw [h']
      have hst : m ≤ dirn (decide (d < 0)) * i'.step := by
        have := hi.step
        rw [h3]; unfold dirn
        by_cases hn : d < 0 <;> simp [hn] <;> omega
      have hrem : dirn (decide (d < 0)) * (i.st.epoch + d - i'.st.epoch) = (d.natAbs : Int) := by
        rw [h1]; unfold dirn
        by_cases hn : d < 0
        · simp only [hn, decide_true, if_true]; omega
        · simp only [hn, decide_false, Bool.false_eq_true, if_false]; omega
      apply loop_terminates env hk cond _ _ _ hi.pos (by simpa using hb) _ _ _ _ hst
        (by rw [h2]; exact hi.ctl)
      · rw [hrem]; omega
      · rw [hrem]
        have hmpos : 0 < m.natAbs := by have := hi.pos; omega
        have h5 := Nat.div_add_mod d.natAbs m.natAbs
        have h6 := Nat.mod_lt d.natAbs hmpos
        have h7 : d.natAbs < (d.natAbs / m.natAbs + 1) * m.natAbs := by
          rw [Nat.add_mul, Nat.one_mul, Nat.mul_comm]; omega
        have h8 : (m.natAbs : Int) = m := by have := hi.pos; omega
        calc (d.natAbs : Int) < (((d.natAbs / m.natAbs + 1) * m.natAbs : Nat) : Int) := by
              exact_mod_cast h7
          _ = ((d.natAbs / m.natAbs + 1 : Nat) : Int) * m := by
              rw [Nat.cast_mul, h8]

/-! ## C05 -/

/-- **C05.** A zero duration propagation returns the current state, publishes nothing, calls
nothing (it succeeds with no fuel), and leaves the instance unchanged, for any stop condition. -/
theorem propagate_zero [DecidableEq Fr] (env : Env X E Fr) (cond : Cond X E C) (i : Inst X)
    (mem : C) (fuel : Nat) : propagate env cond fuel 0 i mem = some ⟨.ok i.st, i, [], mem⟩ := by
  simp [propagate]

end Verif.Propagate
