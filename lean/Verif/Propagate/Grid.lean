import Verif.Propagate.Control
/-!
Property theorems: fixed step grid (C10), composition (C11), frame of the result (C76).
-/
namespace Verif.Propagate

variable {X E Fr C : Type}

/-! ## C10 -/

/-- Specification: the epochs `start + σ k h` for `k ≥ 1`, `k h < d`, followed by `start + σ d`. -/
def gridEpochs (back : Bool) (start h d : Int) : List Int :=
  (List.range ((d - 1) / h).toNat).map (fun (k : Nat) => start + dirn back * ((k : Int) + 1) * h)
    ++ [start + dirn back * d]

/-- What the grid means: its members are exactly the start plus the multiples of the step before
the end, and the end. -/
theorem mem_gridEpochs (back : Bool) (start h d e : Int) (hh : 0 < h) (_hd : 0 < d) :
    e ∈ gridEpochs back start h d ↔
      (∃ k : Nat, 1 ≤ k ∧ k * h < d ∧ e = start + dirn back * k * h) ∨
        e = start + dirn back * d := by
  unfold gridEpochs
  simp only [List.mem_append, List.mem_map, List.mem_range, List.mem_singleton]
  constructor
  · rintro (⟨k, hk, rfl⟩ | rfl)
    · left
      refine ⟨k + 1, by omega, ?_, by push_cast; ring⟩
      have h1 : (k : Int) + 1 ≤ (d - 1) / h := by omega
      have h2 := (Int.le_ediv_iff_mul_le hh).mp h1
      push_cast; omega
    · right; rfl
  · rintro (⟨k, hk, hlt, rfl⟩ | rfl)
    · left
      refine ⟨k - 1, ?_, ?_⟩
      · have : (k : Int) ≤ (d - 1) / h := (Int.le_ediv_iff_mul_le hh).mpr (by omega)
        omega
      · have : ((k - 1 : Nat) : Int) + 1 = k := by omega
        rw [this]
    · right; rfl

theorem gridEpochs_last (back : Bool) (start h d : Int) (_hh : 0 < h) (hd : 0 < d) (hle : d ≤ h) :
    gridEpochs back start h d = [start + dirn back * d] := by
  unfold gridEpochs
  have : (d - 1) / h = 0 := Int.ediv_eq_zero_of_lt (by omega) (by omega)
  rw [this]; simp

theorem gridEpochs_succ (back : Bool) (start h d : Int) (hh : 0 < h) (hlt : h < d) :
    gridEpochs back start h d =
      (start + dirn back * h) :: gridEpochs back (start + dirn back * h) h (d - h) := by
  unfold gridEpochs
  have h1 : (d - 1) / h = (d - h - 1) / h + 1 := by
    have : d - 1 = (d - h - 1) + h * 1 := by ring
    rw [this, Int.add_mul_ediv_left _ _ (by omega)]
  have h2 : 0 ≤ (d - h - 1) / h := Int.ediv_nonneg (by omega) hh.le
  have h3 : ((d - 1) / h).toNat = ((d - h - 1) / h).toNat + 1 := by omega
  rw [h3, List.range_succ_eq_map]
  simp only [List.map_cons, List.cons_append, List.map_map]
  congr 1
  · push_cast; ring
  · congr 1
    · apply List.map_congr_left
      intro k _
      simp only [Function.comp]
      push_cast; ring
    · congr 1; ring

theorem loop_grid (env : Env X E Fr) (hk : env.KeepsEpoch) (back : Bool) (stop hstp : Int)
    (orig : Option Fr) (hh : 0 < hstp) (n : Nat) : ∀ (i : Inst X) (sent : List (St X))
    (o : Outcome X E Unit) (s : St X), i.fixed = true → i.step = dirn back * hstp →
      0 < dirn back * (stop - i.st.epoch) →
      loop env never back stop orig n i sent () = some o → o.res = .ok s →
      o.sent.map St.epoch = sent.map St.epoch ++
        gridEpochs back i.st.epoch hstp (dirn back * (stop - i.st.epoch)) := by
  induction n with
  | zero => intro i sent o s _ _ _ h; simp [loop] at h
  | succ n ih =>
    intro i sent o s hf hst hrem h hok
    have hback : dirn back * (dirn back * (stop - i.st.epoch)) = stop - i.st.epoch := by
      cases back <;> simp [dirn]
    rw [loop] at h
    simp only at h
    split at h
    · rename_i hfin
      split at h
      · rename_i he; rw [he] at hrem; simp at hrem
      · split at h
        · simp only [Option.some.injEq] at h; subst h; simp at hok
        · rename_i i' hi
          simp only [Option.some.injEq] at h
          subst h
          have hst' := (singleStep_fixed hk rfl hi).1
          simp only at hst'
          rw [(rotateBack_spec env hk orig _ _ ()).1, List.map_append]
          congr 1
          rw [gridEpochs_last _ _ _ _ hh hrem]
          · rw [hback]; simp [hst']
          · rw [hst] at hfin
            cases back <;> simp only [dirn] at * <;> simp at * <;> omega
    · rename_i hnf
      split at h
      · simp only [Option.some.injEq] at h; subst h; simp at hok
      · rename_i i' hi
        simp only [never] at h
        obtain ⟨a, b, c⟩ := singleStep_fixed hk hf hi
        by_cases hz : i'.st.epoch = stop
        · -- the step lands on the stop epoch: next iteration returns
          have hlast : dirn back * (stop - i.st.epoch) = hstp := by
            rw [hst] at a
            cases back <;> simp only [dirn] at * <;> simp at * <;> omega
          cases n with
          | zero => simp [loop] at h
          | succ n =>
            have hbf : back = false := by
              cases back with
              | false => rfl
              | true => rw [hst] at a hnf; simp [dirn] at *; omega
            subst hbf
            rw [loop] at h
            simp only at h
            rw [if_pos (by simp [dirn] at hst; simp; omega), if_pos hz.symm] at h
            simp only [Option.some.injEq] at h
            subst h
            rw [(rotateBack_spec env hk orig _ _ ()).1, List.map_append, hlast]
            congr 1
            rw [gridEpochs_last _ _ _ _ hh hh (le_refl _)]
            rw [hst] at a; simp [a]
        · have hrem' : 0 < dirn back * (stop - i'.st.epoch) := by
            rw [hst] at a hnf
            cases back <;> simp only [dirn] at * <;> simp at * <;> omega
          have := ih i' _ o s c (by rw [b, hst]) hrem' h hok
          rw [this, List.map_append, List.append_assoc]
          congr 1
          have e1 : i'.st.epoch = i.st.epoch + dirn back * hstp := by rw [a, hst]
          have e2 : dirn back * (stop - i'.st.epoch) = dirn back * (stop - i.st.epoch) - hstp := by
            rw [e1]; cases back <;> simp [dirn] <;> ring
          rw [e2, gridEpochs_succ back i.st.epoch _ _ hh (by omega), ← e1]
          simp

/-- **C10.** A completed fixed step propagation over `d ≠ 0` publishes exactly the grid of the step,
in order, ending at the stop epoch; forward and backward, with no duplicate. -/
theorem fixed_step_grid [DecidableEq Fr] (env : Env X E Fr) (hk : env.KeepsEpoch) (fuel : Nat)
    (d h : Int) (hd : d ≠ 0) (hh : 0 < h) (i : Inst X) (hf : i.fixed = true) (hst : i.step = h)
    (o : Outcome X E Unit) (s : St X)
    (hrun : forDuration env fuel d i = some o) (hok : o.res = .ok s) :
    o.sent.map St.epoch = gridEpochs (decide (d < 0)) i.st.epoch h |d| := by
  unfold forDuration at hrun
  rcases propagate_cases env hk never fuel d i () hd with ⟨e, i', h'⟩ | ⟨i', orig, h', h1, h2, h3, _⟩
  · rw [h'] at hrun
    simp only [Option.some.injEq] at hrun
    subst hrun
    simp at hok
  · rw [h'] at hrun
    have hrem : dirn (decide (d < 0)) * (i.st.epoch + d - i'.st.epoch) = |d| := by
      rw [h1]; unfold dirn
      by_cases hn : d < 0
      · simp only [hn, decide_true, if_true]; rw [abs_of_neg hn]; ring
      · simp only [hn, decide_false, Bool.false_eq_true, if_false]
        rw [abs_of_nonneg (by omega)]; ring
    have hpos : 0 < |d| := abs_pos.mpr hd
    have := loop_grid env hk (decide (d < 0)) (i.st.epoch + d) h orig hh fuel i' [] o s
      (by rw [h2, hf]) (by rw [h3, hst]; unfold dirn; by_cases hn : d < 0 <;> simp [hn])
      (by rw [hrem]; exact hpos) hrun hok
    rw [this, hrem, h1]; simp

example : gridEpochs false 5 10 25 = [15, 25, 30] ∧ gridEpochs true 0 10 20 = [-10, -20] := by
  decide

/-! ## C11 -/

theorem loop_mono (env : Env X E Fr) (cond : Cond X E C) (back : Bool) (stop : Int)
    (orig : Option Fr) (n : Nat) : ∀ (i : Inst X) (sent : List (St X)) (mem : C)
    (o : Outcome X E C) (k : Nat), loop env cond back stop orig n i sent mem = some o →
      loop env cond back stop orig (n + k) i sent mem = some o := by
  induction n with
  | zero => intro i sent mem o k h; simp [loop] at h
  | succ n ih =>
    intro i sent mem o k h
    have : n + 1 + k = (n + k) + 1 := by omega
    rw [this]
    rw [loop] at h ⊢
    simp only at h ⊢
    split
    · rename_i hc; rw [if_pos hc] at h; exact h
    · rename_i hc
      rw [if_neg hc] at h
      split
      · rename_i e i' hi; rw [hi] at h; exact h
      · rename_i i' hi
        rw [hi] at h
        simp only at h
        split
        · rename_i e m' hm; rw [hm] at h; exact h
        · rename_i m' hm; rw [hm] at h; exact h
        · rename_i m' hm; rw [hm] at h; simp only at h; exact ih _ _ _ _ _ h

/-- The published prefix is only accumulated. -/
theorem loop_sent (env : Env X E Fr) (hk : env.KeepsEpoch) (cond : Cond X E C) (back : Bool)
    (stop : Int) (orig : Option Fr) (n : Nat) : ∀ (i : Inst X) (sent pre : List (St X)) (mem : C)
    (o : Outcome X E C), loop env cond back stop orig n i sent mem = some o →
      loop env cond back stop orig n i (pre ++ sent) mem =
        some ⟨o.res, o.inst, pre ++ o.sent, o.mem⟩ := by
  have hrot : ∀ (i : Inst X) (sent pre : List (St X)) (mem : C),
      rotateBack env orig i (pre ++ sent) mem =
      ⟨(rotateBack env orig i sent mem).res, (rotateBack env orig i sent mem).inst,
        pre ++ (rotateBack env orig i sent mem).sent, (rotateBack env orig i sent mem).mem⟩ := by
    intro i sent pre mem
    unfold rotateBack
    cases orig with
    | none => rfl
    | some f => simp only; split <;> rfl
  induction n with
  | zero => intro i sent pre mem o h; simp [loop] at h
  | succ n ih =>
    intro i sent pre mem o h
    rw [loop] at h ⊢
    simp only at h ⊢
    split
    · rename_i hc; rw [if_pos hc] at h
      split
      · rename_i he; rw [if_pos he] at h
        simp only [Option.some.injEq] at h
        subst h
        rw [hrot]
      · rename_i he; rw [if_neg he] at h
        split
        · rename_i e i' hi; rw [hi] at h
          simp only [Option.some.injEq] at h; subst h; rfl
        · rename_i i' hi; rw [hi] at h
          simp only [Option.some.injEq] at h; subst h
          rw [List.append_assoc, hrot]
    · rename_i hc; rw [if_neg hc] at h
      split
      · rename_i e i' hi; rw [hi] at h
        simp only [Option.some.injEq] at h; subst h; rfl
      · rename_i i' hi
        rw [hi] at h
        simp only at h
        split
        · rename_i e m' hm; rw [hm] at h
          simp only [Option.some.injEq] at h; subst h; rfl
        · rename_i m' hm; rw [hm] at h
          simp only [Option.some.injEq] at h; subst h; rfl
        · rename_i m' hm; rw [hm] at h; simp only at h
          rw [List.append_assoc]
          exact ih _ _ _ _ _ h

theorem loop_split (env : Env X E Fr) (hk : env.KeepsEpoch) (stop2 h : Int) (hh : 0 < h)
    (k : Nat) : ∀ (n1 : Nat) (i : Inst X) (sent : List (St X)) (stop1 : Int)
    (o1 : Outcome X E Unit) (s1 : St X), i.fixed = true → i.step = h →
      stop1 = i.st.epoch + k * h → stop1 ≤ stop2 →
      loop env never false stop1 none n1 i sent () = some o1 → o1.res = .ok s1 →
      o1.inst.fixed = true ∧ o1.inst.step = h ∧ o1.inst.st.epoch = stop1 ∧
      (1 ≤ k → ∃ s0, env.finally_ s0 = .ok o1.inst.st) ∧
      ∀ (n2 : Nat) (o2 : Outcome X E Unit),
        loop env never false stop2 none n2 o1.inst o1.sent () = some o2 →
        loop env never false stop2 none (n1 + n2) i sent () = some o2 := by
  induction k with
  | zero =>
    intro n1 i sent stop1 o1 s1 hf hst hs1 hle h1 hok
    cases n1 with
    | zero => simp [loop] at h1
    | succ n1 =>
      rw [loop] at h1
      simp only at h1
      simp only [Nat.cast_zero, zero_mul, add_zero] at hs1
      rw [if_pos (by simp; omega), if_pos (by omega)] at h1
      simp only [rotateBack, Option.some.injEq] at h1
      subst h1
      refine ⟨hf, hst, hs1.symm, by omega, ?_⟩
      intro n2 o2 h2
      rw [Nat.add_comm]
      exact loop_mono _ _ _ _ _ _ _ _ _ _ _ h2
  | succ k ih =>
    intro n1 i sent stop1 o1 s1 hf hst hs1 hle h1 hok
    cases n1 with
    | zero => simp [loop] at h1
    | succ n1 =>
      have hkh : 0 ≤ (k : Int) * h := by positivity
      have hs1' : stop1 = i.st.epoch + h + k * h := by rw [hs1]; push_cast; ring
      rw [loop] at h1
      simp only at h1
      rw [if_neg (by simp; omega)] at h1
      split at h1
      · simp only [Option.some.injEq] at h1; subst h1; simp at hok
      · rename_i i' hi
        simp only [never] at h1
        obtain ⟨a, b, c⟩ := singleStep_fixed hk hf hi
        obtain ⟨r1, r2, r3, r4, r5⟩ := ih n1 i' _ stop1 o1 s1 c (by rw [b, hst])
          (by rw [a, hst]; exact hs1') hle h1 hok
        refine ⟨r1, r2, r3, ?_, ?_⟩
        · intro _
          by_cases hk1 : 1 ≤ k
          · exact r4 hk1
          · -- the last step is this one
            have hk0 : k = 0 := by omega
            subst hk0
            cases n1 with
            | zero => simp [loop] at h1
            | succ n1 =>
              rw [loop] at h1
              simp only at h1
              simp only [Nat.cast_zero, zero_mul, add_zero] at hs1'
              rw [if_pos (by simp; omega), if_pos (by omega)] at h1
              simp only [rotateBack, Option.some.injEq] at h1
              subst h1
              obtain ⟨d, _, _, _, _, hfin⟩ := singleStep_ok hk hi
              exact ⟨_, hfin⟩
        · intro n2 o2 h2
          have := r5 n2 o2 h2
          have e : n1 + 1 + n2 = (n1 + n2) + 1 := by omega
          rw [e, loop]
          simp only
          rw [if_neg (by simp; omega), hi]
          simp only [never]
          exact this

/-- **C11.** With a fixed step `h`, propagating `k h` (`k ≥ 1`) then `d2 > 0` gives exactly what
propagating `k h + d2` at once gives: same result, same instance, and the published states of the
long propagation are those of the two short ones. Assumes no integration frame change and that
`finally` does nothing on a state it returned. -/
theorem fixed_step_composes [DecidableEq Fr] (env : Env X E Fr) (hk : env.KeepsEpoch)
    (hif : env.integrationFrame = none)
    (hidem : ∀ s s', env.finally_ s = .ok s' → env.finally_ s' = .ok s')
    (h d2 : Int) (hh : 0 < h) (hd2 : 0 < d2) (k : Nat) (hk1 : 1 ≤ k)
    (i : Inst X) (hf : i.fixed = true) (hst : i.step = h)
    (n1 n2 : Nat) (o1 o2 : Outcome X E Unit) (s1 : St X)
    (h1 : forDuration env n1 (k * h) i = some o1) (hok : o1.res = .ok s1)
    (h2 : forDuration env n2 d2 o1.inst = some o2) :
    ∃ n, forDuration env n (k * h + d2) i = some ⟨o2.res, o2.inst, o1.sent ++ o2.sent, ()⟩ := by
  have hkh : 0 < (k : Int) * h := by
    have : 0 < (k : Int) := by omega
    positivity
  unfold forDuration propagate at h1
  rw [if_neg (by omega)] at h1
  have hdec : decide ((k : Int) * h < 0) = false := by simp; omega
  simp only [hif, hdec, Bool.false_eq_true, if_false] at h1
  split at h1
  · simp only [Option.some.injEq] at h1; subst h1; simp at hok
  · rename_i s hs
    have hse := hk.fin _ _ hs
    obtain ⟨r1, r2, r3, r4, r5⟩ := loop_split env hk (i.st.epoch + (k * h + d2)) h hh k n1
      { i with st := s } [] (i.st.epoch + k * h) o1 s1 hf hst (by simp only; omega) (by omega) h1 hok
    obtain ⟨s0, hs0⟩ := r4 hk1
    have hid := hidem _ _ hs0
    unfold forDuration propagate at h2
    rw [if_neg (by omega)] at h2
    have hdec2 : decide (d2 < 0) = false := by simp; omega
    simp only [hif, hdec2, Bool.false_eq_true, if_false, hid] at h2
    have hstop : o1.inst.st.epoch + d2 = i.st.epoch + (k * h + d2) := by rw [r3]; ring
    rw [hstop] at h2
    have h2' := loop_sent env hk never false _ none n2 _ [] o1.sent () o2 h2
    simp only [List.append_nil] at h2'
    have := r5 n2 _ h2'
    refine ⟨n1 + n2, ?_⟩
    unfold forDuration propagate
    rw [if_neg (by omega)]
    have hdec3 : decide ((k : Int) * h + d2 < 0) = false := by simp; omega
    simp only [hif, hdec3, Bool.false_eq_true, if_false, hs]
    exact this

example : (∀ s s', (demo 0 (fun _ => false) none).finally_ s = .ok s' →
      (demo 0 (fun _ => false) none).finally_ s' = .ok s') ∧
    ∃ o1 o2, forDuration (demo 0 (fun _ => false) none) 9 (3 * 10)
      (⟨⟨0, true⟩, 10, true⟩ : Inst Bool) = some o1 ∧
      forDuration (demo 0 (fun _ => false) none) 9 7 o1.inst = some o2 ∧
      o1.sent.map St.epoch = [10, 20, 30] ∧ o2.sent.map St.epoch = [37] :=
  ⟨fun _ _ h => by simp only [demo, Except.ok.injEq] at h ⊢, _, _, rfl, rfl, rfl, rfl⟩

/-! ## Frame of the result -/

/-- Assumptions on frames: a transformation lands in the requested frame, integration and `finally`
do not change the frame. -/
structure Env.FrameSane (env : Env X E Fr) : Prop where
  tr : ∀ f s s', env.transform f s = .ok s' → env.frameOf s'.x = f
  rk : ∀ s h r, env.rk s h = .ok r → env.frameOf r.x = env.frameOf s.x
  fin : ∀ s s', env.finally_ s = .ok s' → env.frameOf s'.x = env.frameOf s.x

theorem derive_frame (env : Env X E Fr) (hs : env.FrameSane) (i : Inst X) (d : Derived X)
    (h : derive env i = .ok d) : env.frameOf d.x = env.frameOf i.st.x := by
  unfold derive at h
  split at h
  · split at h
    · simp at h
    · rename_i r hr
      simp only [Except.ok.injEq] at h
      subst h
      exact hs.rk _ _ _ hr
  · have : ∀ (n : Nat) (s : Rat), (deriveAdaptive env i.st n s).1 = .ok d →
        env.frameOf d.x = env.frameOf i.st.x := by
      intro n s
      fun_induction deriveAdaptive env i.st n s with
      | case1 => intro h; simp at h
      | case2 => intro h; simp at h
      | case3 n s r hr ha hn s' =>
        intro h
        simp only [Except.ok.injEq] at h
        subst h
        exact hs.rk _ _ _ hr
      | case4 n s r hr ha rec_ ih => exact ih
    exact this _ _ h

theorem singleStep_frame (env : Env X E Fr) (hk : env.KeepsEpoch) (hs : env.FrameSane)
    {i i' : Inst X} (h : singleStep env i = (.ok (), i')) :
    env.frameOf i'.st.x = env.frameOf i.st.x := by
  obtain ⟨d, h1, _, _, _, h5⟩ := singleStep_ok hk h
  rw [hs.fin _ _ h5]
  exact derive_frame env hs i d h1

theorem loop_frame (env : Env X E Fr) (hk : env.KeepsEpoch) (hs : env.FrameSane) (back : Bool)
    (stop : Int) (orig : Option Fr) (n : Nat) : ∀ (i : Inst X) (sent : List (St X))
    (o : Outcome X E Unit) (s : St X), loop env never back stop orig n i sent () = some o →
      o.res = .ok s → env.frameOf s.x = orig.getD (env.frameOf i.st.x) := by
  have hrot : ∀ (i : Inst X) (sent : List (St X)) (s : St X),
      (rotateBack env orig i sent ()).res = .ok s →
      env.frameOf s.x = orig.getD (env.frameOf i.st.x) := by
    intro i sent s h
    unfold rotateBack at h
    cases orig with
    | none => simp only [Except.ok.injEq] at h; subst h; rfl
    | some f =>
      simp only at h
      split at h
      · simp at h
      · rename_i s' hs'
        simp only [Except.ok.injEq] at h
        subst h
        exact hs.tr _ _ _ hs'
  induction n with
  | zero => intro i sent o s h; simp [loop] at h
  | succ n ih =>
    intro i sent o s h hok
    rw [loop] at h
    simp only at h
    split at h
    · split at h
      · simp only [Option.some.injEq] at h; subst h; exact hrot _ _ _ hok
      · split at h
        · simp only [Option.some.injEq] at h; subst h; simp at hok
        · rename_i i' hi
          simp only [Option.some.injEq] at h
          subst h
          rw [hrot _ _ _ hok]
          simp only
          rw [singleStep_frame env hk hs hi]
    · split at h
      · simp only [Option.some.injEq] at h; subst h; simp at hok
      · rename_i i' hi
        simp only [never] at h
        rw [ih _ _ _ _ h hok, singleStep_frame env hk hs hi]

/-- **C76 (partial: no stop condition).** A completed propagation returns a state in the frame of
the start state, whatever integration frame is configured. Missing: propagations ended by their stop
condition, refuted below. -/
theorem result_frame_partial [DecidableEq Fr] (env : Env X E Fr) (hk : env.KeepsEpoch)
    (hs : env.FrameSane) (fuel : Nat) (d : Int) (i : Inst X) (o : Outcome X E Unit) (s : St X)
    (h : forDuration env fuel d i = some o) (hok : o.res = .ok s) :
    env.frameOf s.x = env.frameOf i.st.x := by
  unfold forDuration propagate at h
  split at h
  · simp only [Option.some.injEq] at h
    subst h
    simp only [Except.ok.injEq] at hok
    rw [hok]
  · simp only at h
    split at h
    · simp only [Option.some.injEq] at h; subst h; simp at hok
    · rename_i s0 hs0
      have hf := hs.fin _ _ hs0
      split at h
      · rw [loop_frame env hk hs _ _ _ _ _ _ _ _ h hok]; exact hf
      · split at h
        · rw [loop_frame env hk hs _ _ _ _ _ _ _ _ h hok]; exact hf
        · split at h
          · simp only [Option.some.injEq] at h; subst h; simp at hok
          · rw [loop_frame env hk hs _ _ _ _ _ _ _ _ h hok]; exact hf

example : (demo 0 (fun _ => false) (some true)).FrameSane ∧
    ∃ o, forDuration (demo 0 (fun _ => false) (some true)) 9 25
      (⟨⟨0, false⟩, 10, true⟩ : Inst Bool) = some o ∧ o.res = .ok ⟨25, false⟩ ∧
      (o.sent.map St.x) = [true, true, true] := by
  refine ⟨⟨?_, ?_, ?_⟩, _, rfl, rfl, rfl⟩
  · intro f s s' h; simp only [demo, Except.ok.injEq] at h; subst h; rfl
  · intro s h r hr; simp only [demo] at hr; simp at hr; subst hr; rfl
  · intro s s' h; simp only [demo, Except.ok.injEq] at h; subst h; rfl

/-- **C76 refuted.** When the stop condition triggers, the returned state is left in the integration
frame instead of the frame of the start state. -/
theorem result_frame_false : ∃ o : Outcome Bool Unit Unit,
    propagate (demo 0 (fun _ => false) (some true)) (fun _ _ => (.ok true, ())) 5 100
      ⟨⟨0, false⟩, 10, true⟩ () = some o ∧ o.res = .ok ⟨10, true⟩ := ⟨_, rfl, rfl⟩

end Verif.Propagate
