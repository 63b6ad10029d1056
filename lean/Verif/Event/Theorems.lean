import Verif.Event.Model
/-!
C86: the interval searched by `until_nth_event`.
-/
namespace Verif.Event
open Verif.Propagate Verif.Traj

variable {X E Fr C : Type}

/-! ### Specification -/

/-- Specification of a crossing: the values have strictly opposite signs; for an angle, one is negative and
the other is not, and they differ by less than half a turn (this excludes the wrap at 180 degrees). -/
def SignChange (angle : Bool) (a b : Rat) : Prop :=
  (angle = false ∧ ((a < 0 ∧ 0 < b) ∨ (0 < a ∧ b < 0))) ∨
  (angle = true ∧ ((a < 0 ∧ 0 ≤ b) ∨ (0 ≤ a ∧ b < 0)) ∧ -180 < b - a ∧ b - a < 180)

instance (angle : Bool) (a b : Rat) : Decidable (SignChange angle a b) := by
  unfold SignChange; infer_instance

/-- The number of crossings along a list of values. -/
def crossings (angle : Bool) : List Rat → Nat
  | a :: b :: l => (if SignChange angle a b then 1 else 0) + crossings angle (b :: l)
  | _ => 0

/-- The values of the event along a list of states. -/
def Values (eval : St X → Except E Rat) : List (St X) → List Rat → Prop :=
  List.Forall₂ (fun s y => eval s = .ok y)

/-! ### Lemmas -/

/-- The test of the code is the specification. -/
theorem crosses_iff (angle : Bool) (a b : Rat) : crosses angle a b = true ↔ SignChange angle a b := by
  unfold crosses SignChange
  cases angle with
  | false =>
    simp only [Bool.false_eq_true, if_false, decide_eq_true_eq, true_and, false_and, or_false]
    rw [mul_neg_iff]
    tauto
  | true =>
    simp only [if_true, Bool.true_eq_false, false_and, false_or, true_and, Bool.and_eq_true,
      decide_eq_true_eq, abs_lt]
    apply and_congr _ Iff.rfl
    unfold signum
    by_cases ha : a < 0 <;> by_cases hb : b < 0 <;> simp [ha, hb, not_lt.1] <;>
      first | exact not_lt.1 ha | exact not_lt.1 hb | norm_num | skip

theorem crossings_snoc (angle : Bool) (l : List Rat) (a b : Rat) :
    crossings angle (l ++ [a, b]) =
      crossings angle (l ++ [a]) + if SignChange angle a b then 1 else 0 := by
  induction l with
  | nil => simp [crossings]
  | cons x l ih =>
    cases l with
    | nil => simp [crossings]
    | cons y l =>
      simp only [List.cons_append, crossings] at ih ⊢
      omega

/-- The memory of the closure after states all of which were answered `false`. -/
theorem allFalse_enough (eval : St X → Except E Rat) (angle : Bool) (trigger : Nat)
    (s0 : St X) (y0 : Rat) (h0 : eval s0 = .ok y0) (l : List (St X)) (m : Mem)
    (h : AllFalse (enough eval angle trigger) ⟨0, y0⟩ l m) :
    ∃ ys, Values eval (s0 :: l) (ys ++ [m.prev]) ∧ m.count = crossings angle (ys ++ [m.prev]) ∧
      (l ≠ [] → m.count < trigger) := by
  induction h with
  | nil =>
    exact ⟨[], by simpa [Values] using h0, by simp [crossings], by simp⟩
  | snoc _ hc ih =>
    rename_i m1 m2 l s _
    obtain ⟨ys, h1, h2, _⟩ := ih
    unfold enough at hc
    cases he : eval s with
    | error e => rw [he] at hc; simp at hc
    | ok y =>
      rw [he] at hc
      simp only [Prod.mk.injEq, Except.ok.injEq, decide_eq_false_iff_not, not_le] at hc
      obtain ⟨c1, c2⟩ := hc
      subst c2
      refine ⟨ys ++ [m1.prev], ?_, ?_, fun _ => c1⟩
      · rw [← List.cons_append]
        exact List.rel_append h1 (List.Forall₂.cons he List.Forall₂.nil)
      · simp only [List.append_assoc, List.cons_append, List.nil_append]
        rw [crossings_snoc, ← h2]
        simp only [← crosses_iff]
        split <;> simp

/-- The outcomes of the loop when no frame change is configured. -/
theorem loop_event (env : Env X E Fr) (hk : env.KeepsEpoch) (cond : Cond X E C) (back : Bool)
    (start stop : Int) {m : Int} (hm : 0 < m) (hb : back = true → 2 ≤ m) (hss : start ≠ stop)
    (m0 : C) (n : Nat) :
    ∀ (i : Inst X) (sent : List (St X)) (mem : C) (o : Outcome X E C) (s : St X),
      m ≤ dirn back * i.step →
      (i.fixed = false → env.SaneControl ∧ m ≤ env.opts.minStep) →
      0 ≤ dirn back * (stop - i.st.epoch) →
      Inv back start i sent → AllFalse cond m0 sent mem →
      loop env cond back stop none n i sent mem = some o → o.res = .ok s →
      (∃ m1, AllFalse cond m0 o.sent m1 ∧ cond m1 s = (.ok true, o.mem) ∧
        (o.sent.map St.epoch ++ [s.epoch]).Pairwise (After back) ∧ After back start s.epoch ∧
        0 ≤ dirn back * (stop - s.epoch)) ∨
      (s.epoch = stop ∧ ∃ l, o.sent = l ++ [s] ∧
        (AllFalse cond m0 l o.mem ∨ AllFalse cond m0 o.sent o.mem)) := by
  induction n with
  | zero => intro i sent mem o s _ _ _ _ _ h; simp [loop] at h
  | succ n ih =>
    intro i sent mem o s hs hc hr hI hF h hok
    rw [loop] at h
    simp only at h
    split at h
    · split at h
      · rename_i hstop
        simp only [Option.some.injEq] at h
        subst h
        simp only [rotateBack, Except.ok.injEq] at hok ⊢
        right
        rcases hI.last with ⟨_, h2⟩ | h2
        · exact absurd (by rw [← h2, ← hstop]) hss
        · obtain ⟨l, hl⟩ := List.getLast?_eq_some_iff.mp h2
          exact ⟨by rw [← hok, hstop], l, by rw [hl, hok], Or.inr hF⟩
      · split at h
        · simp only [Option.some.injEq] at h; subst h; simp at hok
        · rename_i i' hi
          simp only [Option.some.injEq] at h
          subst h
          simp only [rotateBack, Except.ok.injEq] at hok ⊢
          have hst := (singleStep_fixed hk rfl hi).1
          simp only at hst
          right
          exact ⟨by rw [← hok]; omega, sent, by rw [hok], Or.inl hF⟩
    · split at h
      · simp only [Option.some.injEq] at h; subst h; simp at hok
      · rename_i hnf _ i' hi
        obtain ⟨a, b, c, d, _⟩ := singleStep_dir env hk back hm hb hs hc hi
        have haft : After back i.st.epoch i'.st.epoch := by unfold After; omega
        have hr' : 0 ≤ dirn back * (stop - i'.st.epoch) := by
          cases back <;> simp only [dirn] at * <;> simp at * <;> omega
        have hI' := hI.push haft
        split at h
        · simp only [Option.some.injEq] at h; subst h; simp at hok
        · rename_i m' hcnd
          simp only [Option.some.injEq] at h
          subst h
          simp only [Except.ok.injEq] at hok ⊢
          subst hok
          left
          have hs1 := hI'.sorted
          rw [List.map_append] at hs1
          exact ⟨mem, hF, hcnd, by simpa using hs1, (hI'.past i'.st (by simp)).1, hr'⟩
        · rename_i m' hcnd
          exact ih _ _ _ _ _ c (by rw [d]; exact hc) hr' hI' (.snoc hF hcnd) h hok

/-- What `propagate` with a stop condition returns, when no integration frame is configured. -/
theorem propagate_event [DecidableEq Fr] (env : Env X E Fr) (hk : env.KeepsEpoch)
    (hif : env.integrationFrame = none)
    (cond : Cond X E C) (fuel : Nat) (d : Int) (hd : 0 < d) (i : Inst X) (mem : C) (m : Int)
    (hi : Drivable env m i) (o : Outcome X E C) (s : St X)
    (h : propagate env cond fuel d i mem = some o) (hok : o.res = .ok s) :
    (∃ m1, AllFalse cond mem o.sent m1 ∧ cond m1 s = (.ok true, o.mem) ∧
        (i.st.epoch :: o.sent.map St.epoch ++ [s.epoch]).Pairwise (· < ·) ∧
        s.epoch ≤ i.st.epoch + d) ∨
    (s.epoch = i.st.epoch + d ∧ (i.st.epoch :: o.sent.map St.epoch).Pairwise (· < ·) ∧
      ∃ l, o.sent = l ++ [s] ∧
      (AllFalse cond mem l o.mem ∨ AllFalse cond mem o.sent o.mem)) := by
  have hpo := propagate_published_ordered env hk cond fuel d i mem m hi (by omega) o h
  have hdec : decide (d < 0) = false := by simp; omega
  have haft : ∀ a b : Int, After false a b ↔ a < b := by
    intro a b; simp [After, dirn]
  rw [hdec] at hpo
  simp only [haft] at hpo
  rcases propagate_cases env hk cond fuel d i mem (by omega) with
    ⟨e, i', he⟩ | ⟨i', orig, hrun, h1, h2, h3, h4⟩
  · rw [he] at h; simp only [Option.some.injEq] at h; subst h; simp at hok
  · rw [hrun, h4 hif, hdec] at h
    rw [if_neg (by omega)] at h3
    have := loop_event env hk cond false i.st.epoch (i.st.epoch + d) hi.pos (by simp) (by omega)
      mem fuel i' [] mem o s (by have := hi.step; simp [dirn, h3]; omega)
      (by rw [h2]; exact hi.ctl) (by simp [dirn]; omega)
      ⟨by simp, by simp, by rw [h1]; simp, Or.inl ⟨rfl, h1⟩⟩ (.nil _) h hok
    rcases this with ⟨m1, a1, a2, a3, a4, a5⟩ | ⟨b1, l, b2, b3⟩
    · left
      refine ⟨m1, a1, a2, ?_, by simp [dirn] at a5; omega⟩
      simp only [haft] at a3 a4
      rw [List.cons_append, List.pairwise_cons]
      refine ⟨?_, a3.imp (fun {a b} h => (haft a b).mp h)⟩
      intro e he
      rcases List.mem_append.mp he with he | he
      · obtain ⟨s', hs', rfl⟩ := List.mem_map.mp he
        exact (hpo.2 s' hs').1
      · simp only [List.mem_singleton] at he
        omega
    · right
      refine ⟨b1, ?_, l, b2, b3⟩
      rw [List.pairwise_cons]
      refine ⟨?_, hpo.1.imp (fun {a b} h => (haft a b).mp h)⟩
      intro e he
      obtain ⟨s', hs', rfl⟩ := List.mem_map.mp he
      exact (hpo.2 s' hs').1

/-- The trajectory built from the published states is the start state and the published states in
time order, however they are delivered. -/
theorem withTraj_published (deliver : List (St X) → List (St X)) (hdel : ∀ l, (deliver l).Perm l)
    (s0 : St X) (sent : List (St X))
    (hs : (s0.epoch :: sent.map St.epoch).Pairwise (· < ·)) :
    withTraj ((deliver sent).map ofSt) (ofSt s0) = (s0 :: sent).map ofSt := by
  apply withTraj_eq
  · unfold Sorted
    rw [List.pairwise_map]
    have : ((s0 :: sent).map St.epoch).Pairwise (· < ·) := by simpa using hs
    rw [List.pairwise_map] at this
    exact this.imp (fun h => h)
  · rw [List.map_cons]
    exact (List.perm_append_singleton _ _).trans (((hdel sent).map ofSt).cons _)

/-- **C86 (partial: forward propagation, no integration frame).** Let `until_nth_event` reach the
search. Then, along the states of the propagation (the start state, the published states, the end
state, in time order; evaluated with the event), the sign changes counted are exactly the requested
number, the last of them is between the two states given to the solver, which are the last published
state (or the start state) and the end state, in this order in time, both within the maximum duration;
and the trajectory searched is the start state, the published states and the end state in time
order. Missing: backward propagation and integration frames (refuted below). -/
theorem nth_event_bracket_partial [DecidableEq Fr] [DecidableEq X] (env : Env X E Fr)
    (hk : env.KeepsEpoch) (hif : env.integrationFrame = none) (eval : St X → Except E Rat)
    (angle : Bool) (trigger : Nat) (htr : 1 ≤ trigger)
    (deliver : List (St X) → List (St X)) (hdel : ∀ l, (deliver l).Perm l) (fuel : Nat) (d : Int)
    (hd : 0 < d) (i : Inst X) (m : Int) (hi : Drivable env m i) (lo hi' : St X)
    (traj : List (TS X))
    (h : untilNth env eval angle trigger deliver fuel d i = some (.search lo hi' traj)) :
    ∃ (mid : List (St X)) (ys : List Rat) (y z : Rat),
      i.st :: mid = (i.st :: mid).dropLast ++ [lo] ∧
      traj = (i.st :: mid ++ [hi']).map ofSt ∧
      ((i.st :: mid ++ [hi']).map St.epoch).Pairwise (· < ·) ∧
      hi'.epoch ≤ i.st.epoch + d ∧
      Values eval (i.st :: mid ++ [hi']) (ys ++ [y, z]) ∧
      SignChange angle y z ∧
      crossings angle (ys ++ [y, z]) = trigger := by
  unfold untilNth at h
  cases he : eval i.st with
  | error e => rw [he] at h; simp at h
  | ok y0 =>
    rw [he] at h
    simp only at h
    cases hp : propagate env (enough eval angle trigger) fuel d i ⟨0, y0⟩ with
    | none => rw [hp] at h; simp at h
    | some o =>
      rw [hp] at h
      simp only at h
      cases hok : o.res with
      | error e => rw [hok] at h; simp at h
      | ok s =>
        rw [hok] at h
        simp only at h
        rcases propagate_event env hk hif _ fuel d hd i _ m hi o s hp hok with
          ⟨m1, a1, a2, a3, a4⟩ | ⟨b1, b2, l, b3, b4⟩
        · have hord : (i.st.epoch :: o.sent.map St.epoch).Pairwise (· < ·) :=
            (List.pairwise_append.mp a3).1
          rw [withTraj_published deliver hdel i.st o.sent hord] at h
          obtain ⟨last, hl⟩ : ∃ last, (i.st :: o.sent).getLast? = some last :=
            ⟨_, List.getLast?_eq_some_getLast (by simp)⟩
          obtain ⟨pre, hpre⟩ := List.getLast?_eq_some_iff.mp hl
          have hm : ((i.st :: o.sent).map ofSt).getLast? = some (ofSt last) := by
            rw [List.getLast?_map, hl]; rfl
          rw [hm] at h
          simp only at h
          split at h
          · simp at h
          · simp only [Option.some.injEq, Out.search.injEq] at h
            obtain ⟨h1, h2, h3⟩ := h
            subst h2
            obtain ⟨ys, v1, v2, v3⟩ := allFalse_enough eval angle trigger i.st y0 he _ _ a1
            unfold enough at a2
            cases hes : eval s with
            | error e => rw [hes] at a2; simp at a2
            | ok z =>
              rw [hes] at a2
              simp only [Prod.mk.injEq, Except.ok.injEq, decide_eq_true_eq] at a2
              obtain ⟨c1, c2⟩ := a2
              have hlt : m1.count < trigger := by
                by_cases hne : o.sent = []
                · rw [hne] at v1 a1
                  have : m1.count = 0 := by
                    cases ys with
                    | nil => rw [v2]; simp [crossings]
                    | cons y ys =>
                      have := v1.length_eq
                      simp at this
                  omega
                · exact v3 hne
              have hcr : crosses angle m1.prev z = true := by
                by_contra hcon
                rw [if_neg hcon] at c1
                omega
              rw [if_pos hcr] at c1
              refine ⟨o.sent, ys, m1.prev, z, ?_, ?_, ?_, a4, ?_, (crosses_iff _ _ _).1 hcr, ?_⟩
              · rw [hpre, List.dropLast_concat]
                congr 1
                rw [← h1]; simp [ofSt]
              · rw [← h3]; simp [List.map_append]
              · simpa using a3
              · rw [List.append_cons ys, List.append_assoc] at *
                have := List.rel_append v1 (List.Forall₂.cons hes List.Forall₂.nil)
                simpa [Values] using this
              · rw [crossings_snoc, ← v2, if_pos ((crosses_iff _ _ _).1 hcr)]; omega
        · rw [withTraj_published deliver hdel i.st o.sent b2] at h
          have hm : ((i.st :: o.sent).map ofSt).getLast? = some (ofSt s) := by
            rw [b3, ← List.cons_append, List.map_append]
            exact List.getLast?_concat
          rw [hm] at h
          simp at h

/-- **C86 (`NthEventError`, partial: forward propagation, no integration frame).** Whenever the error is
returned the propagation has covered the maximum duration, and fewer than `trigger` sign changes
were counted from the start state through all published states except the last one (at the stop
epoch). The reported number is the number counted, of which the change on the last step may be missing.
Missing: the last step is not examined, refuted by `last_step_event_missed`. -/
theorem nth_event_error_partial [DecidableEq Fr] [DecidableEq X] (env : Env X E Fr)
    (hk : env.KeepsEpoch) (hif : env.integrationFrame = none) (eval : St X → Except E Rat)
    (angle : Bool) (trigger : Nat) (htr : 1 ≤ trigger)
    (deliver : List (St X) → List (St X)) (hdel : ∀ l, (deliver l).Perm l) (fuel : Nat) (d : Int)
    (hd : 0 < d) (i : Inst X) (m : Int) (hi : Drivable env m i) (found : Nat)
    (h : untilNth env eval angle trigger deliver fuel d i = some (.nth found)) :
    found < trigger ∧ ∃ (mid : List (St X)) (ys : List Rat) (last : St X),
      last.epoch = i.st.epoch + d ∧
      ((i.st :: mid ++ [last]).map St.epoch).Pairwise (· < ·) ∧
      ((Values eval (i.st :: mid) ys ∧ crossings angle ys = found) ∨
       (Values eval (i.st :: mid ++ [last]) ys ∧ crossings angle ys = found)) := by
  unfold untilNth at h
  cases he : eval i.st with
  | error e => rw [he] at h; simp at h
  | ok y0 =>
    rw [he] at h
    simp only at h
    cases hp : propagate env (enough eval angle trigger) fuel d i ⟨0, y0⟩ with
    | none => rw [hp] at h; simp at h
    | some o =>
      rw [hp] at h
      simp only at h
      cases hok : o.res with
      | error e => rw [hok] at h; simp at h
      | ok s =>
        rw [hok] at h
        simp only at h
        rcases propagate_event env hk hif _ fuel d hd i _ m hi o s hp hok with
          ⟨m1, a1, a2, a3, a4⟩ | ⟨b1, b2, l, b3, b4⟩
        · exfalso
          have hord : (i.st.epoch :: o.sent.map St.epoch).Pairwise (· < ·) :=
            (List.pairwise_append.mp a3).1
          rw [withTraj_published deliver hdel i.st o.sent hord] at h
          obtain ⟨last, hl⟩ : ∃ last, (i.st :: o.sent).getLast? = some last :=
            ⟨_, List.getLast?_eq_some_getLast (by simp)⟩
          have hm : ((i.st :: o.sent).map ofSt).getLast? = some (ofSt last) := by
            rw [List.getLast?_map, hl]; rfl
          rw [hm] at h
          simp only at h
          split at h
          · rename_i heq
            obtain ⟨pre, hpre⟩ := List.getLast?_eq_some_iff.mp hl
            have hlt := (List.pairwise_append.mp a3).2.2 last.epoch (by
              have : last ∈ i.st :: o.sent := by rw [hpre]; simp
              have := List.mem_map_of_mem (f := St.epoch) this
              simpa using this) s.epoch (by simp)
            have : s.epoch = last.epoch := congrArg TS.epoch heq
            omega
          · simp at h
        · rw [withTraj_published deliver hdel i.st o.sent b2] at h
          have hm : ((i.st :: o.sent).map ofSt).getLast? = some (ofSt s) := by
            rw [b3, ← List.cons_append, List.map_append]
            exact List.getLast?_concat
          rw [hm] at h
          simp only [if_true, Option.some.injEq, Out.nth.injEq] at h
          rcases b4 with b4 | b4
          · obtain ⟨ys, v1, v2, v3⟩ := allFalse_enough eval angle trigger i.st y0 he _ _ b4
            refine ⟨?_, l, ys ++ [o.mem.prev], s, b1, by rw [b3] at b2; simpa using b2,
              Or.inl ⟨v1, by rw [← v2]; exact h⟩⟩
            by_cases hl : l = []
            · subst hl
              have : o.mem.count = 0 := by
                cases ys with
                | nil => rw [v2]; simp [crossings]
                | cons y ys => have := v1.length_eq; simp at this
              omega
            · have := v3 hl; omega
          · obtain ⟨ys, v1, v2, v3⟩ := allFalse_enough eval angle trigger i.st y0 he _ _ b4
            have := v3 (by rw [b3]; simp)
            refine ⟨by omega, l, ys ++ [o.mem.prev], s, b1, by rw [b3] at b2; simpa using b2,
              Or.inr ⟨by rw [b3] at v1; simpa using v1, by rw [← v2]; exact h⟩⟩

deriving instance DecidableEq for Except
deriving instance DecidableEq for Outcome

/-- Evaluation of `untilNth` from its parts, for the witnesses. -/
theorem untilNth_eval [DecidableEq Fr] [DecidableEq X] (env : Env X E Fr)
    (eval : St X → Except E Rat) (angle : Bool) (trigger : Nat)
    (deliver : List (St X) → List (St X)) (fuel : Nat) (d : Int) (i : Inst X) (y0 : Rat)
    (he : eval i.st = .ok y0) (s : St X) (inst : Inst X) (sent : List (St X)) (mem : Mem)
    (hp : propagate env (enough eval angle trigger) fuel d i ⟨0, y0⟩ =
      some ⟨.ok s, inst, sent, mem⟩) (tr : List (TS X)) (last : TS X)
    (ht : withTraj ((deliver sent).map ofSt) (ofSt i.st) = tr) (hl : tr.getLast? = some last) :
    untilNth env eval angle trigger deliver fuel d i =
      some (if ofSt s = last then .nth mem.count
        else .search ⟨last.epoch, last.x⟩ s (tr ++ [ofSt s])) := by
  unfold untilNth
  rw [he]; simp only
  rw [hp]; simp only
  rw [ht, hl]; simp only
  split <;> rfl

/-- Non-vacuity: fixed steps of 10 ns, an event at 22 ns, 100 ns at most: searched in [20, 30]. -/
example : untilNth (demo 0 (fun _ => false) none) (fun s => .ok ((s.epoch : Rat) - 22)) false 1 id
      20 100 (⟨⟨0, false⟩, 10, true⟩ : Inst Bool) =
    some (.search ⟨20, false⟩ ⟨30, false⟩ [⟨0, false⟩, ⟨10, false⟩, ⟨20, false⟩, ⟨30, false⟩]) ∧
    Drivable (demo 0 (fun _ => false) none) 10 (⟨⟨0, false⟩, 10, true⟩ : Inst Bool) := by
  refine ⟨?_, by norm_num, by norm_num, by simp⟩
  rw [untilNth_eval _ _ _ _ _ _ _ _ (-22) (by decide +kernel) ⟨30, false⟩ ⟨⟨30, false⟩, 10, true⟩
    [⟨10, false⟩, ⟨20, false⟩] ⟨1, 8⟩ (by decide +kernel)
    [⟨0, false⟩, ⟨10, false⟩, ⟨20, false⟩] ⟨20, false⟩ (by
      simp [withTraj, finalize, Util.dedupBy, Util.sortBy, ofSt, List.mergeSort,
        List.MergeSort.Internal.splitInTwo]) rfl]
  decide

/-- **C86 refuted (last step).** An event within the maximum duration, on the last integration step,
is not found: the error `NthEventError` is returned although the event occurs at 22 of 25 ns. -/
theorem last_step_event_missed :
    untilNth (demo 0 (fun _ => false) none) (fun s => .ok ((s.epoch : Rat) - 22)) false 1 id
      20 25 (⟨⟨0, false⟩, 10, true⟩ : Inst Bool) = some (.nth 0) := by
  rw [untilNth_eval _ _ _ _ _ _ _ _ (-22) (by decide +kernel) ⟨25, false⟩ ⟨⟨25, false⟩, 10, true⟩
    [⟨10, false⟩, ⟨20, false⟩, ⟨25, false⟩] ⟨0, -2⟩ (by decide +kernel)
    [⟨0, false⟩, ⟨10, false⟩, ⟨20, false⟩, ⟨25, false⟩] ⟨25, false⟩ (by
      simp [withTraj, finalize, Util.dedupBy, Util.sortBy, ofSt, List.mergeSort,
        List.MergeSort.Internal.splitInTwo, List.merge]) rfl]
  decide

/-- **C86 refuted (exact zero).** An event whose value is exactly zero at an integration step is never
counted. -/
theorem exact_zero_event_missed :
    untilNth (demo 0 (fun _ => false) none) (fun s => .ok ((s.epoch : Rat) - 10)) false 1 id
      20 30 (⟨⟨0, false⟩, 10, true⟩ : Inst Bool) = some (.nth 0) := by
  rw [untilNth_eval _ _ _ _ _ _ _ _ (-10) (by decide +kernel) ⟨30, false⟩ ⟨⟨30, false⟩, 10, true⟩
    [⟨10, false⟩, ⟨20, false⟩, ⟨30, false⟩] ⟨0, 20⟩ (by decide +kernel)
    [⟨0, false⟩, ⟨10, false⟩, ⟨20, false⟩, ⟨30, false⟩] ⟨30, false⟩ (by
      simp [withTraj, finalize, Util.dedupBy, Util.sortBy, ofSt, List.mergeSort,
        List.MergeSort.Internal.splitInTwo, List.merge]) rfl]
  decide

/-- **C86 refuted (backward).** Propagating backward, the interval searched starts at the start state
(0) instead of the last published state (-20), and the trajectory searched is not in time order; and
without any event the search is started anyway instead of returning `NthEventError`. -/
theorem backward_event_bracket_false :
    untilNth (demo 0 (fun _ => false) none) (fun s => .ok ((s.epoch : Rat) + 22)) false 1 id
      20 (-100) (⟨⟨0, false⟩, 10, true⟩ : Inst Bool) =
      some (.search ⟨0, false⟩ ⟨-30, false⟩
        [⟨-20, false⟩, ⟨-10, false⟩, ⟨0, false⟩, ⟨-30, false⟩]) ∧
    untilNth (demo 0 (fun _ => false) none) (fun _ => .ok 1) false 1 id
      20 (-15) (⟨⟨0, false⟩, 10, true⟩ : Inst Bool) =
      some (.search ⟨0, false⟩ ⟨-15, false⟩
        [⟨-15, false⟩, ⟨-10, false⟩, ⟨0, false⟩, ⟨-15, false⟩]) := by
  constructor
  · rw [untilNth_eval _ _ _ _ _ _ _ _ 22 (by decide +kernel) ⟨-30, false⟩ ⟨⟨-30, false⟩, -10, true⟩
      [⟨-10, false⟩, ⟨-20, false⟩] ⟨1, -8⟩ (by decide +kernel)
      [⟨-20, false⟩, ⟨-10, false⟩, ⟨0, false⟩] ⟨0, false⟩ (by
        simp [withTraj, finalize, Util.dedupBy, Util.sortBy, ofSt, List.mergeSort,
          List.MergeSort.Internal.splitInTwo, List.merge]) rfl]
    decide
  · rw [untilNth_eval _ _ _ _ _ _ _ _ 1 rfl ⟨-15, false⟩ ⟨⟨-15, false⟩, 10, true⟩
      [⟨-10, false⟩, ⟨-15, false⟩] ⟨0, 1⟩ (by decide +kernel)
      [⟨-15, false⟩, ⟨-10, false⟩, ⟨0, false⟩] ⟨0, false⟩ (by
        simp [withTraj, finalize, Util.dedupBy, Util.sortBy, ofSt, List.mergeSort,
          List.MergeSort.Internal.splitInTwo, List.merge]) rfl]
    decide

/-- **C86 refuted (integration frame).** With an integration frame the end of the maximum duration is
not recognised: the published state is in another frame than the returned one, so the search is
started on an empty interval instead of returning `NthEventError`. -/
theorem frame_event_error_false :
    untilNth (demo 0 (fun _ => false) (some true)) (fun _ => .ok 1) false 1 id
      20 15 (⟨⟨0, false⟩, 10, true⟩ : Inst Bool) =
      some (.search ⟨15, true⟩ ⟨15, false⟩
        [⟨0, false⟩, ⟨10, true⟩, ⟨15, true⟩, ⟨15, false⟩]) := by
  rw [untilNth_eval _ _ _ _ _ _ _ _ 1 rfl ⟨15, false⟩ ⟨⟨15, false⟩, 10, true⟩
    [⟨10, true⟩, ⟨15, true⟩] ⟨0, 1⟩ (by decide +kernel)
    [⟨0, false⟩, ⟨10, true⟩, ⟨15, true⟩] ⟨15, true⟩ (by
      simp [withTraj, finalize, Util.dedupBy, Util.sortBy, ofSt, List.mergeSort,
        List.MergeSort.Internal.splitInTwo, List.merge]) rfl]
  decide

theorem demo_keepsEpoch : (demo 0 (fun _ => false) none).KeepsEpoch := ⟨fun _ _ h => by cases h; rfl, fun _ _ _ h => by cases h; rfl⟩

example := nth_event_bracket_partial (demo 0 (fun _ => false) none) demo_keepsEpoch rfl (fun s => .ok ((s.epoch : Rat) - 22)) false 1 le_rfl id
  (fun _ => List.Perm.refl _) 20 100 (by norm_num) (⟨⟨0, false⟩, 10, true⟩ : Inst Bool) 10 ⟨by norm_num, by norm_num, by simp⟩
  ⟨20, false⟩ ⟨30, false⟩ [⟨0, false⟩, ⟨10, false⟩, ⟨20, false⟩, ⟨30, false⟩] (by
    rw [untilNth_eval _ _ _ _ _ _ _ _ (-22) (by decide +kernel) ⟨30, false⟩ ⟨⟨30, false⟩, 10, true⟩
      [⟨10, false⟩, ⟨20, false⟩] ⟨1, 8⟩ (by decide +kernel)
      [⟨0, false⟩, ⟨10, false⟩, ⟨20, false⟩] ⟨20, false⟩ (by
        simp [withTraj, finalize, Util.dedupBy, Util.sortBy, ofSt, List.mergeSort,
          List.MergeSort.Internal.splitInTwo]) rfl]
    decide)

example := nth_event_error_partial (demo 0 (fun _ => false) none) demo_keepsEpoch rfl _ false 1 le_rfl id (fun _ => List.Perm.refl _) 20 25 (by norm_num)
  (⟨⟨0, false⟩, 10, true⟩ : Inst Bool) 10 ⟨by norm_num, by norm_num, by simp⟩ 0 last_step_event_missed

end Verif.Event
