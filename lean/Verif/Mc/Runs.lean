import Verif.Mc.Model
import Mathlib.Data.List.Basic
import Mathlib.Tactic.Ring
import Mathlib.Tactic.Linarith
/-!
C63: the results do not depend on the scheduling of the threads. C64: resuming. C116: the reports.
-/
namespace Verif.Mc
open Verif.Spacecraft

variable {R D X E Fr : Type}

/-- Specification: the state of the generator after `k` samples. -/
def rngAfter (sample : R → D × R) (rng : R) : Nat → R
  | 0 => rng
  | k + 1 => (sample (rngAfter sample rng k)).2

/-- Specification: the `k`-th sample of a seeded generator. -/
def nth (sample : R → D × R) (rng : R) (k : Nat) : D := (sample (rngAfter sample rng k)).1

theorem rngAfter_succ (sample : R → D × R) (rng : R) (k : Nat) :
    rngAfter sample (sample rng).2 k = rngAfter sample rng (k + 1) := by
  induction k with
  | zero => rfl
  | succ k ih => rw [rngAfter, ih]; rfl

theorem skipN_eq (sample : R → D × R) (k : Nat) (rng : R) : skipN sample k rng = rngAfter sample rng k := by
  induction k generalizing rng with
  | zero => rfl
  | succ k ih => rw [skipN, ih, rngAfter_succ]

theorem rngAfter_add (sample : R → D × R) (rng : R) (k l : Nat) :
    rngAfter sample (rngAfter sample rng k) l = rngAfter sample rng (k + l) := by
  induction l with
  | zero => rfl
  | succ l ih => rw [rngAfter, ih]; rfl

theorem takeN_eq (sample : R → D × R) (n : Nat) (rng : R) :
    takeN sample n rng = (List.range n).map (nth sample rng) := by
  induction n generalizing rng with
  | zero => rfl
  | succ n ih =>
    rw [takeN, ih, List.range_succ_eq_map, List.map_cons, List.map_map]
    refine congrArg₂ _ rfl (List.map_congr_left fun k _ => ?_)
    simp only [nth, Function.comp, rngAfter_succ]

theorem generateStates_eq (sample : R → D × R) (rng : R) (skip n : Nat) :
    generateStates sample rng skip n = (List.range n).map fun i => (i, nth sample rng (skip + i)) := by
  unfold generateStates
  rw [takeN_eq, skipN_eq]
  apply List.ext_getElem
  · simp
  · intro i h1 h2
    simp [nth, rngAfter_add]

/-- **C63.** Whatever the order in which the threads finish, a Monte Carlo run of `n` states gives exactly one
run per state drawn, in order: run `i` has the index `i`, the `i`-th state drawn and the result of
propagating that state (and of nothing else). -/
theorem results_order_independent (sched : List (Run D X) → List (Run D X))
    (hs : ∀ l, (sched l).Perm l) (sample : R → D × R) (prop : D → X) (rng : R) (n : Nat) :
    run sched sample prop rng n =
      (List.range n).map fun i => ⟨i, nth sample rng i, prop (nth sample rng i)⟩ := by
  unfold run resumeRun
  rw [generateStates_eq, List.map_map]
  refine Util.sortBy_eq_of_perm _ ?_ ((hs _).trans (List.Perm.of_eq ?_))
  · rw [List.pairwise_map]
    exact List.Pairwise.imp (fun {a b} h => by simpa using h) List.pairwise_lt_range
  · refine List.map_congr_left fun i _ => ?_
    simp [Function.comp]

/-- **C63.** The same for a resumed run: any two orders give the same results. -/
theorem resume_order_independent (s1 s2 : List (Run D X) → List (Run D X))
    (h1 : ∀ l, (s1 l).Perm l) (h2 : ∀ l, (s2 l).Perm l) (sample : R → D × R) (prop : D → X) (rng : R)
    (skip n : Nat) :
    resumeRun s1 sample prop rng skip n = resumeRun s2 sample prop rng skip n := by
  have key : ∀ (s : List (Run D X) → List (Run D X)), (∀ l, (s l).Perm l) →
      resumeRun s sample prop rng skip n =
        (generateStates sample rng skip n).map fun p => ⟨p.1, p.2, prop p.2⟩ := by
    intro s hs
    refine Util.sortBy_eq_of_perm _ ?_ (hs _)
    rw [generateStates_eq, List.map_map, List.pairwise_map]
    exact List.Pairwise.imp (fun {a b} h => by simpa using h) List.pairwise_lt_range
  rw [key s1 h1, key s2 h2]

/-- **C64, partial.** Resuming after `k` runs gives the states, and the results, of the runs `k`, `k + 1`, … of
the original campaign. Missing: their indices (see `resume_renumbers`). -/
theorem resume_states_partial (s1 s2 : List (Run D X) → List (Run D X))
    (h1 : ∀ l, (s1 l).Perm l) (h2 : ∀ l, (s2 l).Perm l) (sample : R → D × R) (prop : D → X) (rng : R)
    (k n : Nat) :
    (resumeRun s1 sample prop rng k n).map (fun r => (r.disp, r.result)) =
      ((run s2 sample prop rng (k + n)).drop k).map fun r => (r.disp, r.result) := by
  rw [results_order_independent s2 h2, resume_order_independent s1 id h1 (fun _ => List.Perm.refl _)]
  have : resumeRun id sample prop rng k n = (List.range n).map fun i =>
      ⟨i, nth sample rng (k + i), prop (nth sample rng (k + i))⟩ := by
    unfold resumeRun
    rw [generateStates_eq, List.map_map]
    refine Util.sortBy_eq_of_perm _ ?_ (List.Perm.of_eq ?_)
    · rw [List.pairwise_map]
      exact List.Pairwise.imp (fun {a b} h => by simpa using h) List.pairwise_lt_range
    · exact List.map_congr_left fun i _ => by simp [Function.comp]
  rw [this]
  apply List.ext_getElem
  · simp
  · intro i h1 h2
    simp

/-- **C64 refuted (indices).** The resumed runs are numbered from zero again: after skipping `k > 0` runs, the
first resumed run has the index 0 where the same state had the index `k` in the original campaign. -/
theorem resume_renumbers (sched : List (Run D X) → List (Run D X)) (hs : ∀ l, (sched l).Perm l)
    (sample : R → D × R) (prop : D → X) (rng : R) (k n : Nat) :
    (resumeRun sched sample prop rng k n).map (·.index) = List.range n ∧
    (((run sched sample prop rng (k + n)).drop k).map (·.index)) = (List.range n).map (k + ·) ∧
    (0 < k → 0 < n → (resumeRun sched sample prop rng k n).map (·.index) ≠
      ((run sched sample prop rng (k + n)).drop k).map (·.index)) := by
  have e1 : (resumeRun sched sample prop rng k n).map (·.index) = List.range n := by
    rw [resume_order_independent sched id hs (fun _ => List.Perm.refl _)]
    unfold resumeRun
    rw [generateStates_eq, List.map_map]
    rw [Util.sortBy_of_sorted]
    · simp [Function.comp_def]
    · simp only [id, List.pairwise_map]
      exact List.Pairwise.imp (fun {a b} h => by
        have : a < b := h
        simp only [Function.comp]
        omega) List.pairwise_lt_range
  have e2 : ((run sched sample prop rng (k + n)).drop k).map (·.index) = (List.range n).map (k + ·) := by
    rw [results_order_independent sched hs]
    apply List.ext_getElem
    · simp
    · intro i h1 h2
      simp
  refine ⟨e1, e2, fun hk hn => ?_⟩
  rw [e1, e2]
  obtain ⟨m, rfl⟩ : ∃ m, n = m + 1 := ⟨n - 1, by omega⟩
  rw [List.range_succ_eq_map, List.map_cons]
  intro h
  have := (List.cons.inj h).1
  omega

/-! ### C116: reports -/

variable {S : Type}

/-- Specification: the value reported for a run by a report with one value per run. -/
def valueOrDefault (value : S → Option ℝ) (d : ℝ) (pick : List S → Option S)
    (r : Run D (Option (Success S))) : ℝ :=
  match r.result with
  | some s => ((pick s.traj).bind value).getD d
  | none => d

/-- **C116 (first and last values).** With a default value, and trajectories that are not empty, the reports
have exactly one value per run, in the order of the runs: that of the first (last) state, or the default
if the run failed or has no such parameter. -/
theorem first_last_values (value : S → Option ℝ) (d : ℝ) (runs : List (Run D (Option (Success S))))
    (hne : ∀ r ∈ runs, ∀ s, r.result = some s → s.traj ≠ []) :
    firstValuesOf value (some d) runs = .ok (runs.map (valueOrDefault value d List.head?)) ∧
    lastValuesOf value (some d) runs = .ok (runs.map (valueOrDefault value d List.getLast?)) := by
  induction runs with
  | nil => exact ⟨rfl, rfl⟩
  | cons r l ih =>
    obtain ⟨ih1, ih2⟩ := ih fun r' hr' => hne r' (List.mem_cons_of_mem _ hr')
    cases hr : r.result with
    | none =>
      simp only [firstValuesOf, lastValuesOf, hr, ih1, ih2, Out.bind, List.map_cons, valueOrDefault]
      exact ⟨rfl, rfl⟩
    | some s =>
      have hs := hne r List.mem_cons_self s hr
      obtain ⟨a, ha⟩ : ∃ a, s.traj.head? = some a := by
        cases ht : s.traj with
        | nil => exact absurd ht hs
        | cons a t => exact ⟨a, rfl⟩
      obtain ⟨b, hb⟩ : ∃ b, s.traj.getLast? = some b := by
        rw [List.getLast?_eq_some_getLast hs]
        exact ⟨_, rfl⟩
      simp only [firstValuesOf, lastValuesOf, hr, ih1, ih2, ha, hb, unwrap, Out.bind, List.map_cons,
        valueOrDefault, Option.bind_some]
      refine ⟨?_, ?_⟩
      · cases value a <;> rfl
      · cases value b <;> rfl

/-- **C116 (without a default).** The runs that failed, or without the parameter, are skipped: the values are
no longer those of the runs in sequence. -/
theorem first_values_skip (value : S → Option ℝ) (runs : List (Run D (Option (Success S))))
    (hne : ∀ r ∈ runs, ∀ s, r.result = some s → s.traj ≠ []) :
    firstValuesOf value none runs =
      .ok (runs.filterMap fun r => r.result.bind fun s => s.traj.head?.bind value) ∧
    lastValuesOf value none runs =
      .ok (runs.filterMap fun r => r.result.bind fun s => s.traj.getLast?.bind value) := by
  induction runs with
  | nil => exact ⟨rfl, rfl⟩
  | cons r l ih =>
    obtain ⟨ih1, ih2⟩ := ih fun r' hr' => hne r' (List.mem_cons_of_mem _ hr')
    cases hr : r.result with
    | none =>
      simp only [firstValuesOf, lastValuesOf, hr, ih1, ih2, Out.bind, List.filterMap_cons, Option.bind_none]
      exact ⟨rfl, rfl⟩
    | some s =>
      have hs := hne r List.mem_cons_self s hr
      obtain ⟨a, ha⟩ : ∃ a, s.traj.head? = some a := by
        cases ht : s.traj with
        | nil => exact absurd ht hs
        | cons a t => exact ⟨a, rfl⟩
      obtain ⟨b, hb⟩ : ∃ b, s.traj.getLast? = some b := by
        rw [List.getLast?_eq_some_getLast hs]
        exact ⟨_, rfl⟩
      simp only [firstValuesOf, lastValuesOf, hr, ih1, ih2, ha, hb, unwrap, Out.bind, List.filterMap_cons,
        Option.bind_some]
      refine ⟨?_, ?_⟩
      · cases value a <;> rfl
      · cases value b <;> rfl

/-- **C116 (every value).** The report of all values is that of each run in order: one value per state read on
the trajectory (with a default), and exactly one value, the default, for a run that failed. -/
theorem every_value_counts (value : S → Option ℝ) (states : List S → List S) (d : ℝ)
    (runs : List (Run D (Option (Success S)))) :
    everyValueOf value states (some d) runs =
      runs.flatMap (fun r => r.result.elim [d] fun s => (states s.traj).map fun st => (value st).getD d) ∧
    (everyValueOf value states (some d) runs).length =
      (runs.map fun r => r.result.elim 1 fun s => (states s.traj).length).sum := by
  have h1 : everyValueOf value states (some d) runs =
      runs.flatMap (fun r => r.result.elim [d] fun s => (states s.traj).map fun st => (value st).getD d) := by
    unfold everyValueOf
    congr 1
    funext r
    cases r.result with
    | none => rfl
    | some s =>
      simp only [Option.elim]
      induction states s.traj with
      | nil => rfl
      | cons a t ih =>
        rw [List.flatMap_cons, ih, List.map_cons]
        cases value a <;> rfl
  refine ⟨h1, ?_⟩
  rw [h1, List.length_flatMap]
  congr 1
  refine List.map_congr_left fun r _ => ?_
  cases r.result <;> simp

/-- **C116 (dispersions).** The dispersion values of a parameter are given if and only if every run reports one;
they are then the first one of each run, in the order of the runs. -/
theorem dispersion_values [DecidableEq E] (p : Par E) (runs : List (Run (Dispersed E Fr) X)) :
    (∀ vs, dispersionValuesOf p runs = some vs →
      vs.length = runs.length ∧
      ∀ (i : Nat) (hi : i < runs.length) (hv : i < vs.length), ∃ (a b : List (Par E × ℝ)),
        runs[i].disp.actual = a ++ (p, vs[i]) :: b ∧ ∀ q ∈ a, q.1 ≠ p) ∧
    (dispersionValuesOf p runs = none ↔ ∃ r ∈ runs, ∀ q ∈ r.disp.actual, q.1 ≠ p) := by
  induction runs with
  | nil => exact ⟨fun vs h => by cases h; simp, by simp [dispersionValuesOf]⟩
  | cons r l ih =>
    cases hf : r.disp.actual.find? (fun q => decide (q.1 = p)) with
    | none =>
      have hn : ∀ q ∈ r.disp.actual, q.1 ≠ p := by
        intro q hq
        simpa using List.find?_eq_none.1 hf q hq
      refine ⟨fun vs h => ?_, ?_⟩
      · simp [dispersionValuesOf, hf] at h
      · simp only [dispersionValuesOf, hf, true_iff]
        exact ⟨r, List.mem_cons_self, hn⟩
    | some q =>
      obtain ⟨hq, a, b, hab, hna⟩ := List.find?_eq_some_iff_append.1 hf
      have hq' : q.1 = p := by simpa using hq
      refine ⟨fun vs h => ?_, ?_⟩
      · simp only [dispersionValuesOf, hf, Option.map_eq_some_iff] at h
        obtain ⟨ws, hw, rfl⟩ := h
        obtain ⟨hl, hi⟩ := ih.1 ws hw
        refine ⟨by simp [hl], ?_⟩
        intro i h1 h2
        cases i with
        | zero =>
          refine ⟨a, b, ?_, fun y hy => by simpa using hna y hy⟩
          simp only [List.getElem_cons_zero]
          rw [hab, ← hq']
        | succ i => simpa using hi i (by simpa using h1) (by simpa using h2)
      · simp only [dispersionValuesOf, hf, Option.map_eq_none_iff, ih.2]
        constructor
        · rintro ⟨r', hr', h'⟩
          exact ⟨r', List.mem_cons_of_mem _ hr', h'⟩
        · rintro ⟨r', hr', h'⟩
          rcases List.mem_cons.1 hr' with rfl | hr'
          · exact absurd hq' (h' q (by rw [hab]; simp))
          · exact ⟨r', hr', h'⟩

/-- **C116 (export without options).** All the states of all the successful runs are written in the order of the
runs, each with the index of its run; the export fails if and only if no run succeeded.
Missing: the export with a step (`export_cuts_later_runs`). -/
theorem export_all_partial (epoch : S → Int) (between : List S → Int → Int → Int → List S)
    (runs : List (Run D (Option (Success S)))) :
    (exportRows epoch between ⟨none, none, none⟩ none runs).2 =
      runs.flatMap (fun r => (r.result.elim [] (·.traj)).map fun st => (r.index, st)) ∧
    ((exportRows epoch between ⟨none, none, none⟩ none runs).1 = none ↔
      ∀ r ∈ runs, r.result = none) := by
  have h : ∀ acc, (exportRows epoch between ⟨none, none, none⟩ acc runs).2 =
      runs.flatMap (fun r => (r.result.elim [] (·.traj)).map fun st => (r.index, st)) ∧
    ((exportRows epoch between ⟨none, none, none⟩ acc runs).1 = none ↔
      acc = none ∧ ∀ r ∈ runs, r.result = none) := by
    induction runs with
    | nil => intro acc; simp [exportRows]
    | cons r l ih =>
      intro acc
      cases hr : r.result with
      | none =>
        simp only [exportRows, hr, List.flatMap_cons, Option.elim_none, List.map_nil, List.nil_append]
        refine ⟨(ih acc).1, ?_⟩
        rw [(ih acc).2]
        simp [hr]
      | some s =>
        simp only [exportRows, hr, List.flatMap_cons, Option.elim_some]
        refine ⟨?_, ?_⟩
        · rw [(ih _).1]
          simp
        · rw [(ih _).2]
          simp [hr]
  exact ⟨(h none).1, by rw [(h none).2]; simp⟩

/-- **C116 refuted (export with a step).** When only a step is given, all the runs are sampled on the window of
the first successful run, not on their own: a run that lasts longer is cut. Here two runs whose
trajectories last 1 and 3, sampled every 1. -/
theorem export_cuts_later_runs :
    let between : List Int → Int → Int → Int → List Int :=
      fun l _ a b => l.filter fun t => decide (a ≤ t) && decide (t ≤ b)
    (exportRows (D := Unit) id between ⟨none, none, some 1⟩ none
      [⟨0, (), some ⟨1, [0, 1]⟩⟩, ⟨1, (), some ⟨3, [0, 1, 2, 3]⟩⟩]).2 = [(0, 0), (0, 1), (1, 0), (1, 1)] := by
  decide

/-! ### Examples -/

/-- A counter as a generator. -/
def count : Nat → Nat × Nat := fun r => (r * r, r + 1)

/-- The threads finish in the reverse order. -/
example : run List.reverse count (· + 1) 3 3 = [⟨0, 9, 10⟩, ⟨1, 16, 17⟩, ⟨2, 25, 26⟩] :=
  results_order_independent List.reverse List.reverse_perm count (· + 1) 3 3

example := resume_states_partial List.reverse id List.reverse_perm (fun _ => List.Perm.refl _) count (· + 1) 3 2 2

example := (resume_renumbers List.reverse List.reverse_perm count (· + 1) 3 2 2).2.2 (by decide) (by decide)

example := first_last_values (D := Unit) (fun x : ℝ => some x) 7
  [⟨0, (), some ⟨2, [1, 2]⟩⟩, ⟨1, (), none⟩] (by simp)

example := first_values_skip (D := Unit) (fun x : ℝ => some x)
  [⟨0, (), some ⟨2, [1, 2]⟩⟩, ⟨1, (), none⟩] (by simp)

example (s : Craft ℝ Fr) : dispersionValuesOf (E := Nat) (X := Unit) .cr
    [⟨0, ⟨s, [(.cd, 1), (.cr, 2)]⟩, ()⟩, ⟨1, ⟨s, [(.cr, 3)]⟩, ()⟩] = some [2, 3] := by
  simp [dispersionValuesOf]

end Verif.Mc
