import Mathlib.Algebra.GCDMonoid.Nat
import Verif.Sched.Measure
/-!
C135: the check of a tracking configuration and what the simulator does with those that fail it.
C136: the common sampling rate. Examples for C47.
-/
namespace Verif.Sched
open Verif Verif.Util
open Verif.Tracking (IMap Msr get sort Sorts)

/-! ### C135 -/

theorem strandsOk_iff (d : Int) (l : List Strand) :
    strandsOk d l = true ↔ ∀ s ∈ l, d ≤ s.stop - s.start ∧ s.start ≤ s.stop := by
  induction l with
  | nil => simp [strandsOk]
  | cons s l ih =>
    have hd : s.duration = s.stop - s.start := rfl
    simp only [strandsOk, List.mem_cons, forall_eq_or_imp]
    by_cases h1 : s.duration < d
    · rw [if_pos h1]; simp; omega
    · rw [if_neg h1]
      by_cases h2 : s.duration < 0
      · rw [if_pos h2]; simp; omega
      · rw [if_neg h2, ih]
        constructor
        · exact fun h => ⟨⟨by omega, by omega⟩, h⟩
        · exact fun h => h.2

/-- C135. A configuration passes the check exactly when it has either a scheduler and no strands, or
no scheduler and a non-empty list of strands, all of which are chronological and last at least one
sampling period.
Missing: the simulator does not ignore a device that fails (`ignored_device_measures`). -/
theorem sane_iff_partial (c : Cfg) : c.sane = true ↔
    ((∃ s, c.scheduler = some s) ∧ c.strands = none) ∨
    (c.scheduler = none ∧ ∃ l, c.strands = some l ∧ l ≠ [] ∧
      ∀ s ∈ l, c.sampling ≤ s.stop - s.start ∧ s.start ≤ s.stop) := by
  obtain ⟨sch, smp, str⟩ := c
  unfold Cfg.sane
  cases sch with
  | none =>
    cases str with
    | none => simp
    | some l =>
      cases l with
      | nil => simp
      | cons a l => simp [strandsOk_iff]
  | some s =>
    cases str with
    | none => simp
    | some l => simp

/-- A configuration whose sampling is zero passes the check, and the simulation of a device that sees
the vehicle then never ends. -/
theorem zero_sampling_accepted {N S K : Type} [LinearOrder N] [DecidableEq K]
    (srt : List (Msr N K) → List (Msr N K)) (measure : N → S → Int → S × Shot (Msr N K))
    (hok : ∀ n s e, (measure n s e).2 ≠ .fail) (n : N) (s : S) :
    ∃ c : Cfg, c.sane = true ∧
      ∀ fuel, generateMeasurements srt measure fuel [n] [(n, c)] s = .loops := by
  refine ⟨⟨none, 0, some [⟨0, 100⟩]⟩, by decide, fun fuel => ?_⟩
  have h := nonpositive_sampling_loops (measure n) (hok n) 0 100 0 (le_refl _) (by decide) s [] fuel
  simp [generateMeasurements, devicesLoop, Tracking.get, strandsLoop, h]

/-- A device whose configuration fails the check is announced as ignored (arc.rs:94-97), but it stays
among the devices and takes measurements: here, a strand shorter than the sampling. -/
theorem ignored_device_measures {S K : Type} [DecidableEq K] (srt : List (Msr Nat K) → List (Msr Nat K))
    (hsrt : Sorts srt) (measure : Nat → S → Int → S × Shot (Msr Nat K))
    (hsee : ∀ n s e, ∃ s' x, measure n s e = (s', .seen x) ∧ x.epoch = e ∧ x.tracker = n) (s : S) :
    ∃ configs : IMap Nat Cfg, ∃ c, get configs 0 = some c ∧ c.sane = false ∧
      -- the device 0 does not contribute to the sampling rates of the simulator
      rates [(0, ()), (1, ())] configs = [60] ∧
      -- but it has a measurement in the simulated arc
      ∃ F, ∀ fuel, F ≤ fuel → ∃ l, generateMeasurements srt measure fuel [0, 1] configs s = .ok l ∧
        ∃ m ∈ l, m.tracker = 0 := by
  refine ⟨[(0, ⟨none, 60, some [⟨0, 30⟩]⟩), (1, ⟨none, 60, some [⟨0, 600⟩]⟩)], _, rfl, by decide,
    by decide, ?_⟩
  obtain ⟨F, hF⟩ := measurements_exact srt hsrt measure (fun _ _ => .seen)
    (fun n s e => by obtain ⟨s', x, h, -⟩ := hsee n s e; rw [h]; rfl)
    (fun n s e x h => by
      obtain ⟨s', y, h', h1, h2⟩ := hsee n s e
      rw [h'] at h; cases h; exact ⟨h1, h2⟩)
    [0, 1] [(0, ⟨none, 60, some [⟨0, 30⟩]⟩), (1, ⟨none, 60, some [⟨0, 600⟩]⟩)]
    (fun n hn c hc => by
      rcases List.mem_cons.1 hn with rfl | hn
      · cases hc; exact ⟨fun h => rfl, by decide⟩
      · rw [List.mem_singleton] at hn
        subst hn
        cases hc; exact ⟨fun h => rfl, by decide⟩) s
  refine ⟨F, fun fuel hf => ?_⟩
  obtain ⟨l, h1, -, h3⟩ := hF fuel hf
  obtain ⟨m, hm, -, ht⟩ := (h3 0 0).2 ⟨by decide, _, _, ⟨0, 30⟩, rfl, rfl, by decide, 0, by simp, by decide,
    rfl, fun j hj => by omega⟩
  exact ⟨l, h1, m, hm, ht⟩

/-! ### C136 -/

theorem foldl_gcd_spec (l : List Int) (a : Int) :
    (l.foldl (fun a b => (Int.gcd a b : Int)) a ∣ a) ∧
    (∀ r ∈ l, l.foldl (fun a b => (Int.gcd a b : Int)) a ∣ r) ∧
    (∀ d : Int, d ∣ a → (∀ r ∈ l, d ∣ r) → d ∣ l.foldl (fun a b => (Int.gcd a b : Int)) a) := by
  induction l generalizing a with
  | nil => exact ⟨Int.dvd_refl a, by simp, fun d h _ => h⟩
  | cons b l ih =>
    rw [List.foldl_cons]
    obtain ⟨h1, h2, h3⟩ := ih (Int.gcd a b : Int)
    refine ⟨h1.trans (Int.gcd_dvd_left ..), fun r hr => ?_, fun d hd hr => ?_⟩
    · rcases List.mem_cons.1 hr with rfl | hr
      · exact h1.trans (Int.gcd_dvd_right ..)
      · exact h2 r hr
    · exact h3 d (Int.dvd_coe_gcd hd (hr b (by simp))) (fun r h => hr r (List.mem_cons_of_mem _ h))

/-- C136. The simulator is built exactly when some device has a configuration that passes the check.
The step of its time series is then the greatest common divisor of the sampling periods of all such
devices: it divides each of them, and every common divisor divides it. -/
theorem common_rate {N D : Type} [DecidableEq N] (devices : IMap N D) (configs : IMap N Cfg) :
    (commonRate (rates devices configs) = none ↔
      ∀ n ∈ devices.map Prod.fst, ∀ c, get configs n = some c → c.sane = false) ∧
    ∀ r, commonRate (rates devices configs) = some r →
      (∀ n ∈ devices.map Prod.fst, ∀ c, get configs n = some c → c.sane = true → r ∣ c.sampling) ∧
      ∀ d : Int, (∀ n ∈ devices.map Prod.fst, ∀ c, get configs n = some c → c.sane = true →
        d ∣ c.sampling) → d ∣ r := by
  have hmem : ∀ x, x ∈ rates devices configs ↔ ∃ n ∈ devices.map Prod.fst, ∃ c,
      get configs n = some c ∧ c.sane = true ∧ c.sampling = x := by
    intro x
    unfold rates
    rw [List.mem_filterMap]
    constructor
    · rintro ⟨e, he, h⟩
      cases hg : get configs e.1 with
      | none => rw [hg] at h; cases h
      | some c =>
        rw [hg] at h
        simp only [Option.bind_some] at h
        split at h
        · rename_i hs
          cases h
          exact ⟨e.1, List.mem_map_of_mem he, c, hg, hs, rfl⟩
        · cases h
    · rintro ⟨n, hn, c, hg, hs, rfl⟩
      rw [List.mem_map] at hn
      obtain ⟨e, he, rfl⟩ := hn
      exact ⟨e, he, by simp [hg, hs]⟩
  cases hr : rates devices configs with
  | nil =>
    rw [hr] at hmem
    refine ⟨⟨fun _ n hn c hc => ?_, fun _ => rfl⟩, fun r h => by cases h⟩
    by_contra hs
    have := (hmem c.sampling).2 ⟨n, hn, c, hc, by simpa using hs, rfl⟩
    simp at this
  | cons a l =>
    rw [hr] at hmem
    refine ⟨⟨fun h => by simp [commonRate] at h, fun h => ?_⟩, fun r h => ?_⟩
    · obtain ⟨n, hn, c, hc, hs, -⟩ := (hmem a).1 (by simp)
      rw [h n hn c hc] at hs
      cases hs
    · simp only [commonRate, Option.some.injEq] at h
      subst h
      obtain ⟨-, h2, h3⟩ := foldl_gcd_spec (a :: l) a
      refine ⟨fun n hn c hc hs => h2 _ ((hmem _).2 ⟨n, hn, c, hc, hs, rfl⟩), fun d hd => ?_⟩
      have hall : ∀ r ∈ a :: l, d ∣ r := by
        intro r hr'
        obtain ⟨n, hn, c, hc, hs, rfl⟩ := (hmem r).1 hr'
        exact hd n hn c hc hs
      exact h3 d (hall a (by simp)) hall

/-- The default configuration passes the check, and so does one built from a sample rate. -/
theorem default_sane (d : Int) : Cfg.default.sane = true ∧ (Cfg.fromSampleRate d).sane = true := by
  constructor <;> rfl

/-! ### Examples -/

/-- A device that fails at epoch 30, sees the vehicle at even epochs otherwise; the state counts the
calls. -/
def probe (n : Nat) (s : Nat) (e : Int) : Nat × Shot (Msr Nat Nat) :=
  (s + 1, if e = 30 then .fail else if e % 20 = 0 then .seen ⟨n, e, [(0, s)], false⟩ else .hidden)

/-- Its kinds. -/
def probeKind (_ : Nat) (e : Int) : Kind :=
  if e = 30 then .fail else if e % 20 = 0 then .seen else .hidden

example := measurements_exact (S := Nat) (K := Nat) _ Tracking.sorts_mergeSort probe probeKind
  (fun n s e => by unfold probe probeKind; split <;> (try split) <;> rfl)
  (fun n s e x h => by
    unfold probe at h
    simp only at h
    split at h
    · cases h
    · split at h
      · cases h; exact ⟨rfl, rfl⟩
      · cases h)
  [0, 1] [(0, ⟨none, 10, some [⟨0, 50⟩, ⟨60, 100⟩]⟩), (1, ⟨none, 7, some [⟨1, 50⟩]⟩)]
  (fun n hn c hc => by
    rcases List.mem_cons.1 hn with rfl | hn
    · cases hc; exact ⟨fun h => rfl, by decide⟩
    · rw [List.mem_singleton] at hn
      subst hn
      cases hc; exact ⟨fun h => rfl, by decide⟩) 0

/-- The raw measurements of that device: the second half of its first strand is lost. -/
example : (devicesLoop probe 100 [(0, ⟨none, 10, some [⟨0, 50⟩, ⟨60, 100⟩]⟩)] [0] 0 []) matches
    .ok (_, [⟨0, 0, _, _⟩, ⟨0, 20, _, _⟩, ⟨0, 60, _, _⟩, ⟨0, 80, _, _⟩, ⟨0, 100, _, _⟩]) := by
  decide

example := schedule_required (S := Nat) (K := Nat) (N := Nat) (fun l => l) probe [0] [2] 1
  [(0, ⟨none, 10, some [⟨0, 50⟩]⟩), (1, Cfg.default)]
  (fun n hn c hc => by
    rw [List.mem_singleton] at hn; subst hn; cases hc; exact ⟨fun h => rfl, by decide⟩)
  Cfg.default rfl rfl rfl 0 100
  (fun n hn c l st h1 h2 h3 => by
    rw [List.mem_singleton] at hn; subst hn; cases h1; cases h2
    rw [List.mem_singleton] at h3; subst h3; decide)

example : commonRate (rates [(0, ()), (1, ()), (2, ())] [(0, Cfg.default),
    (1, ⟨none, 45 * second, some [⟨0, 90 * second⟩]⟩), (2, ⟨none, 7, some []⟩)]) = some (15 * second) := by
  decide

example := zero_sampling_accepted (S := Nat) (K := Nat) (fun l => l) (fun (_ : Nat) s _ => (s, .hidden)) (fun _ _ _ => nofun) 0 0

end Verif.Sched
