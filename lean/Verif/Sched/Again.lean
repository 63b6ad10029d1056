import Verif.Sched.Config
/-!
C254: the epochs of the measurements when `generate_measurements` is called again on the same simulator.
-/
namespace Verif.SchedAgain
open Verif Verif.Sched
open Verif.Tracking (IMap Msr get sort Sorts)

variable {S N K : Type} [LinearOrder N] [DecidableEq K]

/-! ### Model -/

/-- Successive calls of `generate_measurements` (arc.rs:174-256) on the same simulator: each call starts from
the devices and the generator left by the previous one (`&mut self`). `none`: a call fails or does not end. -/
def repeated (srt : List (Msr N K) → List (Msr N K)) (measure : N → S → Int → S × Shot (Msr N K)) (fuel : Nat)
    (devices : List N) (configs : IMap N Cfg) : Nat → S → Option (List (List (Msr N K)))
  | 0, _ => some []
  | k + 1, s =>
    match devicesLoop measure fuel configs devices s [] with
    | .ok (s', l) => (repeated srt measure fuel devices configs k s').map (sort srt l :: ·)
    | _ => none

/-- The first call is `generate_measurements`. -/
example (srt : List (Msr N K) → List (Msr N K)) (measure : N → S → Int → S × Shot (Msr N K)) (fuel : Nat)
    (devices : List N) (configs : IMap N Cfg) (s : S) (l : List (Msr N K)) :
    repeated srt measure fuel devices configs 1 s = some [l] ↔
      generateMeasurements srt measure fuel devices configs s = .ok l := by
  unfold generateMeasurements
  simp only [repeated]
  cases devicesLoop measure fuel configs devices s [] <;> simp

/-! ### Lemma -/

theorem fuel_enough (devices : List N) (configs : IMap N Cfg) :
    ∃ F, ∀ n ∈ devices, ∀ c l st, get configs n = some c → c.strands = some l → st ∈ l →
      fuelFor st.start st.stop c.sampling ≤ F := by
  induction devices with
  | nil => exact ⟨0, by simp⟩
  | cons n ds ih =>
    obtain ⟨F, hF⟩ := ih
    have : ∃ G, ∀ c l st, get configs n = some c → c.strands = some l → st ∈ l →
        fuelFor st.start st.stop c.sampling ≤ G := by
      cases hg : get configs n with
      | none => exact ⟨0, by simp⟩
      | some c =>
        cases hs : c.strands with
        | none => exact ⟨0, by rintro c' l st h1 h2; cases h1; rw [hs] at h2; cases h2⟩
        | some sts =>
          refine ⟨(sts.map fun st => fuelFor st.start st.stop c.sampling).sum, ?_⟩
          rintro c' l st h1 h2 h3
          cases h1
          rw [hs] at h2; cases h2
          exact List.le_sum_of_mem (List.mem_map_of_mem h3)
    obtain ⟨G, hG⟩ := this
    refine ⟨max F G, fun k hk c l st h1 h2 h3 => ?_⟩
    rcases List.mem_cons.1 hk with rfl | hk
    · exact le_trans (hG c l st h1 h2 h3) (le_max_right _ _)
    · exact le_trans (hF k hk c l st h1 h2 h3) (le_max_left _ _)

/-! ### Statement -/

/-- C254 (partial). Any number of calls end, and all of them have measurements of the same trackers at the
same epochs, in the same order, whatever the noises left by the calls before. Same assumptions as
`measurements_exact`: a measurement holds the name of its device and the epoch requested, and the noise does
not decide whether the vehicle is seen.
Missing: the law of the noises, see `Noise.again_white_partial`, `Noise.again_variance`, `Noise.again_panics`. -/
theorem again_same_epochs_partial (srt : List (Msr N K) → List (Msr N K)) (hsrt : Sorts srt)
    (measure : N → S → Int → S × Shot (Msr N K)) (kind : N → Int → Kind)
    (hkind : ∀ n s e, (measure n s e).2.kind = kind n e)
    (hep : ∀ n s e x, (measure n s e).2 = .seen x → x.epoch = e ∧ x.tracker = n)
    (devices : List N) (configs : IMap N Cfg) (hr : ∀ n ∈ devices, Ready configs n) :
    ∃ F, ∀ fuel, F ≤ fuel → ∃ keys : List (Int × N), ∀ (k : Nat) (s : S), ∃ ls,
      repeated srt measure fuel devices configs k s = some ls ∧ ls.length = k ∧
      ∀ l ∈ ls, l.map (fun m => (m.epoch, m.tracker)) = keys := by
  obtain ⟨F, hF⟩ := fuel_enough devices configs
  refine ⟨F, fun fuel hfu => ?_⟩
  have one : ∀ s, ∃ s' l, devicesLoop measure fuel configs devices s [] = .ok (s', l) ∧
      (sort srt l).Pairwise Tracking.ltKey ∧
      ∀ e n, Tracking.HasKey (sort srt l) e n ↔ n ∈ devices ∧ TakenBy kind configs n e := by
    intro s
    obtain ⟨s', l, h1, h2, h3⟩ := devicesLoop_spec measure kind hkind Msr.epoch Msr.tracker
      (fun _ => True) (fun n s e x h => ⟨(hep n s e x h).1, (hep n s e x h).2, trivial⟩) configs devices hr
      s [] fuel (fun n hn c l st a b d => le_trans (hF n hn c l st a b d) hfu)
    refine ⟨s', l, by simpa using h1, Tracking.coalesce_strict _ (hsrt.sorted l), fun e n => ?_⟩
    refine Iff.trans (Tracking.coalesce_key (srt l) e n) ?_
    unfold Tracking.HasKey
    simp only [(hsrt.perm l).mem_iff]
    constructor
    · rintro ⟨m, hm, rfl, rfl⟩
      exact ⟨(h2 m hm).2.1, (h2 m hm).2.2⟩
    · rintro ⟨hn, h⟩
      exact h3 n hn e h
  rcases isEmpty_or_nonempty S with hS | ⟨⟨s0⟩⟩
  · exact ⟨[], fun _ s => hS.elim s⟩
  obtain ⟨_, l0, -, a2, a3⟩ := one s0
  refine ⟨(sort srt l0).map fun m => (m.epoch, m.tracker), fun k => ?_⟩
  induction k with
  | zero => exact fun s => ⟨[], rfl, rfl, by simp⟩
  | succ k ih =>
    intro s
    obtain ⟨s', l, b1, b2, b3⟩ := one s
    obtain ⟨ls, c1, c2, c3⟩ := ih s'
    refine ⟨sort srt l :: ls, by simp only [repeated, b1, c1, Option.map_some], by simp [c2], ?_⟩
    intro x hx
    rcases List.mem_cons.1 hx with rfl | hx
    · exact Tracking.map_key_eq _ _ b2 a2 fun e t => (b3 e t).trans (a3 e t).symm
    · exact c3 x hx

/-- Two devices, the first of which fails at epoch 30. -/
example := again_same_epochs_partial (S := Nat) (K := Nat) _ Tracking.sorts_mergeSort probe probeKind
  (fun n s e => by unfold probe probeKind; split <;> (try split) <;> rfl)
  (fun n s e x h => by
    unfold probe at h
    simp only at h
    split at h
    · cases h
    · split at h
      · cases h; exact ⟨rfl, rfl⟩
      · cases h)
  [0, 1] [(0, ⟨none, 10, some [⟨0, 50⟩, ⟨60, 100⟩]⟩), (1, ⟨none, 7, some [⟨1, 50⟩]⟩)]
  (fun n hn c hc => by
    rcases List.mem_cons.1 hn with rfl | hn
    · cases hc; exact ⟨fun h => rfl, by decide⟩
    · rw [List.mem_singleton] at hn
      subst hn
      cases hc; exact ⟨fun h => rfl, by decide⟩)

end Verif.SchedAgain
