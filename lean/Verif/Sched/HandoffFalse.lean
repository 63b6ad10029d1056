import Verif.Sched.Schedule
/-!
C46: where the handoff fails, and examples of schedules.
-/
namespace Verif.Sched
open Verif Verif.Util
open Verif.Tracking (IMap get)

variable {N : Type} [DecidableEq N]

/-- When the strands are listed in order of their start, the sort does nothing. -/
theorem schedule_eq {D : Type} (vis : N → Int → Option (List Strand)) (devices : IMap N D)
    (configs m : IMap N Cfg) (hb : buildAll vis configs (devices.map Prod.fst) configs = some m)
    (hs : (m.flatMap entriesOf).Pairwise (fun a b => a.strand.start ≤ b.strand.start)) :
    generateSchedule false vis devices configs = .ok (handLoop configs (m.flatMap entriesOf) m) := by
  have : snapshot m = m.flatMap entriesOf := sortBy_of_sorted _ hs
  simp only [generateSchedule, hb, this, Bool.false_and, Bool.false_eq_true, if_false]

/-- A configuration that samples every unit with no alignment. -/
def auto (h : Handoff) : Cfg := ⟨some ⟨h, .continuous, 1, none⟩, 1, none⟩

/-- Visibility arcs: one per tracker. -/
def oneArc (arcs : List Strand) (n : Nat) (_ : Int) : Option (List Strand) := some (arcs[n]?.toList)

/-- The configurations once each tracker has its only strand. -/
def fixed (l : List Strand) : IMap Nat Cfg := l.zipIdx.map fun p => (p.2, ⟨none, 1, some [p.1]⟩)

/-- C46 is false: the handoff compares neighbours as they were before any handoff. Three Greedy
trackers, the first of which sees the vehicle during the passes of both others: the second strand is
removed, and the third one overlaps the first. -/
theorem greedy_overlap : ∃ (arcs : List Strand) (configs m' : IMap Nat Cfg) (s t : Strand),
    configs = [(0, auto .greedy), (1, auto .greedy), (2, auto .greedy)] ∧
    generateSchedule false (oneArc arcs) [(0, ()), (1, ()), (2, ())] configs = .ok m' ∧
    strandAt m' (0, 0) = some s ∧ strandAt m' (2, 0) = some t ∧ s.contains 30 ∧ t.contains 30 := by
  refine ⟨[⟨0, 100⟩, ⟨10, 20⟩, ⟨30, 40⟩], _, fixed [⟨0, 100⟩, ⟨101, 20⟩, ⟨30, 40⟩], ⟨0, 100⟩, ⟨30, 40⟩,
    rfl, ?_, rfl, rfl, by simp [Strand.contains], by simp [Strand.contains]⟩
  rw [schedule_eq _ _ _ (fixed [⟨0, 100⟩, ⟨10, 20⟩, ⟨30, 40⟩]) (by decide) (by decide)]
  congr 1

/-- The handoff loses tracking time: an Eager tracker that hands over to a shorter pass does not
resume after it. The vehicle is visible at epoch 50 from the first tracker, long after the second
one lost it, and no tracker has a strand then. -/
theorem eager_gap : ∃ (arcs : List Strand) (configs m' : IMap Nat Cfg),
    configs = [(0, auto .eager), (1, auto .eager)] ∧
    generateSchedule false (oneArc arcs) [(0, ()), (1, ())] configs = .ok m' ∧
    (∃ a ∈ arcs, a.contains 50) ∧ ∀ k s, strandAt m' k = some s → ¬ s.contains 50 := by
  refine ⟨[⟨0, 100⟩, ⟨10, 20⟩], _, fixed [⟨0, 9⟩, ⟨10, 20⟩], rfl, ?_, ⟨⟨0, 100⟩, by simp,
    by simp [Strand.contains]⟩, ?_⟩
  · rw [schedule_eq _ _ _ (fixed [⟨0, 100⟩, ⟨10, 20⟩]) (by decide) (by decide)]
    congr 1
  · rintro ⟨n, i⟩ s h
    have h1 : n = 0 ∨ n = 1 ∨ 2 ≤ n := by omega
    have h2 : i = 0 ∨ 1 ≤ i := by omega
    rcases h1 with rfl | rfl | h1
    · rcases h2 with rfl | h2
      · cases h; simp [Strand.contains]
      · obtain ⟨i, rfl⟩ := Nat.exists_eq_add_of_le' h2
        cases h
    · rcases h2 with rfl | h2
      · cases h; simp [Strand.contains]
      · obtain ⟨i, rfl⟩ := Nat.exists_eq_add_of_le' h2
        cases h
    · have e1 : ¬ (0 = n) := by omega
      have e2 : ¬ (1 = n) := by omega
      simp [strandAt, fixed, Tracking.get, List.zipIdx, e1, e2] at h

/-- Two Eager trackers that rise together: the first one is left with a strand that ends before it
starts. -/
theorem eager_backward : ∃ (arcs : List Strand) (configs m' : IMap Nat Cfg) (s : Strand),
    configs = [(0, auto .eager), (1, auto .eager)] ∧
    generateSchedule false (oneArc arcs) [(0, ()), (1, ())] configs = .ok m' ∧
    strandAt m' (0, 0) = some s ∧ s.stop < s.start := by
  refine ⟨[⟨0, 100⟩, ⟨0, 20⟩], _, fixed [⟨0, -1⟩, ⟨0, 20⟩], ⟨0, -1⟩, rfl, ?_, rfl, by decide⟩
  rw [schedule_eq _ _ _ (fixed [⟨0, 100⟩, ⟨0, 20⟩]) (by decide) (by decide)]
  congr 1

/-- The configurations that belong to no device take part in the handoff: the strand of the only
device is cut to make place for a tracker that is not simulated. -/
theorem handoff_to_nobody : ∃ (arcs : List Strand) (configs m' : IMap Nat Cfg) (s : Strand),
    get configs 1 = some ⟨none, 1, some [⟨10, 20⟩]⟩ ∧
    generateSchedule false (oneArc arcs) [(0, ())] configs = .ok m' ∧
    arcs = [⟨0, 100⟩] ∧ strandAt m' (0, 0) = some s ∧ s.stop = 9 := by
  refine ⟨[⟨0, 100⟩], [(0, auto .eager), (1, ⟨none, 1, some [⟨10, 20⟩]⟩)], fixed [⟨0, 9⟩, ⟨10, 20⟩],
    ⟨0, 9⟩, rfl, ?_, rfl, rfl, rfl⟩
  rw [schedule_eq _ _ _ (fixed [⟨0, 100⟩, ⟨10, 20⟩]) (by decide) (by decide)]
  congr 1

/-- The strands that the user gave to a tracker without a scheduler are changed when a Greedy tracker
is still tracking at their start. -/
theorem explicit_strand_changed : ∃ (arcs : List Strand) (configs m' : IMap Nat Cfg) (s : Strand),
    get configs 1 = some ⟨none, 1, some [⟨10, 200⟩]⟩ ∧
    generateSchedule false (oneArc arcs) [(0, ()), (1, ())] configs = .ok m' ∧
    strandAt m' (1, 0) = some s ∧ s = ⟨101, 200⟩ := by
  refine ⟨[⟨0, 100⟩], [(0, auto .greedy), (1, ⟨none, 1, some [⟨10, 200⟩]⟩)],
    fixed [⟨0, 100⟩, ⟨101, 200⟩], ⟨101, 200⟩, rfl, ?_, rfl, rfl⟩
  rw [schedule_eq _ _ _ (fixed [⟨0, 100⟩, ⟨10, 200⟩]) (by decide) (by decide)]
  congr 1

/-- With overflow checks, the schedule panics whenever the vehicle is never visible from any of the
trackers (and no strand was given). -/
theorem never_visible_panics {D : Type} (vis : N → Int → Option (List Strand)) (devices : IMap N D)
    (configs : IMap N Cfg) (hd : (devices.map Prod.fst).Nodup) (hk : (configs.map Prod.fst).Nodup)
    (hv : ∀ n d, vis n d = some []) (hs : ∀ n c, get configs n = some c → c.strands = none) :
    generateSchedule true vis devices configs = .panic := by
  have hb : ∀ (ds : List N) (m : IMap N Cfg), ∃ m', buildAll vis configs ds m = some m' := by
    intro ds
    induction ds with
    | nil => exact fun m => ⟨m, rfl⟩
    | cons x ds ih =>
      intro m
      unfold buildAll
      cases get configs x with
      | none => exact ih m
      | some c =>
        simp only
        cases c.scheduler with
        | none => exact ih m
        | some s => simp only [hv]; exact ih _
  obtain ⟨m, hm⟩ := hb (devices.map Prod.fst) configs
  obtain ⟨b1, -, b3, b4, b5⟩ := buildAll_get vis configs _ hd configs m hm (fun _ _ => rfl)
  have hk' : (m.map Prod.fst).Nodup := by rw [b1]; exact hk
  have he : snapshot m = [] := by
    rw [List.eq_nil_iff_forall_not_mem]
    intro e he
    rw [mem_snapshot m hk'] at he
    unfold strandAt at he
    simp only [Entry.key] at he
    cases hg : get m e.name with
    | none => rw [hg] at he; cases he
    | some c' =>
      have hmem : e.name ∈ configs.map Prod.fst := by
        rw [← b1]; exact List.mem_map.2 ⟨_, Tracking.get_mem m _ _ hg, rfl⟩
      obtain ⟨c, hc⟩ := Option.isSome_iff_exists.1 ((Tracking.get_isSome_iff configs e.name).2 hmem)
      have : c'.strands = none ∨ c'.strands = some [] := by
        by_cases hin : e.name ∈ devices.map Prod.fst
        · cases hsch : c.scheduler with
          | none =>
            rw [b5 _ c hin hc hsch] at hg
            cases hg
            exact .inl (hs _ _ hc)
          | some s =>
            obtain ⟨arcs, h1, h2⟩ := b4 _ c s hin hc hsch
            rw [hv] at h1
            cases h1
            rw [h2] at hg
            cases hg
            exact .inr rfl
        · rw [b3 _ hin, hc] at hg
          cases hg
          exact .inl (hs _ _ hc)
      rw [hg] at he
      rcases this with h | h <;> simp [h] at he
  simp [generateSchedule, hm, he]

/-! ### Examples -/

/-- Two trackers, Eager then Greedy, that overlap; the hypotheses of `handoff_partial` hold. -/
theorem two_trackers : generateSchedule true (oneArc [⟨0, 100⟩, ⟨50, 150⟩]) [(0, ()), (1, ())]
    [(0, auto .eager), (1, auto .greedy)] = .ok (fixed [⟨0, 49⟩, ⟨50, 150⟩]) := by
  have hb : buildAll (oneArc [⟨0, 100⟩, ⟨50, 150⟩]) [(0, auto .eager), (1, auto .greedy)] [0, 1]
      [(0, auto .eager), (1, auto .greedy)] = some (fixed [⟨0, 100⟩, ⟨50, 150⟩]) := by decide
  have hs : snapshot (fixed [⟨0, 100⟩, ⟨50, 150⟩]) = [⟨0, 0, ⟨0, 100⟩⟩, ⟨1, 0, ⟨50, 150⟩⟩] :=
    sortBy_of_sorted (fun e : Entry Nat => e.strand.start)
      (l := ([⟨0, 0, ⟨0, 100⟩⟩, ⟨1, 0, ⟨50, 150⟩⟩] : List (Entry Nat))) (by decide)
  simp only [generateSchedule, List.map_cons, List.map_nil, hb, hs]
  congr 1

theorem auto_pos (h h' : Handoff) (n : Nat) (c : Cfg)
    (hc : get [(0, auto h), (1, auto h')] n = some c) : 0 < c.sampling := by
  simp only [Tracking.get] at hc
  split at hc
  · cases hc; exact Int.one_pos
  · split at hc
    · cases hc; exact Int.one_pos
    · cases hc

example := schedule_partial true (oneArc [⟨0, 100⟩, ⟨50, 150⟩]) [(0, ()), (1, ())]
  [(0, auto .eager), (1, auto .greedy)] _ (by decide) (by decide) (auto_pos .eager .greedy) two_trackers 1 (by decide)
  (auto .greedy) rfl _ rfl (fun d h => by cases h)

example : ∀ e, ¬ ((⟨0, 49⟩ : Strand).contains e ∧ (⟨50, 150⟩ : Strand).contains e) := by
  refine handoff_partial true (oneArc [⟨0, 100⟩, ⟨50, 150⟩]) [(0, ()), (1, ())]
    [(0, auto .eager), (1, auto .greedy)] _ (by decide) (by decide) (auto_pos .eager .greedy) two_trackers
    (.inr ?_) 0 1 0 0 (by decide) _ _ rfl rfl
  intro n i s h
  have h1 : n = 0 ∨ n = 1 ∨ 2 ≤ n := by omega
  have h2 : i = 0 ∨ 1 ≤ i := by omega
  rcases h1 with rfl | rfl | h1
  · rcases h2 with rfl | h2
    · cases h
      exact ⟨⟨_, _, rfl, rfl, .inl rfl⟩, by decide⟩
    · obtain ⟨i, rfl⟩ := Nat.exists_eq_add_of_le' h2
      cases h
  · rcases h2 with rfl | h2
    · cases h
      exact ⟨⟨_, _, rfl, rfl, .inr rfl⟩, by decide⟩
    · obtain ⟨i, rfl⟩ := Nat.exists_eq_add_of_le' h2
      cases h
  · have e1 : ¬ (0 = n) := by omega
    have e2 : ¬ (1 = n) := by omega
    simp [strandAt, fixed, Tracking.get, List.zipIdx, e1, e2] at h

example := never_visible_panics (fun _ _ => some []) [(0, ()), (1, ())]
  [(0, auto .eager), (1, auto .greedy)] (by decide) (by decide) (fun _ _ => rfl) (fun n c hc => by
    simp only [Tracking.get] at hc
    split at hc
    · cases hc; rfl
    · split at hc
      · cases hc; rfl
      · cases hc)

end Verif.Sched
