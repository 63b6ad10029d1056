import Verif.Tracking.Downsample
import Verif.Tracking.Tdm
/-!
Every theorem on tracking data arcs applied to a concrete arc: the hypotheses are met by data with
several trackers, several measurements at one epoch, several types and rejected measurements.
-/
namespace Verif.Tracking

/-- A sorting function. -/
def exSrt {K : Type} (l : List (Msr Nat K)) : List (Msr Nat K) := l.mergeSort (fun a b =>
  decide (a.epoch < b.epoch) || (decide (a.epoch = b.epoch) && decide (a.tracker ≤ b.tracker)))

theorem exSrt_sorts {K : Type} [DecidableEq K] : Sorts (exSrt (K := K)) := sorts_mergeSort

/-- Two trackers, an unsorted arc, two measurements of tracker 1 at epoch 5, one of them rejected. -/
def exRaw : List (Msr Nat Nat) :=
  [⟨1, 5, [(0, 3), (1, 4)], false⟩, ⟨2, 0, [(0, 9)], false⟩, ⟨1, 5, [(1, 7)], true⟩]

theorem exRaw_wf : WF exRaw := by
  intro m hm
  simp only [exRaw, List.mem_cons, List.not_mem_nil, or_false] at hm
  rcases hm with rfl | rfl | rfl <;> decide

example := sort_conserves exSrt exSrt_sorts exRaw exRaw_wf

/-- A sorted arc of one tracker, every ten nanoseconds. -/
def exOne : Arc Nat Nat :=
  ⟨[⟨0, 0, [(0, 1)], false⟩, ⟨0, 10, [(0, 2)], false⟩, ⟨0, 20, [(0, 3)], false⟩,
    ⟨0, 30, [(0, 4), (1, 2)], false⟩], none, false⟩

/-- A sorted arc of two trackers. -/
def exTwo : Arc Nat Nat :=
  ⟨[⟨1, 0, [(0, 1)], false⟩, ⟨2, 0, [(1, 2)], true⟩, ⟨1, 25, [(0, 5), (1, 3)], false⟩],
    some [(0, 4)], true⟩

theorem exOne_strict : exOne.measurements.Pairwise ltKey := by simp [exOne, ltKey]
theorem exTwo_strict : exTwo.measurements.Pairwise ltKey := by simp [exTwo, ltKey]
theorem exOne_sorted : Sorted exOne.measurements := by simp [exOne, Sorted]
theorem exTwo_sorted : Sorted exTwo.measurements := by simp [exTwo, Sorted]

example : sort exSrt exOne.measurements = exOne.measurements :=
  sort_idempotent exSrt exSrt_sorts _ exOne_strict

/-! Adding arcs -/

def exA : Arc Nat Nat := ⟨[⟨0, 0, [(0, 1)], false⟩], none, false⟩
def exB : Arc Nat Nat := ⟨[⟨0, 0, [(1, 2)], false⟩, ⟨1, 3, [(0, 2)], true⟩], none, false⟩
def exC : Arc Nat Nat := ⟨[⟨0, 0, [(0, 1)], true⟩], none, false⟩

theorem exABC_wf : WF (exA.measurements ++ exB.measurements ++ exC.measurements) := by
  intro m hm
  simp only [exA, exB, exC, List.cons_append, List.nil_append, List.mem_cons, List.not_mem_nil,
    or_false] at hm
  rcases hm with rfl | rfl | rfl | rfl <;> decide

theorem exABC_noConflict : NoConflict (exA.measurements ++ exB.measurements ++ exC.measurements) := by
  rintro e t ty v v' ⟨m, hm, h1, h2, h3⟩ ⟨m', hm', h1', h2', h3'⟩
  simp only [exA, exB, exC, List.cons_append, List.nil_append, List.mem_cons, List.not_mem_nil,
    or_false] at hm hm'
  rcases hm with rfl | rfl | rfl | rfl <;> rcases hm' with rfl | rfl | rfl | rfl <;>
    simp only at h1 h2 h1' h2' <;> (try omega) <;>
    simp only [get] at h3 h3' <;> split at h3 <;> split at h3' <;> (try simp_all) <;> omega

theorem exAB_wf : WF (exA.measurements ++ exB.measurements) := fun m hm =>
  exABC_wf m (List.mem_append_left _ hm)

theorem exAB_noConflict : NoConflict (exA.measurements ++ exB.measurements) := by
  rintro e t ty v v' ⟨m, hm, h⟩ ⟨m', hm', h'⟩
  exact exABC_noConflict e t ty v v' ⟨m, List.mem_append_left _ hm, h⟩
    ⟨m', List.mem_append_left _ hm', h'⟩

example := add_comm_partial exSrt exSrt_sorts exA exB exAB_wf exAB_noConflict
example := add_assoc_partial exSrt exSrt_sorts exA exB exC exABC_wf exABC_noConflict
example := add_empty exSrt exSrt_sorts exTwo ⟨[], none, false⟩ exTwo_strict rfl

/-! Chunks and filters -/

example := chunk_partitions exTwo 10 (by decide) (by decide) exTwo_sorted
example : exTwo.chunk 0 7 = some [] := chunk_none exTwo 0 7 (Or.inr (by decide))
example := epoch_filters_exact exTwo.measurements exTwo_sorted (.included 0) (.excluded 25)
example := filter_by_offset_partial exTwo.measurements exTwo_sorted (.included 0) 25
  (by intro e h; cases h) ⟨1, 0, [(0, 1)], false⟩ rfl
example := tracker_filters_exact exTwo.measurements 1
example := type_filters_partial exTwo.measurements 1

/-! Down sampling -/

example := downsample_single_tracker_partial exSrt exSrt_sorts 65535 exOne 0 20 10 (by decide)
  (by decide) (by decide) (by decide) (by decide) rfl
example : exOne.downsample exSrt 65535 5 = exOne := downsample_noop exSrt 65535 exOne 5
  (by
    intro c hc
    rw [show minSep exOne.measurements = some 10 by decide] at hc
    cases hc
    decide)

/-! Equality, moduli -/

example : (⟨1, 5, [(0, 3), (1, 4)], false⟩ : Msr Nat Nat).beq ⟨1, 5, [(1, 4), (0, 2)], true⟩ =
    (⟨1, 5, [(1, 4), (0, 2)], true⟩ : Msr Nat Nat).beq ⟨1, 5, [(0, 3), (1, 4)], false⟩ :=
  msr_eq_symm_partial _ _ (by decide) (by decide) (by intro ty; simp [or_comm])

example := apply_moduli_spec exTwo [(0, 4)] rfl (by decide) (by simp)
example := set_moduli_wf exTwo 1 (-6) (by
  intro ms h
  cases h
  exact ⟨by decide, by simp⟩)

/-! CCSDS TDM -/

def exTdm : Arc Nat MType :=
  ⟨[⟨1, 0, [(.range, 5), (.doppler, 1)], false⟩, ⟨2, 0, [(.azimuth, 7)], false⟩,
    ⟨1, 60, [(.range, 6), (.elevation, 30)], false⟩], some [(.range, 7)], false⟩

example := tdm_roundtrip_partial exSrt exSrt_sorts 299792 0 (fun x => x) 0 (by simp) id id
  (fun _ => rfl) exTdm (by decide)
  (by
    intro m hm
    simp only [exTdm, List.mem_cons, List.not_mem_nil, or_false] at hm
    rcases hm with rfl | rfl | rfl <;> decide)
  (by simp [exTdm, ltKey]) (by decide) (by decide) (by decide)

example : ∃ lines r, toTdm (fun x => x) id exTdm = some lines ∧
    fromTdm exSrt 299792 0 none id lines = some r ∧ ∀ m ∈ r.measurements, m.rejected = false := by
  obtain ⟨lines, r, h1, h2, -⟩ := tdm_roundtrip_partial exSrt exSrt_sorts 299792 0 (fun x => x) 0
    (by simp) id id (fun _ => rfl) exTdm (by decide)
    (by
      intro m hm
      simp only [exTdm, List.mem_cons, List.not_mem_nil, or_false] at hm
      rcases hm with rfl | rfl | rfl <;> decide)
    (by simp [exTdm, ltKey]) (by decide) (by decide) (by decide)
  exact ⟨lines, r, h1, h2, tdm_never_rejected exSrt exSrt_sorts 299792 0 none id lines r h2⟩

/-- A transmitter at a constant 2 Hz, a receiver at half of it: with a turn around ratio of one and
a speed of light of 4 the range rate is 1. -/
example := freq_to_doppler_partial (T := Nat) 4 1 (by decide) (by decide) (fun _ => 2) (fun _ => 1)
  ⟨1, 0, [(.transmitFreq, 2), (.receiveFreq, 1)], false⟩ [⟨1, 5, [(.receiveFreq, 1)], false⟩] 2
  (by simp [get]) (by simp [RampFrom, get, secs]) (by simp)
  (by
    intro m hm rx h
    simp only [List.mem_cons, List.not_mem_nil, or_false] at hm
    rcases hm with rfl | rfl <;> simp [get] at h <;> subst h <;> norm_num)

end Verif.Tracking
