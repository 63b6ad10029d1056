import Verif.Tracking.Examples
/-!
Arcs made and cut in Python: nyx-core/src/od/msr/trackingdata/python.rs.
-/
namespace Verif.Cut
open Verif.Tracking

variable {T K : Type} [LinearOrder T] [DecidableEq K]

/-- `TrackingDataArc(measurements)` in Python. `srt` is the unstable sort. trackingdata/python.rs:30-41. -/
def pyNew (srt : List (Msr T K) → List (Msr T K)) (ms : List (Msr T K)) : Arc T K := ⟨sort srt ms, none, false⟩

/-- The start of a range in Python. trackingdata/python.rs:108, 115-118, 143-146. -/
def pyStart : Option Int → Bound
  | some s => .included s
  | none => .unbounded

/-- The end of a range in Python. trackingdata/python.rs:109, 119-122, 147-150. -/
def pyEnd : Option Int → Bound
  | some e => .excluded e
  | none => .unbounded

/-- `filter_by_epoch` in Python. trackingdata/python.rs:107-111. -/
def pyFilterByEpoch (a : Arc T K) (start stop : Option Int) : Arc T K :=
  { a with measurements := filterByEpoch a.measurements (pyStart start) (pyEnd stop) }

/-- `filter_by_offset` in Python. trackingdata/python.rs:114-124. -/
def pyFilterByOffset (a : Arc T K) (start stop : Option Int) : Arc T K :=
  { a with measurements := filterByOffset a.measurements (pyStart start) (pyEnd stop) }

/-- `exclude_by_epoch` in Python. trackingdata/python.rs:142-152. -/
def pyExcludeByEpoch (a : Arc T K) (start stop : Option Int) : Arc T K :=
  { a with measurements := excludeByEpoch a.measurements (pyStart start) (pyEnd stop) }

/-! ### Cutting a list -/

theorem filter_split (l : List (Msr T K)) (hs : Sorted l) (p q : Int → Bool) (e : Int) (hp : ∀ x, p x = true → x < e)
    (hq : ∀ x, q x = true → e ≤ x) :
    (l.filter fun m => p m.epoch) ++ (l.filter fun m => q m.epoch) = l.filter fun m => p m.epoch || q m.epoch := by
  induction l with
  | nil => rfl
  | cons a l ih =>
    have hs' := List.pairwise_cons.1 hs
    rw [List.filter_cons, List.filter_cons, List.filter_cons]
    by_cases h1 : p a.epoch = true
    · have h2 : q a.epoch = false := by
        by_contra h
        have := hq _ (Bool.eq_true_of_not_eq_false h)
        have := hp _ h1
        omega
      simp only [h1, h2, if_true, Bool.true_or, List.cons_append, Bool.false_eq_true, if_false]
      rw [ih hs'.2]
    · rw [Bool.not_eq_true] at h1
      by_cases h2 : q a.epoch = true
      · have h3 : (l.filter fun m => p m.epoch) = [] := by
          rw [List.filter_eq_nil_iff]
          intro m hm hpm
          have := hq _ h2
          have := hp _ hpm
          have := hs'.1 m hm
          omega
        have := ih hs'.2
        rw [h3, List.nil_append] at this
        simp only [h1, h2, Bool.false_or, if_true, Bool.false_eq_true, if_false, h3, List.nil_append]
        rw [this]
      · rw [Bool.not_eq_true] at h2
        simp only [h1, h2, Bool.or_self, Bool.false_eq_true, if_false]
        exact ih hs'.2

theorem strict_sorted {l : List (Msr T K)} (h : l.Pairwise ltKey) : Sorted l :=
  h.imp fun hab => by
    rcases hab with h | ⟨h, -⟩
    · exact le_of_lt h
    · exact le_of_eq h

theorem py_new_strict (srt : List (Msr T K) → List (Msr T K)) (hsrt : Sorts srt) (ms : List (Msr T K)) :
    (pyNew srt ms).measurements.Pairwise ltKey := coalesce_strict _ (hsrt.sorted ms)

/-- **C260, in part.** An arc cut in Python at any epoch: the two parts, in order, are the arc, and their sum is the arc (with the forced
rejection turned off, as any sum). Missing: cuts at an offset, see `cut_offset_loses`. -/
theorem cut_epoch_partial (srt : List (Msr T K) → List (Msr T K)) (hsrt : Sorts srt) (a : Arc T K)
    (ha : a.measurements.Pairwise ltKey) (e : Int) :
    (pyFilterByEpoch a none (some e)).measurements ++ (pyFilterByEpoch a (some e) none).measurements = a.measurements ∧
    (∀ m ∈ (pyFilterByEpoch a none (some e)).measurements, m.epoch < e) ∧
    (∀ m ∈ (pyFilterByEpoch a (some e) none).measurements, e ≤ m.epoch) ∧
    (pyFilterByEpoch a none (some e)).add srt (pyFilterByEpoch a (some e) none) = { a with forceReject := false } := by
  have hs := strict_sorted ha
  have key : (pyFilterByEpoch a none (some e)).measurements ++ (pyFilterByEpoch a (some e) none).measurements = a.measurements := by
    unfold pyFilterByEpoch
    simp only
    rw [filterByEpoch_eq _ hs, filterByEpoch_eq _ hs]
    have := filter_split a.measurements hs (fun x => upToHi (.excluded e) x && !beforeLo .unbounded x)
      (fun x => upToHi .unbounded x && !beforeLo (.included e) x) e
      (by intro x; simp [upToHi, beforeLo]) (by intro x; simp [upToHi, beforeLo])
    refine this.trans (List.filter_eq_self.2 fun m _ => ?_)
    simp only [upToHi, beforeLo, Bool.not_false, Bool.and_true, Bool.true_and, Bool.or_eq_true, decide_eq_true_eq, Bool.not_eq_true',
      decide_eq_false_iff_not]
    omega
  refine ⟨key, ?_, ?_, ?_⟩
  · intro m hm
    exact (((epoch_filters_exact a.measurements hs .unbounded (.excluded e)).1.2 m).1 hm).2.2.2.2 e rfl
  · intro m hm
    exact (((epoch_filters_exact a.measurements hs (.included e) .unbounded).1.2 m).1 hm).2.1 e rfl
  · unfold Arc.add
    rw [key, sort_idempotent srt hsrt _ ha]
    rfl

/-- **C260.** The claim is false for offsets: an arc cut in Python at any offset up to its duration loses the measurements at its last
epoch, and these only: the parts, in order, are the other measurements, and so is their sum. -/
theorem cut_offset_loses (srt : List (Msr T K) → List (Msr T K)) (hsrt : Sorts srt) (a : Arc T K)
    (ha : a.measurements.Pairwise ltKey) (f la : Msr T K) (hf : a.measurements.head? = some f)
    (hl : a.measurements.getLast? = some la) (d : Int) (hd : d ≤ la.epoch - f.epoch) :
    la ∈ a.measurements ∧
    (pyFilterByOffset a none (some d)).measurements ++ (pyFilterByOffset a (some d) none).measurements =
      a.measurements.filter (fun m => decide (m.epoch ≠ la.epoch)) ∧
    la ∉ ((pyFilterByOffset a none (some d)).add srt (pyFilterByOffset a (some d) none)).measurements := by
  have hs := strict_sorted ha
  have hmem : la ∈ a.measurements := List.mem_of_getLast? hl
  have hlast : ∀ m ∈ a.measurements, m.epoch ≤ la.epoch := by
    intro m hm
    obtain ⟨init, e⟩ := List.getLast?_eq_some_iff.1 hl
    rw [e] at hm hs
    rcases List.mem_append.1 hm with h | h
    · exact (List.pairwise_append.1 hs).2.2 m h la (by simp)
    · rw [List.mem_singleton.1 h]
  have hfirst : ∀ m ∈ a.measurements, f.epoch ≤ m.epoch := by
    intro m hm
    obtain ⟨tl, e⟩ := List.head?_eq_some_iff.1 hf
    rw [e] at hm hs
    rcases List.mem_cons.1 hm with h | h
    · rw [h]
    · exact (List.pairwise_cons.1 hs).1 m h
  have key : (pyFilterByOffset a none (some d)).measurements ++ (pyFilterByOffset a (some d) none).measurements =
      a.measurements.filter (fun m => decide (m.epoch ≠ la.epoch)) := by
    unfold pyFilterByOffset filterByOffset
    rw [hf, hl]
    simp only [pyStart, pyEnd]
    rw [filterByEpoch_eq _ hs, filterByEpoch_eq _ hs]
    have := filter_split a.measurements hs (fun x => upToHi (.excluded (f.epoch + d)) x && !beforeLo (.included f.epoch) x)
      (fun x => upToHi (.excluded la.epoch) x && !beforeLo (.included (f.epoch + d)) x) (f.epoch + d)
      (by intro x; simp [upToHi, beforeLo]; omega) (by intro x; simp [upToHi, beforeLo])
    refine this.trans (List.filter_congr fun m hm => ?_)
    have h1 := hfirst m hm
    have h2 := hlast m hm
    simp only [upToHi, beforeLo]
    rw [Bool.eq_iff_iff]
    simp only [Bool.or_eq_true, Bool.and_eq_true, decide_eq_true_eq, Bool.not_eq_true', decide_eq_false_iff_not]
    omega
  refine ⟨hmem, key, ?_⟩
  have hst : (a.measurements.filter (fun m => decide (m.epoch ≠ la.epoch))).Pairwise ltKey := ha.filter _
  have : ((pyFilterByOffset a none (some d)).add srt (pyFilterByOffset a (some d) none)).measurements =
      a.measurements.filter (fun m => decide (m.epoch ≠ la.epoch)) := by
    unfold Arc.add
    rw [key]
    exact sort_idempotent srt hsrt _ hst
  rw [this]
  simp

/-- **C260.** A range of epochs kept in Python, start included and end excluded, and the rest of the arc when it is excluded. -/
theorem exclude_and_filter (a : Arc T K)
    (ha : a.measurements.Pairwise ltKey) (start stop : Option Int) (m : Msr T K) :
    (m ∈ (pyFilterByEpoch a start stop).measurements ↔
      m ∈ a.measurements ∧ (∀ s, start = some s → s ≤ m.epoch) ∧ ∀ e, stop = some e → m.epoch < e) ∧
    (m ∈ (pyExcludeByEpoch a start stop).measurements ↔ m ∈ a.measurements ∧ m ∉ (pyFilterByEpoch a start stop).measurements) := by
  have hs := strict_sorted ha
  obtain ⟨⟨-, h1⟩, ⟨-, h2⟩, -⟩ := epoch_filters_exact a.measurements hs (pyStart start) (pyEnd stop)
  have hb : InBounds (pyStart start) (pyEnd stop) m.epoch ↔ (∀ s, start = some s → s ≤ m.epoch) ∧ ∀ e, stop = some e → m.epoch < e := by
    unfold InBounds
    cases start <;> cases stop <;> simp [pyStart, pyEnd]
  constructor
  · exact (h1 m).trans (and_congr_right fun _ => hb)
  · refine (h2 m).trans (and_congr_right fun hm => ?_)
    rw [show m ∈ (pyFilterByEpoch a start stop).measurements ↔ _ from h1 m]
    tauto

/-! ### The hypotheses can be met -/

example := cut_epoch_partial exSrt exSrt_sorts (pyNew exSrt exRaw) (py_new_strict _ exSrt_sorts _) 3
example := cut_epoch_partial exSrt exSrt_sorts exTwo exTwo_strict 25
example := cut_offset_loses exSrt exSrt_sorts exOne exOne_strict _ _ rfl rfl 15 (by decide)
example := exclude_and_filter exOne exOne_strict (some 5) none

end Verif.Cut
