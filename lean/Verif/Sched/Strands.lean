import Mathlib.Data.List.Chain
import Verif.Sched.Model
/-!
C45: the strands built for one tracker from its visibility arcs.
-/
namespace Verif.Sched
open Verif.Util

/-! ### Rounding -/

/-- The rounded epoch is a multiple of the step and no multiple is nearer. -/
theorem roundTo_spec (t d : Int) (hd : 0 < d) :
    d ∣ roundTo t d ∧ 2 * (roundTo t d - t) ≤ d ∧ 2 * (t - roundTo t d) < d := by
  have h1 := Int.emod_nonneg t (Int.ne_of_gt hd)
  have h2 := Int.emod_lt_of_pos t hd
  have h3 : d ∣ t - t % d := Int.dvd_self_sub_emod
  unfold roundTo floorTo
  split
  · exact ⟨h3, by omega, by omega⟩
  · exact ⟨Int.dvd_add h3 (Int.dvd_refl d), by omega, by omega⟩

/-- How far an aligned epoch may be from the one it was rounded from: half of the alignment. -/
def slack : Option Int → Int
  | some d => d
  | none => 0

/-- An alignment that the configuration may hold: absent or positive. -/
def AlignOk (a : Option Int) : Prop := ∀ d, a = some d → 0 < d

theorem align_near (a : Option Int) (ha : AlignOk a) (s : Strand) :
    2 * ((align a s).start - s.start) ≤ slack a ∧ 2 * (s.start - (align a s).start) ≤ slack a ∧
    2 * ((align a s).stop - s.stop) ≤ slack a ∧ 2 * (s.stop - (align a s).stop) ≤ slack a := by
  cases a with
  | none => simp [align, slack]
  | some d =>
    have hd := ha d rfl
    have h1 := roundTo_spec s.start d hd
    have h2 := roundTo_spec s.stop d hd
    simp only [align, slack]
    omega

/-! ### Continuous tracking -/

/-- An arc is long enough for the requested number of samples. -/
def LongEnough (s : Scheduler) (sampling : Int) (arc : Strand) : Prop :=
  sampling * s.minSamples ≤ arc.stop - arc.start

instance (s : Scheduler) (sampling : Int) (arc : Strand) : Decidable (LongEnough s sampling arc) := by
  unfold LongEnough; infer_instance

theorem foldl_offer_continuous (s : Scheduler) (hc : s.cadence = .continuous) (sampling : Int)
    (arcs built : List Strand) :
    arcs.foldl (offer s sampling) built =
      built ++ (arcs.filter fun a => decide (LongEnough s sampling a)).map (align s.alignment) := by
  induction arcs generalizing built with
  | nil => simp
  | cons a l ih =>
    rw [List.foldl_cons, ih]
    by_cases h : a.stop - a.start < sampling * s.minSamples
    · have : ¬ LongEnough s sampling a := by unfold LongEnough; omega
      simp [offer, h, this]
    · have : LongEnough s sampling a := by unfold LongEnough; omega
      simp [offer, h, this, hc]

/-- C45, continuous tracking. The schedule of a tracker is exactly its visibility arcs that are long
enough, in order, each with its ends rounded to the alignment. Each strand is aligned, differs from
its arc by at most half of the alignment at each end, and lasts at least the minimum number of
samples less one alignment. -/
theorem continuous_strands_partial (s : Scheduler) (hc : s.cadence = .continuous) (sampling : Int)
    (ha : AlignOk s.alignment) (arcs : List Strand) :
    strandsOf s sampling arcs =
      (arcs.filter fun a => decide (LongEnough s sampling a)).map (align s.alignment) ∧
    ∀ st ∈ strandsOf s sampling arcs, ∃ a ∈ arcs, LongEnough s sampling a ∧
      (s.alignment = none → st = a) ∧
      (∀ d, s.alignment = some d → d ∣ st.start ∧ d ∣ st.stop) ∧
      2 * |st.start - a.start| ≤ slack s.alignment ∧ 2 * |st.stop - a.stop| ≤ slack s.alignment ∧
      sampling * s.minSamples - slack s.alignment ≤ st.duration := by
  have he : strandsOf s sampling arcs =
      (arcs.filter fun a => decide (LongEnough s sampling a)).map (align s.alignment) := by
    rw [strandsOf, foldl_offer_continuous s hc]; simp
  refine ⟨he, fun st hst => ?_⟩
  rw [he, List.mem_map] at hst
  obtain ⟨a, h1, rfl⟩ := hst
  rw [List.mem_filter, decide_eq_true_eq] at h1
  have hn := align_near s.alignment ha a
  have hl := h1.2
  unfold LongEnough at hl
  refine ⟨a, h1.1, h1.2, fun h => by rw [h]; rfl, fun d hd => ?_, ?_, ?_, ?_⟩
  · rw [hd]
    exact ⟨(roundTo_spec _ _ (ha d hd)).1, (roundTo_spec _ _ (ha d hd)).1⟩
  · rcases abs_cases ((align s.alignment a).start - a.start) with h | h <;> omega
  · rcases abs_cases ((align s.alignment a).stop - a.stop) with h | h <;> omega
  · unfold Strand.duration; omega

/-! ### Any cadence -/

/-- How a strand relates to the arc it was built from: it starts no earlier than the arc and ends no
later, up to half of the alignment. -/
def Within (slk : Int) (st arc : Strand) : Prop :=
  2 * (arc.start - st.start) ≤ slk ∧ 2 * (st.stop - arc.stop) ≤ slk

/-- What the cadence promises of the list of strands: none lasts longer than `on`, and each one
starts at least `off` after the end of the previous one. -/
def Cadenced (on off : Int) (l : List Strand) : Prop :=
  (∀ st ∈ l, st.duration ≤ on) ∧ l.IsChain (fun p q => p.stop + off ≤ q.start)

theorem capped_spec (on : Int) (r : Strand) : (capped on r).start = r.start ∧
    (capped on r).stop ≤ r.stop ∧ (capped on r).duration ≤ on := by
  unfold capped Strand.duration
  split
  · exact ⟨rfl, by simp only; omega, by simp only; omega⟩
  · exact ⟨rfl, by omega, by omega⟩

theorem isChain_snoc {α : Type} (R : α → α → Prop) (l : List α) (x : α) (h : l.IsChain R)
    (hx : ∀ p, l.getLast? = some p → R p x) : (l ++ [x]).IsChain R := by
  rw [List.isChain_append]
  refine ⟨h, by simp, ?_⟩
  intro p hp y hy
  simp at hy
  exact hy ▸ hx p hp

theorem offer_spec (s : Scheduler) (sampling : Int) (ha : AlignOk s.alignment)
    (built : List Strand) (arc : Strand) :
    offer s sampling built arc = built ∨ ∃ st, offer s sampling built arc = built ++ [st] ∧
      Within (slack s.alignment) st arc ∧ LongEnough s sampling arc ∧
      ∀ on off, s.cadence = .intermittent on off →
        st.duration ≤ on ∧ ∀ p, built.getLast? = some p → p.stop + off ≤ st.start := by
  have hn := align_near s.alignment ha arc
  unfold offer
  split
  · exact .inl rfl
  · rename_i hl
    have hl' : LongEnough s sampling arc := by unfold LongEnough; omega
    cases hc : s.cadence with
    | continuous =>
      exact .inr ⟨_, rfl, ⟨hn.2.1, hn.2.2.1⟩, hl', fun on off h => by cases h⟩
    | intermittent on off =>
      simp only
      have hk := capped_spec on (align s.alignment arc)
      cases hp : pushed built.getLast? off (align s.alignment arc) with
      | none =>
        refine .inr ⟨_, rfl, ⟨by omega, by omega⟩, hl', ?_⟩
        intro on' off' h
        cases h
        refine ⟨hk.2.2, fun p hlast => ?_⟩
        rw [hlast, pushed] at hp
        split at hp
        · cases hp
        · omega
      | some r =>
        simp only
        split
        · exact .inl rfl
        · have hk' := capped_spec on r
          unfold pushed at hp
          split at hp
          · rename_i p hlast
            split at hp
            · cases hp
              refine .inr ⟨_, rfl, ⟨?_, ?_⟩, hl', ?_⟩
              · rw [hk'.1]; simp only; omega
              · have := hk'.2.1; simp only at this; omega
              · intro on' off' h
                cases h
                refine ⟨hk'.2.2, fun p' hp' => ?_⟩
                rw [hlast] at hp'
                cases hp'
                rw [hk'.1]
            · cases hp
          · cases hp

theorem foldl_offer_spec (s : Scheduler) (sampling : Int) (ha : AlignOk s.alignment)
    (arcs built : List Strand) :
    (∀ st ∈ arcs.foldl (offer s sampling) built, st ∈ built ∨ ∃ a ∈ arcs,
      LongEnough s sampling a ∧ Within (slack s.alignment) st a) ∧
    (∀ on off, s.cadence = .intermittent on off → Cadenced on off built →
      Cadenced on off (arcs.foldl (offer s sampling) built)) := by
  induction arcs generalizing built with
  | nil => exact ⟨fun st h => .inl h, fun _ _ _ h => h⟩
  | cons a l ih =>
    rw [List.foldl_cons]
    obtain ⟨h1, h2⟩ := ih (offer s sampling built a)
    rcases offer_spec s sampling ha built a with h | ⟨st, h, hw, hl, hc⟩
    · rw [h] at h1 h2 ⊢
      refine ⟨fun x hx => ?_, h2⟩
      rcases h1 x hx with h | ⟨b, hb, h⟩
      · exact .inl h
      · exact .inr ⟨b, List.mem_cons_of_mem _ hb, h⟩
    · rw [h] at h1 h2 ⊢
      refine ⟨fun x hx => ?_, fun on off he hb => h2 on off he ?_⟩
      · rcases h1 x hx with h | ⟨b, hb, h⟩
        · rcases List.mem_append.1 h with h | h
          · exact .inl h
          · rw [List.mem_singleton] at h
            exact .inr ⟨a, by simp, hl, h ▸ hw⟩
        · exact .inr ⟨b, List.mem_cons_of_mem _ hb, h⟩
      · obtain ⟨g1, g2⟩ := hc on off he
        refine ⟨fun x hx => ?_, isChain_snoc _ _ _ hb.2 g2⟩
        rcases List.mem_append.1 hx with h | h
        · exact hb.1 x h
        · rw [List.mem_singleton] at h
          exact h ▸ g1

/-- C45, any cadence. Every strand comes from a visibility arc that lasts long enough for the
minimum number of samples, and is inside of it up to half of the alignment. With an intermittent
cadence, no strand lasts longer than the on time and each one starts at least the off time after the
end of the previous one. -/
theorem strands_within_partial (s : Scheduler) (sampling : Int) (ha : AlignOk s.alignment)
    (arcs : List Strand) :
    (∀ st ∈ strandsOf s sampling arcs, ∃ a ∈ arcs,
      sampling * s.minSamples ≤ a.stop - a.start ∧
      2 * (a.start - st.start) ≤ slack s.alignment ∧ 2 * (st.stop - a.stop) ≤ slack s.alignment) ∧
    (∀ on off, s.cadence = .intermittent on off → Cadenced on off (strandsOf s sampling arcs)) := by
  obtain ⟨h1, h2⟩ := foldl_offer_spec s sampling ha arcs []
  refine ⟨fun st hst => ?_, fun on off h => h2 on off h ⟨by simp, by simp⟩⟩
  rcases h1 st hst with h | ⟨a, ha, hl, hw⟩
  · simp at h
  · exact ⟨a, ha, hl, hw.1, hw.2⟩

/-! ### What fails -/

/-- C45 is false: with an alignment, a strand starts before the vehicle rises. -/
theorem strand_outside_arc : ∃ (s : Scheduler) (sampling : Int) (arcs : List Strand),
    AlignOk s.alignment ∧ 0 < sampling ∧
    ∃ st ∈ strandsOf s sampling arcs, ∀ a ∈ arcs, ¬ a.contains st.start := by
  refine ⟨⟨.eager, .continuous, 1, some 60⟩, 10, [⟨25, 205⟩], ?_, by decide, ⟨0, 180⟩, ?_, ?_⟩
  · intro d h; cases h; decide
  · decide
  · simp [Strand.contains]

/-- C45 is false: with an intermittent cadence, a strand may be left with fewer samples than the
minimum although its arc had enough of them, and it is not aligned. -/
theorem strand_too_short : ∃ (s : Scheduler) (sampling : Int) (arcs : List Strand) (d : Int),
    s.alignment = some d ∧ 0 < d ∧ 0 < sampling ∧
    ∃ st ∈ strandsOf s sampling arcs, st.duration < sampling * s.minSamples ∧ ¬ d ∣ st.start := by
  refine ⟨⟨.eager, .intermittent 100 35, 5, some 10⟩, 10, [⟨0, 100⟩, ⟨110, 160⟩], 10, rfl, by decide,
    by decide, ⟨135, 160⟩, by decide, by decide, by decide⟩

/-- C45 is false: the test that the off time leaves some of the opportunity uses the end of the arc
before it is aligned, so that a strand may end before it starts. -/
theorem strand_backward : ∃ (s : Scheduler) (sampling : Int) (arcs : List Strand),
    AlignOk s.alignment ∧ 0 < sampling ∧ ∃ st ∈ strandsOf s sampling arcs, st.stop < st.start := by
  refine ⟨⟨.eager, .intermittent 600 65, 1, some 60⟩, 10, [⟨0, 600⟩, ⟨610, 680⟩], ?_, by decide,
    ⟨665, 660⟩, by decide, by decide⟩
  intro d h; cases h; decide

example := strands_within_partial ⟨.eager, .intermittent 100 35, 5, some 10⟩ 10
  (fun d h => by cases h; decide) [⟨0, 100⟩, ⟨110, 160⟩]

/-- Two arcs of a continuous schedule, one of which is too short. -/
example : strandsOf ⟨.greedy, .continuous, 10, some 60⟩ 10 [⟨25, 205⟩, ⟨300, 390⟩, ⟨1000, 1301⟩] =
    [⟨0, 180⟩, ⟨1020, 1320⟩] := by decide

example := continuous_strands_partial ⟨.greedy, .continuous, 10, some 60⟩ rfl 10
  (fun d h => by cases h; decide) [⟨25, 205⟩, ⟨300, 390⟩, ⟨1000, 1301⟩]

end Verif.Sched
