import Verif.Tracking.Lemmas
import Mathlib.Tactic.Ring
import Mathlib.Tactic.Linarith
import Mathlib.Tactic.NormNum
import Mathlib.Tactic.FieldSimp
/-!
Property theorems about tracking arcs: C21 – C25, C27, C78, C79.
-/
namespace Verif.Tracking
set_option linter.unusedSectionVars false

variable {T K : Type} [LinearOrder T] [DecidableEq K]

/-! ## C21 -/

/-- **C21.** Sorting an arc, whatever order the unstable sort gives to equal keys: the result is
strictly increasing in (epoch, tracker); the same (epoch, tracker) pairs are present; every value
comes from the input for that epoch, tracker and type; no type is lost; a measurement is rejected
iff one of its sources was. -/
theorem sort_conserves (srt : List (Msr T K) → List (Msr T K)) (hsrt : Sorts srt)
    (l : List (Msr T K)) (hw : WF l) :
    (sort srt l).Pairwise ltKey ∧
    (∀ e t, HasKey (sort srt l) e t ↔ HasKey l e t) ∧
    (∀ e t ty v, Has (sort srt l) e t ty v → Has l e t ty v) ∧
    (∀ e t ty, (∃ v, Has l e t ty v) → ∃ v, Has (sort srt l) e t ty v) ∧
    (∀ e t, Rejected (sort srt l) e t ↔ Rejected l e t) := by
  have hm : ∀ m, m ∈ srt l ↔ m ∈ l := fun m => (hsrt.perm l).mem_iff
  have hw' : WF (srt l) := fun m h => hw m ((hm m).mp h)
  unfold sort
  refine ⟨coalesce_strict _ (hsrt.sorted l), ?_, ?_, ?_, ?_⟩
  · intro e t; rw [coalesce_key]; unfold HasKey; simp only [hm]
  · intro e t ty v h
    have := coalesce_has_sound _ hw' e t ty v h
    unfold Has at *; simpa only [hm] using this
  · intro e t ty h
    apply coalesce_has_complete _ hw'
    unfold Has at *; simpa only [hm] using h
  · intro e t; rw [coalesce_rejected]; unfold Rejected; simp only [hm]

/-- Sorting a strictly sorted arc changes nothing. -/
theorem sort_idempotent (srt : List (Msr T K) → List (Msr T K)) (hsrt : Sorts srt)
    (l : List (Msr T K)) (h : l.Pairwise ltKey) : sort srt l = l := by
  have hle : l.Pairwise leKey := h.imp (fun hab => by
    rcases hab with h | ⟨h1, h2⟩
    · exact Or.inl h
    · exact Or.inr ⟨h1, le_of_lt h2⟩)
  have : srt l = l := by
    refine List.Perm.eq_of_pairwise (le := leKey) ?_ (hsrt.sorted l) hle (hsrt.perm l)
    intro a b ha hb h1 h2
    have ha' : a ∈ l := (hsrt.perm l).mem_iff.mp ha
    have hk : a.epoch = b.epoch ∧ a.tracker = b.tracker := by
      rcases h1 with h1 | ⟨h1, h1'⟩ <;> rcases h2 with h2 | ⟨h2, h2'⟩
      · omega
      · omega
      · omega
      · exact ⟨h1, le_antisymm h1' h2'⟩
    exact strict_unique h ha' hb hk.1 hk.2
  unfold sort
  rw [this, coalesce_of_strict l h]

/-- A sort as promised exists: merge sort. -/
theorem sorts_mergeSort : Sorts (T := T) (K := K) (fun l => l.mergeSort (fun a b =>
    decide (a.epoch < b.epoch) || (decide (a.epoch = b.epoch) && decide (a.tracker ≤ b.tracker)))) where
  perm l := List.mergeSort_perm _ _
  sorted l := by
    refine (List.pairwise_mergeSort ?_ ?_ l).imp ?_
    · intro a b c h1 h2
      simp only [Bool.or_eq_true, decide_eq_true_eq, Bool.and_eq_true] at *
      rcases h1 with h1 | ⟨h1, h1'⟩ <;> rcases h2 with h2 | ⟨h2, h2'⟩
      · left; omega
      · left; omega
      · left; omega
      · exact Or.inr ⟨by omega, le_trans h1' h2'⟩
    · intro a b
      simp only [Bool.or_eq_true, decide_eq_true_eq, Bool.and_eq_true]
      rcases lt_trichotomy a.epoch b.epoch with h | h | h
      · exact Or.inl (Or.inl h)
      · rcases le_total a.tracker b.tracker with h' | h'
        · exact Or.inl (Or.inr ⟨h, h'⟩)
        · exact Or.inr (Or.inr ⟨h.symm, h'⟩)
      · exact Or.inr (Or.inl h)
    · intro a b h
      unfold leKey
      simpa only [Bool.or_eq_true, decide_eq_true_eq, Bool.and_eq_true] using h

example : WF ([⟨1, 5, [(0, 3), (1, 4)], false⟩, ⟨1, 5, [(1, 7)], true⟩] : List (Msr Nat Nat)) := by
  intro m hm
  simp only [List.mem_cons, List.not_mem_nil, or_false] at hm
  rcases hm with rfl | rfl <;> decide

/-! ## C22 -/

/-- Two measurements with the same content: an `IndexMap` compares as a map, not by order. -/
def MsrEq (a b : Msr T K) : Prop :=
  a.epoch = b.epoch ∧ a.tracker = b.tracker ∧ a.rejected = b.rejected ∧
    ∀ ty, get a.data ty = get b.data ty

/-- No (epoch, tracker, type) is measured with two different values. -/
def NoConflict (l : List (Msr T K)) : Prop :=
  ∀ e t ty v v', Has l e t ty v → Has l e t ty v' → v = v'

/-- Same measurements, as sets of values. -/
def SameContent (l l' : List (Msr T K)) : Prop :=
  (∀ e t, HasKey l e t ↔ HasKey l' e t) ∧ (∀ e t ty v, Has l e t ty v ↔ Has l' e t ty v) ∧
    ∀ e t, Rejected l e t ↔ Rejected l' e t

theorem sort_sameContent (srt : List (Msr T K) → List (Msr T K)) (hsrt : Sorts srt)
    (l : List (Msr T K)) (hw : WF l) (hn : NoConflict l) : SameContent (sort srt l) l := by
  obtain ⟨_, h2, h3, h4, h5⟩ := sort_conserves srt hsrt l hw
  refine ⟨h2, ?_, h5⟩
  intro e t ty v
  constructor
  · exact h3 e t ty v
  · intro h
    obtain ⟨v', h'⟩ := h4 e t ty ⟨v, h⟩
    rw [hn e t ty v v' h (h3 e t ty v' h')]
    exact h'

/-- Arcs with the same, non conflicting, content sort to the same arc whatever the sorts do. -/
theorem sort_unique (srt srt' : List (Msr T K) → List (Msr T K)) (h : Sorts srt) (h' : Sorts srt')
    (l l' : List (Msr T K)) (hw : WF l) (hw' : WF l') (hn : NoConflict l)
    (hc : SameContent l l') : List.Forall₂ MsrEq (sort srt l) (sort srt' l') := by
  have hn' : NoConflict l' := by
    intro e t ty v v' h1 h2
    exact hn e t ty v v' ((hc.2.1 _ _ _ _).mpr h1) ((hc.2.1 _ _ _ _).mpr h2)
  obtain ⟨a1, a2, a3⟩ := sort_sameContent srt h l hw hn
  obtain ⟨b1, b2, b3⟩ := sort_sameContent srt' h' l' hw' hn'
  have s1 := (sort_conserves srt h l hw).1
  have s2 := (sort_conserves srt' h' l' hw').1
  refine forall₂_of_map_eq _ _ _ _ (map_key_eq _ _ s1 s2 ?_) ?_
  · intro e t; rw [a1, b1, hc.1]
  · intro a ha b hb hab
    have hk : a.epoch = b.epoch ∧ a.tracker = b.tracker := by
      have := congrArg ofLex hab
      simpa using this
    refine ⟨hk.1, hk.2, ?_, ?_⟩
    · have : Rejected (sort srt l) a.epoch a.tracker ↔ Rejected (sort srt' l') a.epoch a.tracker := by
        rw [a3, b3, hc.2.2]
      have e1 : Rejected (sort srt l) a.epoch a.tracker ↔ a.rejected = true := by
        constructor
        · rintro ⟨m, hm, k1, k2, k3⟩
          rw [← strict_unique s1 hm ha k1 k2]; exact k3
        · exact fun hr => ⟨a, ha, rfl, rfl, hr⟩
      have e2 : Rejected (sort srt' l') a.epoch a.tracker ↔ b.rejected = true := by
        constructor
        · rintro ⟨m, hm, k1, k2, k3⟩
          rw [← strict_unique s2 hm hb (by rw [k1, hk.1]) (by rw [k2, hk.2])]; exact k3
        · exact fun hr => ⟨b, hb, hk.1.symm, hk.2.symm, hr⟩
      rw [e1, e2] at this
      exact Bool.eq_iff_iff.mpr this
    · intro ty
      have e1 : ∀ v, Has (sort srt l) a.epoch a.tracker ty v ↔ get a.data ty = some v := by
        intro v
        constructor
        · rintro ⟨m, hm, k1, k2, k3⟩
          rw [← strict_unique s1 hm ha k1 k2]; exact k3
        · exact fun hr => ⟨a, ha, rfl, rfl, hr⟩
      have e2 : ∀ v, Has (sort srt' l') a.epoch a.tracker ty v ↔ get b.data ty = some v := by
        intro v
        constructor
        · rintro ⟨m, hm, k1, k2, k3⟩
          rw [← strict_unique s2 hm hb (by rw [k1, hk.1]) (by rw [k2, hk.2])]; exact k3
        · exact fun hr => ⟨b, hb, hk.1.symm, hk.2.symm, hr⟩
      apply Option.ext
      intro v
      rw [← e1, ← e2, a2, b2, hc.2.1]

theorem sameContent_of_mem {l l' : List (Msr T K)} (h : ∀ m, m ∈ l ↔ m ∈ l') :
    SameContent l l' := by
  unfold SameContent HasKey Has Rejected
  simp only [h, implies_true, and_self]

theorem sameContent_append {l l' k k' : List (Msr T K)} (h : SameContent l l')
    (h' : SameContent k k') : SameContent (l ++ k) (l' ++ k') := by
  have e1 : ∀ (l k : List (Msr T K)) e t, HasKey (l ++ k) e t ↔ HasKey l e t ∨ HasKey k e t := by
    intro l k e t; unfold HasKey; simp only [List.mem_append, or_and_right, exists_or]
  have e2 : ∀ (l k : List (Msr T K)) e t ty v,
      Has (l ++ k) e t ty v ↔ Has l e t ty v ∨ Has k e t ty v := by
    intro l k e t ty v; unfold Has; simp only [List.mem_append, or_and_right, exists_or]
  have e3 : ∀ (l k : List (Msr T K)) e t, Rejected (l ++ k) e t ↔ Rejected l e t ∨ Rejected k e t := by
    intro l k e t; unfold Rejected; simp only [List.mem_append, or_and_right, exists_or]
  refine ⟨?_, ?_, ?_⟩
  · intro e t; rw [e1, e1, h.1, h'.1]
  · intro e t ty v; rw [e2, e2, h.2.1, h'.2.1]
  · intro e t; rw [e3, e3, h.2.2, h'.2.2]

/-- **C22 (measurements, commutativity; partial).** When no (epoch, tracker, type) is measured with
different values, `a + b` and `b + a` have the same measurements, and all the content of both.
Missing: the moduli, refuted below. -/
theorem add_comm_partial (srt : List (Msr T K) → List (Msr T K)) (hsrt : Sorts srt) (a b : Arc T K)
    (hw : WF (a.measurements ++ b.measurements)) (hn : NoConflict (a.measurements ++ b.measurements)) :
    List.Forall₂ MsrEq (a.add srt b).measurements (b.add srt a).measurements ∧
    SameContent (a.add srt b).measurements (a.measurements ++ b.measurements) := by
  refine ⟨?_, sort_sameContent srt hsrt _ hw hn⟩
  apply sort_unique srt srt hsrt hsrt _ _ hw _ hn
  · exact sameContent_of_mem (fun m => by simp only [List.mem_append, or_comm])
  · intro m hm; exact hw m (by simp only [List.mem_append] at *; exact hm.symm)

/-- **C22 (measurements, associativity).** -/
theorem add_assoc_partial (srt : List (Msr T K) → List (Msr T K)) (hsrt : Sorts srt)
    (a b c : Arc T K) (hw : WF (a.measurements ++ b.measurements ++ c.measurements))
    (hn : NoConflict (a.measurements ++ b.measurements ++ c.measurements)) :
    List.Forall₂ MsrEq ((a.add srt b).add srt c).measurements
      (a.add srt (b.add srt c)).measurements := by
  have hsub : ∀ l l' : List (Msr T K), (∀ m ∈ l, m ∈ l') → NoConflict l' → NoConflict l := by
    intro l l' hs hn e t ty v v' ⟨m, h1, h2⟩ ⟨m', h1', h2'⟩
    exact hn e t ty v v' ⟨m, hs m h1, h2⟩ ⟨m', hs m' h1', h2'⟩
  have wab : WF (a.measurements ++ b.measurements) := fun m hm => hw m (List.mem_append_left _ hm)
  have wbc : WF (b.measurements ++ c.measurements) := fun m hm => hw m (by
    simp only [List.mem_append] at *; tauto)
  have cab := sort_sameContent srt hsrt _ wab (hsub _ _ (fun m hm => List.mem_append_left _ hm) hn)
  have cbc := sort_sameContent srt hsrt _ wbc (hsub _ _ (fun m hm => by
    simp only [List.mem_append] at *; tauto) hn)
  have swf : ∀ l, WF l → WF (sort srt l) := fun l h => coalesce_wf _ (fun m hm =>
    h m ((hsrt.perm l).mem_iff.mp hm))
  have idc : SameContent c.measurements c.measurements := sameContent_of_mem (fun _ => Iff.rfl)
  have ida : SameContent a.measurements a.measurements := sameContent_of_mem (fun _ => Iff.rfl)
  have left := sameContent_append cab idc
  have right := sameContent_append ida cbc
  have mid : SameContent (a.measurements ++ b.measurements ++ c.measurements)
      (a.measurements ++ (b.measurements ++ c.measurements)) :=
    sameContent_of_mem (fun m => by rw [List.append_assoc])
  have nl : NoConflict (sort srt (a.measurements ++ b.measurements) ++ c.measurements) := by
    intro e t ty v v' h1 h2
    exact hn e t ty v v' ((left.2.1 _ _ _ _).mp h1) ((left.2.1 _ _ _ _).mp h2)
  refine sort_unique srt srt hsrt hsrt _ _ ?_ ?_ nl ?_
  · intro m hm
    rcases List.mem_append.mp hm with h | h
    · exact swf _ wab m h
    · exact hw m (List.mem_append_right _ h)
  · intro m hm
    rcases List.mem_append.mp hm with h | h
    · exact wab m (List.mem_append_left _ h)
    · exact swf _ wbc m h
  · refine ⟨fun e t => ?_, fun e t ty v => ?_, fun e t => ?_⟩
    · exact (left.1 e t).trans ((mid.1 e t).trans (right.1 e t).symm)
    · exact (left.2.1 e t ty v).trans ((mid.2.1 e t ty v).trans (right.2.1 e t ty v).symm)
    · exact (left.2.2 e t).trans ((mid.2.2 e t).trans (right.2.2 e t).symm)

/-- **C22.** Adding an empty arc to a sorted arc keeps its measurements. -/
theorem add_empty (srt : List (Msr T K) → List (Msr T K)) (hsrt : Sorts srt) (a b : Arc T K)
    (h : a.measurements.Pairwise ltKey) (hb : b.measurements = []) :
    (a.add srt b).measurements = a.measurements ∧ (b.add srt a).measurements = a.measurements := by
  unfold Arc.add
  simp only [hb, List.append_nil, List.nil_append]
  exact ⟨sort_idempotent srt hsrt _ h, sort_idempotent srt hsrt _ h⟩

/-- **C22 refuted (moduli).** The moduli of the right arc are lost, so addition is not commutative
and does not keep the ambiguity interval of its measurements. -/
theorem add_moduli_false (srt : List (Msr Nat Nat) → List (Msr Nat Nat)) :
    ∃ a b : Arc Nat Nat, b.moduli = some [(0, 75660)] ∧ (a.add srt b).moduli = none ∧
      (b.add srt a).moduli = some [(0, 75660)] :=
  ⟨⟨[⟨0, 0, [(0, 10)], false⟩], none, false⟩, ⟨[⟨0, 5, [(0, 20)], false⟩], some [(0, 75660)], false⟩,
    rfl, rfl, rfl⟩

/-- The non conflict hypothesis is necessary: with a conflict the kept value depends on the order
given by the unstable sort. -/
theorem sort_conflict_ambiguous : ∃ l l' : List (Msr Nat Nat), l.Perm l' ∧
    l.Pairwise leKey ∧ l'.Pairwise leKey ∧ coalesce l ≠ coalesce l' := by
  refine ⟨[⟨0, 0, [(0, 1)], false⟩, ⟨0, 0, [(0, 2)], false⟩],
    [⟨0, 0, [(0, 2)], false⟩, ⟨0, 0, [(0, 1)], false⟩], List.Perm.swap _ _ _, ?_, ?_, ?_⟩
  · simp [leKey]
  · simp [leKey]
  · simp [coalesce, merge, extend, insert]

example : NoConflict ([⟨0, 0, [(0, 1)], false⟩, ⟨0, 0, [(1, 2)], false⟩] : List (Msr Nat Nat)) := by
  rintro e t ty v v' ⟨m, hm, _, _, h3⟩ ⟨m', hm', _, _, h3'⟩
  simp only [List.mem_cons, List.not_mem_nil, or_false] at hm hm'
  rcases hm with rfl | rfl <;> rcases hm' with rfl | rfl <;>
    simp only [get] at h3 h3' <;> split at h3 <;> split at h3' <;>
    (try simp_all) <;> omega

/-! ## C23 -/

/-- The arc is sorted by epoch. -/
def Sorted (l : List (Msr T K)) : Prop := l.Pairwise (fun a b => a.epoch ≤ b.epoch)

theorem chunkLoop_spec (maxDur : Int) (hd : 0 < maxDur) (fuel : Nat) (l : List (Msr T K))
    (hs : Sorted l) (hf : l.length ≤ fuel) :
    ∃ cs, chunkLoop maxDur fuel l = some cs ∧ cs.flatten = l ∧ (∀ c ∈ cs, c ≠ []) ∧
      (∀ c ∈ cs, ∀ f ∈ c.head?, ∀ x ∈ c, f.epoch ≤ x.epoch ∧ x.epoch ≤ f.epoch + maxDur) ∧
      cs.Pairwise (fun c c' => ∀ f ∈ c.head?, ∀ x ∈ c', f.epoch + maxDur < x.epoch) := by
  induction fuel generalizing l with
  | zero =>
    have : l = [] := List.eq_nil_of_length_eq_zero (by omega)
    subst this
    exact ⟨[], rfl, rfl, by simp, by simp, by simp⟩
  | succ fuel ih =>
    cases l with
    | nil => exact ⟨[], rfl, rfl, by simp, by simp, by simp⟩
    | cons m l =>
      rw [chunkLoop]
      have hanti : (m :: l).Pairwise (fun a b => decide (b.epoch ≤ m.epoch + maxDur) = true →
          decide (a.epoch ≤ m.epoch + maxDur) = true) := by
        refine hs.imp ?_
        intro a b hab
        simp only [decide_eq_true_eq]; omega
      have hpp := partitionPoint_spec _ _ hanti
      generalize hoff : partitionPoint (fun x : Msr T K => decide (x.epoch ≤ m.epoch + maxDur))
        (m :: l) = off at hpp
      have hpos : 0 < off := by
        apply (hpp 0 m (by simp)).mp
        simp only [decide_eq_true_eq]; omega
      have hlen : ((m :: l).drop off).length ≤ fuel := by
        rw [List.length_drop]; simp only [List.length_cons] at *; omega
      obtain ⟨cs, h1, h2, h3, h4, h5⟩ := ih ((m :: l).drop off)
        (hs.sublist (List.drop_sublist _ _)) hlen
      rw [h1]
      have hm : ((m :: l).take off).head? = some m := by
        cases off with
        | zero => omega
        | succ n => simp
      refine ⟨_, rfl, ?_, ?_, ?_, ?_⟩
      · rw [List.flatten_cons, h2, List.take_append_drop]
      · intro c hc
        rcases List.mem_cons.mp hc with rfl | hc
        · intro he; rw [he] at hm; simp at hm
        · exact h3 c hc
      · intro c hc
        rcases List.mem_cons.mp hc with rfl | hc
        · intro f hf x hx
          rw [hm] at hf
          simp only [Option.mem_def, Option.some.injEq] at hf
          subst hf
          obtain ⟨i, hi⟩ := List.mem_iff_getElem?.mp hx
          rw [List.getElem?_take] at hi
          split at hi
          · rename_i hlt
            have hx' := (hpp i x hi).mpr hlt
            simp only [decide_eq_true_eq] at hx'
            refine ⟨?_, hx'⟩
            rcases List.mem_cons.mp (List.mem_of_getElem? hi) with rfl | hxl
            · omega
            · exact (List.pairwise_cons.mp hs).1 x hxl
          · simp at hi
        · exact h4 c hc
      · rw [List.pairwise_cons]
        refine ⟨?_, h5⟩
        intro c' hc' f hf x hx
        rw [hm] at hf
        simp only [Option.mem_def, Option.some.injEq] at hf
        subst hf
        have hx' : x ∈ (m :: l).drop off := by
          rw [← h2]; exact List.mem_flatten.mpr ⟨c', hc', hx⟩
        obtain ⟨i, hi⟩ := List.mem_iff_getElem?.mp hx'
        rw [List.getElem?_drop] at hi
        have := (hpp _ x hi).not.mpr (by omega)
        simp only [decide_eq_true_eq] at this
        omega

/-- **C23.** Chunking a non empty sorted arc with a positive duration terminates and partitions
the arc: the concatenation of the chunks is the arc, no chunk is empty, each spans at most the
duration, and each later measurement is more than the duration after the start of every earlier
chunk (so chunks are maximal). Moduli and the reject flag are kept. -/
theorem chunk_partitions (a : Arc T K) (maxDur : Int) (hd : 0 < maxDur)
    (hne : a.measurements ≠ []) (hs : Sorted a.measurements) :
    ∃ cs, a.chunk maxDur a.measurements.length = some cs ∧
      (cs.map Arc.measurements).flatten = a.measurements ∧
      (∀ c ∈ cs, c.measurements ≠ [] ∧ c.moduli = a.moduli ∧ c.forceReject = a.forceReject) ∧
      (∀ c ∈ cs, ∀ f ∈ c.measurements.head?, ∀ x ∈ c.measurements,
        f.epoch ≤ x.epoch ∧ x.epoch ≤ f.epoch + maxDur) ∧
      cs.Pairwise (fun c c' => ∀ f ∈ c.measurements.head?, ∀ x ∈ c'.measurements,
        f.epoch + maxDur < x.epoch) := by
  obtain ⟨cs, h1, h2, h3, h4, h5⟩ := chunkLoop_spec maxDur hd _ a.measurements hs (le_refl _)
  unfold Arc.chunk
  rw [if_neg (by simp [hne]; omega), h1]
  refine ⟨_, rfl, ?_, ?_, ?_, ?_⟩
  · rw [List.map_map]
    have : (Arc.measurements ∘ fun c => ({ a with measurements := c } : Arc T K)) = id := rfl
    rw [this, List.map_id, h2]
  · intro c hc
    obtain ⟨c', hc', rfl⟩ := List.mem_map.mp hc
    exact ⟨h3 c' hc', rfl, rfl⟩
  · intro c hc
    obtain ⟨c', hc', rfl⟩ := List.mem_map.mp hc
    exact h4 c' hc'
  · rw [List.pairwise_map]; exact h5

/-- **C23.** An empty arc or a duration that is not positive gives no chunk. -/
theorem chunk_none (a : Arc T K) (maxDur : Int) (fuel : Nat)
    (h : a.measurements = [] ∨ maxDur ≤ 0) : a.chunk maxDur fuel = some [] := by
  unfold Arc.chunk; rw [if_pos h]

example : (Arc.mk ([⟨0, 0, [], false⟩, ⟨0, 4, [], false⟩, ⟨0, 11, [], false⟩] : List (Msr Nat Nat))
    none false).chunk 10 3 = some [⟨[⟨0, 0, [], false⟩, ⟨0, 4, [], false⟩], none, false⟩,
      ⟨[⟨0, 11, [], false⟩], none, false⟩] := by decide

/-! ## C24 -/

/-- Specification of a range of epochs or offsets. -/
def InBounds (lo hi : Bound) (e : Int) : Prop :=
  (∀ d, lo = .included d → d ≤ e) ∧ (∀ d, lo = .excluded d → d < e) ∧
  (∀ d, hi = .included d → e ≤ d) ∧ (∀ d, hi = .excluded d → e < d)

/-- Before the range. -/
def beforeLo (lo : Bound) (e : Int) : Bool := match lo with
  | .included d => decide (e < d)
  | .excluded d => decide (e ≤ d)
  | .unbounded => false

/-- Not after the range. -/
def upToHi (hi : Bound) (e : Int) : Bool := match hi with
  | .included d => decide (e ≤ d)
  | .excluded d => decide (e < d)
  | .unbounded => true

theorem inBounds_iff (lo hi : Bound) (e : Int) :
    (upToHi hi e && !beforeLo lo e) = true ↔ InBounds lo hi e := by
  unfold InBounds upToHi beforeLo
  cases lo <;> cases hi <;> simp <;> omega

theorem resolve_spec (l : List (Msr T K)) (hs : Sorted l) (lo hi : Bound) :
    (∀ i x, l[i]? = some x → (upToHi hi x.epoch = true ↔ i < (resolveBounds l lo hi).2)) ∧
    (∀ i x, l[i]? = some x → (beforeLo lo x.epoch = true ↔ i < (resolveBounds l lo hi).1)) := by
  unfold resolveBounds upToHi beforeLo
  constructor
  · cases hi with
    | included d =>
      exact partitionPoint_spec _ l (hs.imp (fun hab => by simp only [decide_eq_true_eq]; omega))
    | excluded d =>
      exact partitionPoint_spec _ l (hs.imp (fun hab => by simp only [decide_eq_true_eq]; omega))
    | unbounded =>
      intro i x hx
      simp only [true_iff]
      exact (List.getElem?_eq_some_iff.mp hx).1
  · cases lo with
    | included d =>
      exact partitionPoint_spec _ l (hs.imp (fun hab => by simp only [decide_eq_true_eq]; omega))
    | excluded d =>
      exact partitionPoint_spec _ l (hs.imp (fun hab => by simp only [decide_eq_true_eq]; omega))
    | unbounded => intro i x _; simp

theorem filterByEpoch_eq (l : List (Msr T K)) (hs : Sorted l) (lo hi : Bound) :
    filterByEpoch l lo hi = l.filter (fun m => upToHi hi m.epoch && !beforeLo lo m.epoch) := by
  obtain ⟨h1, h2⟩ := resolve_spec l hs lo hi
  rw [← slice_eq_filter (fun m : Msr T K => upToHi hi m.epoch) (fun m => beforeLo lo m.epoch) l _ _ h1 h2]
  unfold filterByEpoch
  simp only
  split
  · rename_i h
    symm
    apply List.drop_eq_nil_of_le
    rw [List.length_take]
    omega
  · rfl

/-- **C24 (epochs).** On a sorted arc `filter_by_epoch` keeps exactly the measurements in the range,
`exclude_by_epoch` exactly the others, `reject_by_epoch` marks exactly those in the range; all keep
the order. -/
theorem epoch_filters_exact (l : List (Msr T K)) (hs : Sorted l) (lo hi : Bound) :
    ((filterByEpoch l lo hi).Sublist l ∧
      ∀ m, m ∈ filterByEpoch l lo hi ↔ m ∈ l ∧ InBounds lo hi m.epoch) ∧
    ((excludeByEpoch l lo hi).Sublist l ∧
      ∀ m, m ∈ excludeByEpoch l lo hi ↔ m ∈ l ∧ ¬ InBounds lo hi m.epoch) ∧
    (List.Forall₂ (fun m m' => (InBounds lo hi m.epoch → m' = { m with rejected := true }) ∧
        (¬ InBounds lo hi m.epoch → m' = m)) l (rejectByEpoch l lo hi)) := by
  obtain ⟨h1, h2⟩ := resolve_spec l hs lo hi
  have hf := filterByEpoch_eq l hs lo hi
  have hsl := slice_eq_filter (fun m : Msr T K => upToHi hi m.epoch)
    (fun m => beforeLo lo m.epoch) l _ _ h1 h2
  have hnil : ¬ ((resolveBounds l lo hi).1 < (resolveBounds l lo hi).2 ∧
      (resolveBounds l lo hi).1 < l.length) →
      ∀ m ∈ l, (upToHi hi m.epoch && !beforeLo lo m.epoch) = false := by
    intro hn m hm
    obtain ⟨i, hi'⟩ := List.mem_iff_getElem?.mp hm
    have hlen := (List.getElem?_eq_some_iff.mp hi').1
    have a := h1 i m hi'
    have b := h2 i m hi'
    by_cases c : upToHi hi m.epoch = true
    · have : beforeLo lo m.epoch = true := b.mpr (by have := a.mp c; omega)
      simp [this]
    · simp [c]
  have hex : excludeByEpoch l lo hi =
      l.filter (fun m => !(upToHi hi m.epoch && !beforeLo lo m.epoch)) := by
    unfold excludeByEpoch
    simp only
    split
    · rename_i h
      exact (mapSlice_eq _ _ id l _ _ (by omega) h1 h2).2
    · rename_i h
      symm
      rw [List.filter_eq_self]
      intro m hm
      rw [hnil h m hm]; rfl
  have hrj : rejectByEpoch l lo hi =
      l.map (fun m => if upToHi hi m.epoch && !beforeLo lo m.epoch
        then { m with rejected := true } else m) := by
    unfold rejectByEpoch
    simp only
    split
    · rename_i h
      exact (mapSlice_eq _ _ _ l _ _ (by omega) h1 h2).1
    · rename_i h
      symm
      conv_rhs => rw [← List.map_id l]
      apply List.map_congr_left
      intro m hm
      rw [hnil h m hm]; rfl
  refine ⟨⟨?_, ?_⟩, ⟨?_, ?_⟩, ?_⟩
  · rw [hf]; exact List.filter_sublist
  · intro m; rw [hf, List.mem_filter, inBounds_iff]
  · rw [hex]; exact List.filter_sublist
  · intro m; rw [hex, List.mem_filter, ← inBounds_iff]; simp only [Bool.not_eq_true', Bool.not_eq_true]
  · rw [hrj]
    rw [List.forall₂_map_right_iff]
    apply List.forall₂_same.mpr
    intro m _
    rw [← inBounds_iff]
    constructor
    · intro h; rw [if_pos h]
    · intro h; rw [if_neg h]

/-- **C24 (offsets, partial).** For a half open range of offsets `lo..hi` or `..hi`,
`filter_by_offset` keeps exactly the measurements in the range. Missing: the other kinds of ranges, refuted below. -/
theorem filter_by_offset_partial (l : List (Msr T K)) (hs : Sorted l) (lo : Bound) (d : Int)
    (hlo : ∀ e, lo ≠ .excluded e) (f : Msr T K) (hf : l.head? = some f) :
    (filterByOffset l lo (.excluded d)).Sublist l ∧
    ∀ m, m ∈ filterByOffset l lo (.excluded d) ↔
      m ∈ l ∧ InBounds lo (.excluded d) (m.epoch - f.epoch) := by
  obtain ⟨la, hla⟩ : ∃ la, l.getLast? = some la := by
    cases l with
    | nil => simp at hf
    | cons a l => exact ⟨_, List.getLast?_eq_some_getLast (by simp)⟩
  have hfirst : ∀ m ∈ l, f.epoch ≤ m.epoch := by
    intro m hm
    cases l with
    | nil => simp at hm
    | cons a l =>
      simp only [List.head?_cons, Option.some.injEq] at hf
      subst hf
      rcases List.mem_cons.mp hm with rfl | h
      · omega
      · exact (List.pairwise_cons.mp hs).1 m h
  unfold filterByOffset
  rw [hf, hla]
  simp only
  refine ⟨(epoch_filters_exact l hs _ _).1.1, ?_⟩
  intro m
  rw [(epoch_filters_exact l hs _ _).1.2]
  apply and_congr_right
  intro hm
  have := hfirst m hm
  unfold InBounds
  cases lo with
  | excluded e => exact absurd rfl (hlo e)
  | included e => simp; omega
  | unbounded => simp; omega

/-- **C24 refuted.** An unbounded range of offsets drops the last measurement; an inclusive end is
treated as exclusive; an exclusive start as inclusive. -/
theorem filter_by_offset_false : ∃ l : List (Msr Nat Nat), Sorted l ∧
    (filterByOffset l .unbounded .unbounded).map Msr.epoch = [0, 10] ∧ l.map Msr.epoch = [0, 10, 20] ∧
    (filterByOffset l (.included 0) (.included 10)).map Msr.epoch = [0] ∧
    (filterByOffset l (.excluded 0) (.excluded 20)).map Msr.epoch = [0, 10] :=
  ⟨[⟨0, 0, [], false⟩, ⟨0, 10, [], false⟩, ⟨0, 20, [], false⟩], by simp [Sorted], by decide,
    by decide, by decide, by decide⟩

/-! ## C79: trackers and types -/

/-- **C79 (trackers).** Filtering on a tracker and excluding it split the arc; rejecting a tracker
marks exactly its measurements. -/
theorem tracker_filters_exact (l : List (Msr T K)) (t : T) :
    ((filterByTracker l t).Sublist l ∧ ∀ m, m ∈ filterByTracker l t ↔ m ∈ l ∧ m.tracker = t) ∧
    ((excludeTracker l t).Sublist l ∧ ∀ m, m ∈ excludeTracker l t ↔ m ∈ l ∧ m.tracker ≠ t) ∧
    (filterByTracker l t ++ excludeTracker l t).Perm l ∧
    List.Forall₂ (fun m m' => (m.tracker = t → m' = { m with rejected := true }) ∧
      (m.tracker ≠ t → m' = m)) l (rejectByTracker l t) := by
  refine ⟨⟨List.filter_sublist, fun m => by simp [filterByTracker]⟩,
    ⟨List.filter_sublist, fun m => by simp [excludeTracker]⟩, ?_, ?_⟩
  · have := List.filter_append_perm (fun m : Msr T K => decide (m.tracker = t)) l
    unfold filterByTracker excludeTracker
    simpa using this
  · unfold rejectByTracker
    rw [List.forall₂_map_right_iff]
    apply List.forall₂_same.mpr
    intro m _
    exact ⟨fun h => by rw [if_pos h], fun h => by rw [if_neg h]⟩

theorem get_filter {V : Type} (d : IMap K V) (p : K → Bool) (k : K) :
    get (d.filter (fun e => p e.1)) k = if p k then get d k else none := by
  induction d with
  | nil => simp [get]
  | cons e d ih =>
    by_cases h : p e.1 = true
    · rw [List.filter_cons_of_pos (p := fun e : K × V => p e.1) h, get, get, ih]
      by_cases hk : e.1 = k
      · subst hk; simp [h]
      · simp [hk]
    · rw [List.filter_cons_of_neg (p := fun e : K × V => p e.1) h, ih, get]
      by_cases hk : e.1 = k
      · subst hk; simp [h]
      · simp [hk]

/-- **C79 (types, partial).** Filtering on a type keeps exactly the values of that type and leaves
no empty measurement; excluding a type removes exactly the values of that type. Missing: excluding
may leave measurements with no value, refuted below. -/
theorem type_filters_partial (l : List (Msr T K)) (ty : K) :
    (∀ m ∈ filterByType l ty, m.data ≠ []) ∧
    (∀ e t ty' v, Has (filterByType l ty) e t ty' v ↔ Has l e t ty' v ∧ ty' = ty) ∧
    (∀ e t ty' v, Has (excludeType l ty) e t ty' v ↔ Has l e t ty' v ∧ ty' ≠ ty) := by
  refine ⟨?_, ?_, ?_⟩
  · intro m hm
    unfold filterByType at hm
    simp only [List.mem_filter, Bool.not_eq_true', List.isEmpty_eq_false_iff] at hm
    exact hm.2
  · intro e t ty' v
    unfold Has filterByType
    constructor
    · rintro ⟨m, hm, h1, h2, h3⟩
      simp only [List.mem_filter, List.mem_map] at hm
      obtain ⟨⟨m', hm', rfl⟩, _⟩ := hm
      simp only at h1 h2 h3
      rw [get_filter m'.data (fun k => decide (k = ty)) ty'] at h3
      split at h3
      · rename_i hk
        simp only [decide_eq_true_eq] at hk
        exact ⟨⟨m', hm', h1, h2, h3⟩, hk⟩
      · simp at h3
    · rintro ⟨⟨m, hm, h1, h2, h3⟩, rfl⟩
      refine ⟨{ m with data := m.data.filter (fun e => decide (e.1 = ty')) }, ?_, h1, h2, ?_⟩
      · simp only [List.mem_filter, List.mem_map, Bool.not_eq_true', List.isEmpty_eq_false_iff]
        refine ⟨⟨m, hm, rfl⟩, ?_⟩
        have := get_mem _ _ _ h3
        exact List.ne_nil_of_mem (List.mem_filter.mpr ⟨this, by simp⟩)
      · simp only
        rw [get_filter m.data (fun k => decide (k = ty')) ty']
        simpa using h3
  · intro e t ty' v
    unfold Has excludeType
    constructor
    · rintro ⟨m, hm, h1, h2, h3⟩
      simp only [List.mem_map] at hm
      obtain ⟨m', hm', rfl⟩ := hm
      simp only at h1 h2 h3
      rw [get_filter m'.data (fun k => decide (k ≠ ty)) ty'] at h3
      split at h3
      · rename_i hk
        simp only [decide_eq_true_eq] at hk
        exact ⟨⟨m', hm', h1, h2, h3⟩, hk⟩
      · simp at h3
    · rintro ⟨⟨m, hm, h1, h2, h3⟩, hne⟩
      refine ⟨{ m with data := m.data.filter (fun e => decide (e.1 ≠ ty)) }, ?_, h1, h2, ?_⟩
      · exact List.mem_map.mpr ⟨m, hm, rfl⟩
      · simp only
        rw [get_filter m.data (fun k => decide (k ≠ ty)) ty']
        simpa [hne] using h3

/-- **C79 refuted (excluding a type).** A measurement with only the excluded type stays in the arc
with no value, while `filter_by_measurement_type` removes such measurements. -/
theorem exclude_type_leaves_empty : ∃ (l : List (Msr Nat Nat)), (∀ m ∈ l, m.data ≠ []) ∧
    excludeType l 0 = [⟨1, 5, [], false⟩] :=
  ⟨[⟨1, 5, [(0, 3)], false⟩], by simp, by simp [excludeType]⟩

/-! ## C27 -/

/-- **C27 (partial).** Equality is symmetric for measurements that carry the same types. Missing:
different types, refuted below. -/
theorem msr_eq_symm_partial (a b : Msr T K) (ha : (a.data.map Prod.fst).Nodup)
    (hb : (b.data.map Prod.fst).Nodup)
    (h : ∀ ty, ty ∈ a.data.map Prod.fst ↔ ty ∈ b.data.map Prod.fst) : a.beq b = b.beq a := by
  have key : ∀ a b : Msr T K, (a.data.map Prod.fst).Nodup → (b.data.map Prod.fst).Nodup →
      (∀ ty, ty ∈ a.data.map Prod.fst ↔ ty ∈ b.data.map Prod.fst) → a.beq b = true →
      b.beq a = true := by
    intro a b ha hb h hab
    unfold Msr.beq at *
    simp only [Bool.and_eq_true, decide_eq_true_eq, List.all_eq_true] at hab ⊢
    obtain ⟨⟨h1, h2⟩, h3⟩ := hab
    refine ⟨⟨h1.symm, h2.symm⟩, ?_⟩
    rintro ⟨k, v⟩ he
    have hk : k ∈ a.data.map Prod.fst := (h k).mpr (List.mem_map.mpr ⟨_, he, rfl⟩)
    obtain ⟨⟨k', w⟩, hw, hk'⟩ := List.mem_map.mp hk
    simp only at hk'; subst hk'
    rw [get_of_mem _ ha _ _ hw]
    have := h3 _ hw
    rw [get_of_mem _ hb _ _ he] at this
    simp only [decide_eq_true_eq] at this ⊢
    rw [abs_sub_comm]; exact this
  rw [Bool.eq_iff_iff]
  exact ⟨key a b ha hb h, key b a hb ha (fun ty => (h ty).symm)⟩

/-- **C27 refuted.** A measurement with fewer types equals one with more types, but not the other
way around. -/
theorem msr_eq_symm_false : ∃ a b : Msr Nat Nat, a.beq b = true ∧ b.beq a = false :=
  ⟨⟨1, 5, [], false⟩, ⟨1, 5, [(0, 3)], false⟩, by simp [Msr.beq], by simp [Msr.beq, get]⟩

example : (⟨1, 5, [(0, 3), (1, 4)], false⟩ : Msr Nat Nat).beq ⟨1, 5, [(1, 4), (0, 3)], false⟩ = true := by
  simp [Msr.beq, get]

/-! ## C78 -/

/-- What the remainder is: congruent to the value modulo `m`, smaller than `m` in magnitude, with
the sign of the value. -/
theorem fmod_spec (x m : Rat) (hm : m ≠ 0) :
    (∃ k : Int, x = k * m + fmod x m) ∧ |fmod x m| < |m| ∧ 0 ≤ x * fmod x m := by
  have hx : x = x / m * m := by field_simp
  generalize hq : x / m = q at hx
  unfold fmod
  rw [hq]
  have hmp : 0 < m ^ 2 := by positivity
  have habs : ∀ r : Rat, |r| < 1 → |m * r| < |m| := by
    intro r hr
    rw [abs_mul]
    have : 0 < |m| := abs_pos.mpr hm
    nlinarith
  by_cases h : 0 ≤ q
  · rw [if_pos h]
    have h1 := Int.floor_le q
    have h2 := Int.lt_floor_add_one q
    refine ⟨⟨⌊q⌋, by ring⟩, ?_, ?_⟩
    · rw [show x - m * (⌊q⌋ : Rat) = m * (q - ⌊q⌋) by rw [hx]; ring]
      apply habs
      rw [abs_lt]; constructor <;> linarith
    · rw [show x * (x - m * (⌊q⌋ : Rat)) = m ^ 2 * (q * (q - ⌊q⌋)) by rw [hx]; ring]
      apply mul_nonneg hmp.le (mul_nonneg h (by linarith))
  · rw [if_neg h]
    have h1 := Int.le_ceil q
    have h2 := Int.ceil_lt_add_one q
    refine ⟨⟨⌈q⌉, by ring⟩, ?_, ?_⟩
    · rw [show x - m * (⌈q⌉ : Rat) = m * (q - ⌈q⌉) by rw [hx]; ring]
      apply habs
      rw [abs_lt]; constructor <;> linarith
    · rw [show x * (x - m * (⌈q⌉ : Rat)) = m ^ 2 * (-q * (⌈q⌉ - q)) by rw [hx]; ring]
      apply mul_nonneg hmp.le (mul_nonneg (by linarith) (by linarith))

theorem fmod_of_small (x m : Rat) (hm : m ≠ 0) (h : |x| < |m|) : fmod x m = x := by
  unfold fmod
  have hq : |x / m| < 1 := by
    rw [abs_div, div_lt_one (abs_pos.mpr hm)]; exact h
  rw [abs_lt] at hq
  split
  · rename_i h0
    have : ⌊x / m⌋ = 0 := Int.floor_eq_zero_iff.mpr ⟨h0, hq.2⟩
    rw [this]; simp
  · rename_i h0
    have : ⌈x / m⌉ = 0 := by
      rw [Int.ceil_eq_iff]; simp; exact ⟨hq.1, by linarith⟩
    rw [this]; simp

theorem get_modifyAt (d : IMap K Rat) (k k' : K) (f : Rat → Rat) :
    get (modifyAt d k f) k' = if k' = k then (get d k').map f else get d k' := by
  induction d with
  | nil => simp [modifyAt, get]
  | cons e d ih =>
    have : modifyAt (e :: d) k f = (if e.1 = k then (e.1, f e.2) else e) :: modifyAt d k f := rfl
    rw [this]
    by_cases h : e.1 = k
    · rw [if_pos h, get, get, ih]
      by_cases h' : e.1 = k'
      · subst h'; simp [h]
      · simp [h']
    · rw [if_neg h, get, get, ih]
      by_cases h' : e.1 = k'
      · subst h'; simp [h]
      · simp [h']

theorem get_foldl_modifyAt (ms : IMap K Rat) (hn : (ms.map Prod.fst).Nodup) (d : IMap K Rat)
    (k : K) :
    get (ms.foldl (fun d e => modifyAt d e.1 (fun x => fmod x e.2)) d) k =
      match get ms k with
      | some m => (get d k).map (fun x => fmod x m)
      | none => get d k := by
  induction ms generalizing d with
  | nil => rfl
  | cons e ms ih =>
    rw [List.map_cons, List.nodup_cons] at hn
    rw [List.foldl_cons, ih hn.2, get_modifyAt]
    by_cases h : e.1 = k
    · subst h
      rw [get_eq_none_of_not_mem ms _ hn.1]
      simp [get]
    · have : ¬ k = e.1 := fun he => h he.symm
      simp [get, h, this]

theorem applyModuli_measurements (a : Arc T K) (ms : IMap K Rat) (hms : a.moduli = some ms) :
    a.applyModuli.measurements = a.measurements.map (fun m =>
      { m with data := ms.foldl (fun d e => modifyAt d e.1 (fun x => fmod x e.2)) m.data }) := by
  unfold Arc.applyModuli; rw [hms]

/-- **C78.** `apply_moduli` replaces each value whose type has a modulus by the value congruent to
it, of smaller magnitude than the modulus and same sign; leaves the other values, trackers, epochs
and flags alone; and applying it twice is the same as once. -/
theorem apply_moduli_spec (a : Arc T K) (ms : IMap K Rat) (hms : a.moduli = some ms)
    (hn : (ms.map Prod.fst).Nodup) (hnz : ∀ e ∈ ms, e.2 ≠ 0) :
    List.Forall₂ (fun m m' => m'.tracker = m.tracker ∧ m'.epoch = m.epoch ∧
        m'.rejected = m.rejected ∧
        ∀ ty, (get ms ty = none → get m'.data ty = get m.data ty) ∧
          ∀ md, get ms ty = some md → (get m.data ty = none → get m'.data ty = none) ∧
            ∀ x, get m.data ty = some x → ∃ y, get m'.data ty = some y ∧
              (∃ k : Int, x = k * md + y) ∧ |y| < |md| ∧ 0 ≤ x * y)
      a.measurements a.applyModuli.measurements ∧
    List.Forall₂ MsrEq a.applyModuli.measurements a.applyModuli.applyModuli.measurements := by
  have hget : ∀ d : IMap K Rat, ∀ k,
      get (ms.foldl (fun d e => modifyAt d e.1 (fun x => fmod x e.2)) d) k = _ :=
    get_foldl_modifyAt ms hn
  have hmd : a.applyModuli.moduli = some ms := by unfold Arc.applyModuli; rw [hms]
  constructor
  · unfold Arc.applyModuli
    rw [hms]
    simp only
    rw [List.forall₂_map_right_iff]
    apply List.forall₂_same.mpr
    intro m _
    refine ⟨rfl, rfl, rfl, ?_⟩
    intro ty
    simp only
    rw [hget]
    refine ⟨fun h => by rw [h], ?_⟩
    intro md hmdv
    rw [hmdv]
    refine ⟨fun h => by rw [h]; rfl, ?_⟩
    intro x hx
    rw [hx]
    exact ⟨_, rfl, fmod_spec x md (hnz _ (get_mem _ _ _ hmdv))⟩
  · rw [applyModuli_measurements a.applyModuli ms hmd]
    rw [List.forall₂_map_right_iff]
    apply List.forall₂_same.mpr
    intro m hm
    refine ⟨rfl, rfl, rfl, ?_⟩
    intro ty
    simp only
    rw [hget]
    unfold Arc.applyModuli at hm
    rw [hms] at hm
    simp only [List.mem_map] at hm
    obtain ⟨m0, _, rfl⟩ := hm
    simp only
    rw [hget]
    cases hmdv : get ms ty with
    | none => rfl
    | some md =>
      simp only
      cases get m0.data ty with
      | none => rfl
      | some x =>
        have hz := hnz _ (get_mem _ _ _ hmdv)
        simp only [Option.map_some]
        rw [fmod_of_small _ _ hz (fmod_spec x md hz).2.1]

/-- **C78.** Moduli set with `set_moduli` are never zero and keys stay distinct, so the hypotheses
of `apply_moduli_spec` hold of every arc whose moduli were only set that way. -/
theorem set_moduli_wf (a : Arc T K) (ty : K) (m : Rat)
    (h : ∀ ms, a.moduli = some ms → (ms.map Prod.fst).Nodup ∧ ∀ e ∈ ms, e.2 ≠ 0) :
    ∀ ms, (a.setModuli ty m).moduli = some ms → (ms.map Prod.fst).Nodup ∧ ∀ e ∈ ms, e.2 ≠ 0 := by
  intro ms hms
  unfold Arc.setModuli at hms
  split at hms
  · exact h ms hms
  · rename_i hm
    simp only [Option.some.injEq] at hms
    subst hms
    have hbase : ((a.moduli.getD []).map Prod.fst).Nodup ∧ ∀ e ∈ a.moduli.getD [], e.2 ≠ 0 := by
      cases ha : a.moduli with
      | none => simp
      | some ms => exact h ms ha
    refine ⟨insert_nodup _ _ _ hbase.1, ?_⟩
    rintro ⟨k, v⟩ he
    have hv := get_of_mem _ (insert_nodup _ _ _ hbase.1) k v he
    rw [get_insert] at hv
    split at hv
    · simp only [Option.some.injEq] at hv
      subst hv
      rintro h0
      simp only at h0
      subst h0
      apply hm; norm_num
    · exact hbase.2 _ (get_mem _ _ _ hv)

example : fmod 75661 75660 = 1 := by
  unfold fmod
  rw [if_pos (by norm_num), show ⌊(75661 / 75660 : Rat)⌋ = 1 by
    rw [Int.floor_eq_iff]; norm_num]
  norm_num

end Verif.Tracking
