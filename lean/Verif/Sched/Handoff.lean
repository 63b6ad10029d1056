import Mathlib.Data.List.Forall2
import Verif.Sched.Strands
import Verif.Tracking.Lemmas
/-!
C45, C46: the schedule of all trackers and the handoff between them.
-/
namespace Verif.Sched
open Verif Verif.Util
open Verif.Tracking (IMap get get_mem get_of_mem)

variable {N : Type} [DecidableEq N]

/-- Strand number `k.2` of the tracker `k.1`. -/
def strandAt (m : IMap N Cfg) (k : N × Nat) : Option Strand :=
  (get m k.1).bind fun c => c.strands.bind fun l => l[k.2]?

/-! ### Updates -/

theorem get_modify {V : Type} (m : IMap N V) (n k : N) (f : V → V) :
    get (modify m n f) k = if k = n then (get m k).map f else get m k := by
  induction m with
  | nil => simp [modify, Tracking.get]
  | cons e m ih =>
    have hm : modify (e :: m) n f = (if e.1 = n then (e.1, f e.2) else e) :: modify m n f := rfl
    rw [hm]
    by_cases h1 : e.1 = n
    · rw [if_pos h1]
      simp only [Tracking.get]
      by_cases h2 : e.1 = k
      · rw [if_pos h2, if_pos h2, if_pos (h2 ▸ h1)]; rfl
      · rw [if_neg h2, if_neg h2, ih]
    · rw [if_neg h1]
      simp only [Tracking.get]
      by_cases h2 : e.1 = k
      · rw [if_pos h2, if_pos h2, if_neg (h2 ▸ h1)]
      · rw [if_neg h2, if_neg h2, ih]

theorem modify_keys {V : Type} (m : IMap N V) (n : N) (f : V → V) :
    (modify m n f).map Prod.fst = m.map Prod.fst := by
  unfold modify
  rw [List.map_map]
  apply List.map_congr_left
  intro e _
  simp only [Function.comp]
  split <;> rfl

theorem strandAt_modifyStrand (m : IMap N Cfg) (n : N) (i : Nat) (f : Strand → Strand) (k : N × Nat) :
    strandAt (modify m n fun c => { c with strands := c.strands.map fun l => l.modify i f }) k =
      if k = (n, i) then (strandAt m k).map f else strandAt m k := by
  obtain ⟨k1, k2⟩ := k
  unfold strandAt
  simp only [get_modify]
  by_cases h : k1 = n
  · subst h
    rw [if_pos rfl]
    cases hc : get m k1 with
    | none => simp
    | some c =>
      simp only [Option.map_some, Option.bind_some]
      cases hs : c.strands with
      | none => simp
      | some l =>
        simp only [Option.map_some, Option.bind_some, List.getElem?_modify]
        by_cases h2 : i = k2
        · subst h2; simp
        · have : ¬ (k1, k2) = (k1, i) := by simp [Ne.symm h2]
          rw [if_neg this]; simp [h2]
  · have : ¬ (k1, k2) = (n, i) := by simp [h]
    rw [if_neg h, if_neg this]

theorem samplingOf_modifyStrand (m : IMap N Cfg) (n : N) (f : Cfg → Cfg)
    (hf : ∀ c, (f c).sampling = c.sampling) (k : N) :
    samplingOf (modify m n f) k = samplingOf m k := by
  unfold samplingOf
  rw [get_modify]
  by_cases h : k = n
  · rw [if_pos h]
    cases get m k with
    | none => rfl
    | some c => exact hf c
  · rw [if_neg h]

/-! ### One pass of the handoff -/

/-- The start of the strand `b` after the handoff from the strand `a` before it. -/
def startAfter (configs : IMap N Cfg) (smp : N → Int) (a b : Entry N) : Int :=
  if handoffOf configs a.name = some .greedy ∧ b.strand.start ≤ a.strand.stop then
    a.strand.stop + smp b.name
  else b.strand.start

/-- The end of the strand `a` after the handoff to the strand `b` after it. -/
def stopAfter (configs : IMap N Cfg) (smp : N → Int) (a b : Entry N) : Int :=
  if handoffOf configs a.name = some .eager ∧ b.strand.start ≤ a.strand.stop then
    b.strand.start - smp a.name
  else a.strand.stop

/-- The strands after the handoff, in the order of the snapshot; `s0` is the start of the first. -/
def handed (configs : IMap N Cfg) (smp : N → Int) : Int → List (Entry N) → List Strand
  | _, [] => []
  | s0, [a] => [⟨s0, a.strand.stop⟩]
  | s0, a :: b :: l =>
    ⟨s0, stopAfter configs smp a b⟩ :: handed configs smp (startAfter configs smp a b) (b :: l)

/-- The tracker and position of an entry. -/
def Entry.key (e : Entry N) : N × Nat := (e.name, e.pos)

theorem handPair_strandAt (configs m : IMap N Cfg) (a b : Entry N) (hab : a.key ≠ b.key) (s0 : Int)
    (ha : strandAt m a.key = some ⟨s0, a.strand.stop⟩) (hb : strandAt m b.key = some b.strand) :
    strandAt (handPair configs m a b) a.key =
      some ⟨s0, stopAfter configs (samplingOf m) a b⟩ ∧
    strandAt (handPair configs m a b) b.key =
      some ⟨startAfter configs (samplingOf m) a b, b.strand.stop⟩ ∧
    (∀ k, k ≠ a.key → k ≠ b.key → strandAt (handPair configs m a b) k = strandAt m k) ∧
    ∀ n, samplingOf (handPair configs m a b) n = samplingOf m n := by
  unfold handPair startAfter stopAfter
  cases hh : handoffOf configs a.name with
  | none => simp [ha, hb]
  | some h =>
    simp only [Option.some.injEq, ge_iff_le]
    by_cases h1 : h = .greedy ∧ b.strand.start ≤ a.strand.stop
    · have h2 : ¬ (h = .eager ∧ b.strand.start ≤ a.strand.stop) := by
        rintro ⟨h3, -⟩; rw [h3] at h1; exact absurd h1.1 (by decide)
      rw [if_pos h1, if_pos h1, if_neg h2]
      unfold setStart
      refine ⟨?_, ?_, fun k h1 h2 => ?_, fun n => ?_⟩
      · rw [strandAt_modifyStrand, if_neg (show ¬ a.key = (b.name, b.pos) from hab), ha]
      · rw [strandAt_modifyStrand, if_pos (show b.key = (b.name, b.pos) from rfl), hb]; rfl
      · rw [strandAt_modifyStrand, if_neg (show ¬ k = (b.name, b.pos) from h2)]
      · apply samplingOf_modifyStrand; intro c; rfl
    · rw [if_neg h1, if_neg h1]
      by_cases h2 : h = .eager ∧ b.strand.start ≤ a.strand.stop
      · rw [if_pos h2, if_pos h2]
        unfold setStop
        refine ⟨?_, ?_, fun k h1 h2 => ?_, fun n => ?_⟩
        · rw [strandAt_modifyStrand, if_pos (show a.key = (a.name, a.pos) from rfl), ha]; rfl
        · rw [strandAt_modifyStrand, if_neg (show ¬ b.key = (a.name, a.pos) from Ne.symm hab), hb]
        · rw [strandAt_modifyStrand, if_neg (show ¬ k = (a.name, a.pos) from h1)]
        · apply samplingOf_modifyStrand; intro c; rfl
      · rw [if_neg h2, if_neg h2]
        exact ⟨ha, hb, fun _ _ _ => rfl, fun _ => rfl⟩

/-- The handoff loop computes `handed`, and leaves the other strands as they are. -/
theorem handLoop_spec (configs : IMap N Cfg) (L : List (Entry N)) (hn : (L.map Entry.key).Nodup)
    (m : IMap N Cfg) (s0 : Int)
    (hh : ∀ a, L.head? = some a → strandAt m a.key = some ⟨s0, a.strand.stop⟩)
    (ht : ∀ e ∈ L.tail, strandAt m e.key = some e.strand) :
    (∀ (i : Nat) e, L[i]? = some e → strandAt (handLoop configs L m) e.key =
      (handed configs (samplingOf m) s0 L)[i]?) ∧
    (∀ k, k ∉ L.map Entry.key → strandAt (handLoop configs L m) k = strandAt m k) := by
  induction L generalizing m s0 with
  | nil => simp [handLoop]
  | cons a l ih =>
    cases l with
    | nil =>
      refine ⟨fun i e h => ?_, fun k hk => rfl⟩
      cases i with
      | zero =>
        simp at h; subst h
        simpa [handLoop, handed] using hh _ rfl
      | succ i => simp at h
    | cons b l =>
      rw [List.map_cons, List.nodup_cons] at hn
      have hab : a.key ≠ b.key := fun h => hn.1 (by simp [h])
      have hbl : b.key ∉ l.map Entry.key := by
        have := hn.2; rw [List.map_cons, List.nodup_cons] at this; exact this.1
      obtain ⟨p1, p2, p3, p4⟩ := handPair_strandAt configs m a b hab s0 (hh a rfl)
        (ht b (by simp))
      have hsm : samplingOf (handPair configs m a b) = samplingOf m := funext p4
      obtain ⟨q1, q2⟩ := ih hn.2 (handPair configs m a b) (startAfter configs (samplingOf m) a b)
        (fun x hx => by simp at hx; subst hx; exact p2)
        (fun e he => by
          have hek : e.key ∈ l.map Entry.key := List.mem_map_of_mem he
          rw [p3 e.key (fun h => hn.1 (by rw [← h]; exact List.mem_cons_of_mem _ hek))
            (fun h => hbl (h ▸ hek))]
          exact ht e (by simpa using Or.inr he))
      rw [hsm] at q1
      refine ⟨fun i e h => ?_, fun k hk => ?_⟩
      · cases i with
        | zero =>
          simp at h; subst h
          have : handLoop configs (a :: b :: l) m = handLoop configs (b :: l) (handPair configs m a b) :=
            rfl
          rw [this, q2 _ hn.1, p1]
          rfl
        | succ i =>
          rw [List.getElem?_cons_succ] at h
          exact q1 i e h
      · rw [List.map_cons, List.mem_cons, not_or] at hk
        have : handLoop configs (a :: b :: l) m = handLoop configs (b :: l) (handPair configs m a b) :=
          rfl
        rw [this, q2 k hk.2, p3 k hk.1 (fun h => hk.2 (by rw [h]; simp))]

/-! ### The list of the strands after the handoff -/

theorem handed_length (configs : IMap N Cfg) (smp : N → Int) (s0 : Int) (L : List (Entry N)) :
    (handed configs smp s0 L).length = L.length := by
  induction L generalizing s0 with
  | nil => rfl
  | cons a l ih =>
    cases l with
    | nil => rfl
    | cons b l => simp only [handed, List.length_cons, ih]

theorem startAfter_ge (configs : IMap N Cfg) (smp : N → Int) (hs : ∀ n, 0 ≤ smp n) (a b : Entry N) :
    b.strand.start ≤ startAfter configs smp a b := by
  unfold startAfter
  have := hs b.name
  split <;> omega

theorem stopAfter_le (configs : IMap N Cfg) (smp : N → Int) (hs : ∀ n, 0 ≤ smp n) (a b : Entry N) :
    stopAfter configs smp a b ≤ a.strand.stop := by
  unfold stopAfter
  have := hs a.name
  split <;> omega

/-- The handoff only shortens strands. -/
theorem handed_narrows (configs : IMap N Cfg) (smp : N → Int) (hs : ∀ n, 0 ≤ smp n) (s0 : Int)
    (L : List (Entry N)) (h0 : ∀ a, L.head? = some a → a.strand.start ≤ s0) :
    List.Forall₂ (fun (st : Strand) (e : Entry N) => e.strand.start ≤ st.start ∧ st.stop ≤ e.strand.stop)
      (handed configs smp s0 L) L := by
  induction L generalizing s0 with
  | nil => exact .nil
  | cons a l ih =>
    cases l with
    | nil => exact .cons ⟨h0 a rfl, le_refl _⟩ .nil
    | cons b l =>
      exact .cons ⟨h0 a rfl, stopAfter_le configs smp hs a b⟩
        (ih _ (fun x hx => by simp at hx; subst hx; exact startAfter_ge configs smp hs a b))

/-- Any two neighbours are disjoint after the handoff when both policies are Eager or Greedy. -/
theorem handed_chain (configs : IMap N Cfg) (smp : N → Int) (hs : ∀ n, 0 < smp n) (s0 : Int)
    (L : List (Entry N))
    (hp : ∀ e ∈ L, handoffOf configs e.name = some .eager ∨ handoffOf configs e.name = some .greedy) :
    (handed configs smp s0 L).IsChain (fun p q => p.stop < q.start) := by
  induction L generalizing s0 with
  | nil => simp [handed]
  | cons a l ih =>
    cases l with
    | nil => simp [handed]
    | cons b l =>
      have ih' := ih (startAfter configs smp a b) (fun e he => hp e (List.mem_cons_of_mem _ he))
      have hd : stopAfter configs smp a b < startAfter configs smp a b := by
        have h1 := hs a.name
        have h2 := hs b.name
        unfold startAfter stopAfter
        rcases hp a (by simp) with h | h
        · rw [h]
          by_cases hle : b.strand.start ≤ a.strand.stop
          · simp [hle]; omega
          · simp [hle]; omega
        · rw [h]
          by_cases hle : b.strand.start ≤ a.strand.stop
          · simp [hle]; omega
          · simp [hle]; omega
      cases l with
      | nil => simpa [handed] using hd
      | cons c l =>
        simp only [handed] at ih' ⊢
        exact .cons_cons hd ih'

/-- When every policy is Eager, any two strands are disjoint after the handoff. -/
theorem handed_eager (configs : IMap N Cfg) (smp : N → Int) (hs : ∀ n, 0 < smp n) (s0 : Int)
    (L : List (Entry N)) (hL : L.Pairwise (fun a b => a.strand.start ≤ b.strand.start))
    (h0 : ∀ a, L.head? = some a → a.strand.start ≤ s0)
    (hp : ∀ e ∈ L, handoffOf configs e.name = some .eager) :
    (handed configs smp s0 L).Pairwise (fun p q => p.stop < q.start) := by
  induction L generalizing s0 with
  | nil => simp [handed]
  | cons a l ih =>
    cases l with
    | nil => simp [handed]
    | cons b l =>
      simp only [handed]
      have hge := startAfter_ge configs smp (fun n => le_of_lt (hs n)) a b
      have h0' : ∀ x, (b :: l).head? = some x → x.strand.start ≤ startAfter configs smp a b :=
        fun x hx => by simp at hx; subst hx; exact hge
      rw [List.pairwise_cons] at hL
      refine List.pairwise_cons.2 ⟨fun q hq => ?_, ih _ hL.2 h0' (fun e he =>
        hp e (List.mem_cons_of_mem _ he))⟩
      have hn := handed_narrows configs smp (fun n => le_of_lt (hs n)) _ (b :: l) h0'
      obtain ⟨i, hi, rfl⟩ := List.mem_iff_getElem.1 hq
      have hi' : i < (b :: l).length := by rw [← handed_length configs smp _ (b :: l)]; exact hi
      have h1 := (List.Forall₂.get hn hi hi').1
      have h2 : b.strand.start ≤ ((b :: l)[i]).strand.start := by
        cases i with
        | zero => exact le_refl _
        | succ i =>
          have := hL.2
          rw [List.pairwise_cons] at this
          exact this.1 _ (List.getElem_mem _)
      have h3 : stopAfter configs smp a b < b.strand.start := by
        have := hs a.name
        unfold stopAfter
        rw [hp a (by simp)]
        by_cases hle : b.strand.start ≤ a.strand.stop
        · simp [hle]; omega
        · simp [hle]; omega
      simp only [List.get_eq_getElem] at h1
      simp only
      omega

/-- Neighbours disjoint and no strand backward: any two are disjoint. -/
theorem pairwise_of_chain (l : List Strand) (h : l.IsChain (fun p q => p.stop < q.start))
    (hf : ∀ s ∈ l, s.start ≤ s.stop) : l.Pairwise (fun p q => p.stop < q.start) := by
  induction l with
  | nil => simp
  | cons a l ih =>
    have h2 := ih (h.tail) (fun s hs => hf s (List.mem_cons_of_mem _ hs))
    refine List.pairwise_cons.2 ⟨fun q hq => ?_, h2⟩
    cases l with
    | nil => simp at hq
    | cons b l =>
      have hab : a.stop < b.start := by
        cases h with
        | cons_cons h _ => exact h
      rcases List.mem_cons.1 hq with rfl | hq
      · exact hab
      · rw [List.pairwise_cons] at h2
        have := h2.1 q hq
        have := hf b (by simp)
        omega

end Verif.Sched
