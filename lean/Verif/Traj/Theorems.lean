import Verif.Traj.Model
import Verif.Propagate.Theorems
import Mathlib.Tactic.Linarith
import Mathlib.Tactic.NormNum
/-!
Property theorems about trajectories: C09, C15 – C20, C77.
-/
namespace Verif.Traj
open Verif.Util

variable {X E Fr : Type}

/-- Strictly increasing epochs: what a finalised trajectory without repeated epochs looks like. -/
def Sorted (l : List (TS X)) : Prop := l.Pairwise (fun a b => a.epoch < b.epoch)

/-! ## C15 -/

/-- **C15 (partial).** `finalize` sorts by epoch, keeps only given states (as a permutation of a
sublist), keeps at least one state of every epoch, and is a permutation when no epoch is repeated.
Missing: uniqueness of epochs, refuted below. -/
theorem finalize_sorted_complete_partial (l : List (TS X)) :
    (finalize l).Pairwise (fun a b => a.epoch ≤ b.epoch) ∧
    (∀ s ∈ finalize l, s ∈ l) ∧
    (∀ e, e ∈ (finalize l).map TS.epoch ↔ e ∈ l.map TS.epoch) ∧
    ((l.map TS.epoch).Nodup → (finalize l).Perm l) := by
  refine ⟨sortBy_sorted _ _, ?_, ?_, ?_⟩
  · intro s hs
    exact (dedupBy_sublist TS.epoch l).mem ((sortBy_perm _ _).mem_iff.mp hs)
  · intro e
    rw [← dedupBy_keys TS.epoch l e]
    exact ((sortBy_perm TS.epoch (dedupBy TS.epoch l)).map TS.epoch).mem_iff
  · intro h
    have := sortBy_perm TS.epoch (dedupBy TS.epoch l)
    rw [dedupBy_of_nodup _ h] at this
    unfold finalize
    rw [dedupBy_of_nodup _ h]
    exact this

/-- A finalised trajectory that has unique epochs is unchanged by `finalize`. -/
theorem finalize_idem_of_sorted (l : List (TS X)) (h : Sorted l) : finalize l = l := by
  have hn : (l.map TS.epoch).Nodup := by
    rw [List.nodup_iff_pairwise_ne, List.pairwise_map]
    exact h.imp (fun {a b} hab => by omega)
  unfold finalize
  rw [dedupBy_of_nodup _ hn]
  exact sortBy_of_sorted _ (h.imp (fun {a b} hab => by omega))

/-- **C15 refuted (uniqueness).** The duplicates are removed before sorting, so equal epochs that
are not adjacent survive. -/
theorem finalize_unique_false : ∃ l : List (TS Nat),
    ¬ (Sorted (finalize l)) ∧ (finalize l).map TS.epoch = [1, 1, 2] :=
  ⟨[⟨1, 0⟩, ⟨2, 1⟩, ⟨1, 2⟩], by
    have : finalize [⟨1, 0⟩, ⟨2, 1⟩, ⟨1, 2⟩] = ([⟨1, 0⟩, ⟨1, 2⟩, ⟨2, 1⟩] : List (TS Nat)) := by
      simp [finalize, dedupBy, sortBy, List.mergeSort, List.MergeSort.Internal.splitInTwo,
        List.merge]
    rw [this]
    exact ⟨by simp [Sorted], rfl⟩⟩

example : (([⟨3, 'a'⟩, ⟨1, 'b'⟩, ⟨2, 'c'⟩] : List (TS Char)).map TS.epoch).Nodup := by decide

/-! ## C09 -/

/-- The sorted list that a propagation's states form. -/
theorem withTraj_eq (delivered sorted : List (TS X)) (start : TS X)
    (hs : Sorted sorted) (hp : (delivered ++ [start]).Perm sorted) :
    withTraj delivered start = sorted := by
  unfold withTraj finalize
  have hn : ((delivered ++ [start]).map TS.epoch).Nodup := by
    rw [(hp.map TS.epoch).nodup_iff, List.nodup_iff_pairwise_ne, List.pairwise_map]
    exact hs.imp (fun {a b} hab => by omega)
  rw [dedupBy_of_nodup _ hn]
  exact sortBy_eq_of_perm TS.epoch hs hp

/-- Conversion between the state types of the two models. -/
def ofSt {X} (s : Propagate.St X) : TS X := ⟨s.epoch, s.x⟩

open Propagate in
/-- **C09.** For every completed propagation (forward or backward, any step control) and every order
in which the published states are delivered, the trajectory is the start state followed by the
published states in chronological order: it is strictly sorted, complete, without duplicates, and
does not depend on the delivery order. -/
theorem for_duration_with_traj_deterministic [DecidableEq Fr] (env : Env X E Fr)
    (hk : env.KeepsEpoch) (fuel : Nat) (d : Int) (i : Inst X) (m : Int)
    (hi : Drivable env m i) (hb : d < 0 → 2 ≤ m) (o : Outcome X E Unit)
    (h : forDuration env fuel d i = some o)
    (delivered : List (TS X)) (hperm : delivered.Perm (o.sent.map ofSt)) :
    withTraj delivered (ofSt i.st) =
      (if d < 0 then ((i.st :: o.sent).map ofSt).reverse else (i.st :: o.sent).map ofSt) ∧
    Sorted (withTraj delivered (ofSt i.st)) := by
  obtain ⟨h1, h2⟩ := propagate_published_ordered env hk never fuel d i () m hi hb o h
  have hp : (delivered ++ [ofSt i.st]).Perm ((i.st :: o.sent).map ofSt) := by
    rw [List.map_cons]
    exact (List.perm_append_singleton _ _).trans (hperm.cons _)
  by_cases hd : d < 0
  · simp only [hd, decide_true, if_true] at h1 h2 ⊢
    have hs : Sorted ((i.st :: o.sent).map ofSt).reverse := by
      unfold Sorted
      rw [List.pairwise_reverse, List.pairwise_map, List.pairwise_cons]
      constructor
      · intro s hs
        have := (h2 s hs).1
        simp [After, dirn, ofSt] at *; omega
      · rw [List.pairwise_map] at h1
        exact h1.imp (fun {a b} hab => by simp [After, dirn, ofSt] at *; omega)
    have := withTraj_eq delivered _ (ofSt i.st) hs (hp.trans (List.reverse_perm _).symm)
    exact ⟨this, by rw [this]; exact hs⟩
  · simp only [hd, decide_false, if_false] at h1 h2 ⊢
    have hs : Sorted ((i.st :: o.sent).map ofSt) := by
      unfold Sorted
      rw [List.pairwise_map, List.pairwise_cons]
      constructor
      · intro s hs
        have := (h2 s hs).1
        simp [After, dirn, ofSt] at *; omega
      · rw [List.pairwise_map] at h1
        exact h1.imp (fun {a b} hab => by simp [After, dirn, ofSt] at *; omega)
    have := withTraj_eq delivered _ (ofSt i.st) hs hp
    exact ⟨this, by rw [this]; exact hs⟩

example : withTraj [⟨20, 'c'⟩, ⟨25, 'd'⟩, ⟨10, 'b'⟩] ⟨0, 'a'⟩ =
    [⟨0, 'a'⟩, ⟨10, 'b'⟩, ⟨20, 'c'⟩, ⟨25, 'd'⟩] :=
  withTraj_eq _ _ _ (by simp [Sorted])
    (by decide)

/-! ## C16 -/

theorem window_in_range (len idx : Nat) (_h0 : 0 < idx) (h1 : idx < len) :
    (window len idx).1 ≤ idx ∧ idx < (window len idx).2 ∧ (window len idx).2 ≤ len ∧
    (window len idx).2 - (window len idx).1 ≤ 13 ∧
    ((window len idx).1 ≤ idx - 1 ∨ (len = 13 ∧ idx = 1)) := by
  unfold window samples
  simp only
  split <;> simp only <;> omega

/-- The strictly sorted epochs make a missing epoch's insertion point interior. -/
theorem at_spec (search : List Int → Int → Except Nat Nat)
    (interp : TS X → Int → List (TS X) → Except E (TS X)) (l : List (TS X)) (epoch : Int)
    (hs : SearchOk (l.map TS.epoch) epoch (search (l.map TS.epoch) epoch)) :
    (at_ search interp l epoch = .err .noData ∧
        (l = [] ∨ (∃ f, l.head? = some f ∧ epoch < f.epoch) ∨
          (∃ la, l.getLast? = some la ∧ la.epoch < epoch))) ∨
    (∃ s ∈ l, s.epoch = epoch ∧ at_ search interp l epoch = .ok s) ∨
    (∃ idx s, 0 < idx ∧ idx < l.length ∧ l[idx]? = some s ∧
      (∀ j t, j < idx → l[j]? = some t → t.epoch < epoch) ∧
      (∀ j t, idx ≤ j → l[j]? = some t → epoch < t.epoch) ∧
      at_ search interp l epoch =
        match interp s epoch ((l.drop (window l.length idx).1).take
          ((window l.length idx).2 - (window l.length idx).1)) with
        | .ok r => .ok r
        | .error e => .err (.interp e)) := by
  cases l with
  | nil => left; exact ⟨rfl, Or.inl rfl⟩
  | cons a l =>
    obtain ⟨la, hla⟩ : ∃ la, (a :: l).getLast? = some la :=
      ⟨_, List.getLast?_eq_some_getLast (by simp)⟩
    have hhead : (a :: l).head? = some a := rfl
    by_cases hout : a.epoch > epoch ∨ la.epoch < epoch
    · left
      refine ⟨?_, ?_⟩
      · unfold at_; rw [hhead, hla]; simp only; rw [if_pos hout]
      · rcases hout with h | h
        · exact Or.inr (Or.inl ⟨a, rfl, h⟩)
        · exact Or.inr (Or.inr ⟨la, hla, h⟩)
    · right
      have hunf : at_ search interp (a :: l) epoch =
        (match search ((a :: l).map TS.epoch) epoch with
      | .ok idx => match (a :: l)[idx]? with
        | some s => .ok s
        | none => .panic
      | .error idx =>
        if idx = 0 ∨ idx ≥ (a :: l).length then .err .noData
        else
          let w := window (a :: l).length idx
          if w.2 < w.1 then .panic
          else match slice? (a :: l) w.1 w.2, (a :: l)[idx]? with
            | some states, some s => match interp s epoch states with
              | .ok r => .ok r
              | .error e => .err (.interp e)
            | _, _ => .panic) := by
        unfold at_; rw [hhead, hla]; simp only; rw [if_neg hout]; rfl
      rw [hunf]
      generalize hr : search ((a :: l).map TS.epoch) epoch = r at hs ⊢
      cases r with
      | ok idx =>
        left
        simp only [SearchOk, List.getElem?_map, Option.map_eq_some_iff] at hs
        obtain ⟨s, h1, h2⟩ := hs
        refine ⟨s, List.mem_of_getElem? h1, h2, ?_⟩
        simp only [h1]
      | error idx =>
        right
        obtain ⟨h1, h2, h3⟩ := hs
        rw [List.length_map] at h1
        have h2' : ∀ j t, j < idx → (a :: l)[j]? = some t → t.epoch < epoch := by
          intro j t hj ht
          exact h2 j _ hj (by rw [List.getElem?_map, ht]; rfl)
        have h3' : ∀ j t, idx ≤ j → (a :: l)[j]? = some t → epoch < t.epoch := by
          intro j t hj ht
          exact h3 j _ hj (by rw [List.getElem?_map, ht]; rfl)
        have hpos : 0 < idx := by
          rcases Nat.eq_zero_or_pos idx with h0 | h0
          · have := h3' 0 a (by omega) rfl; omega
          · exact h0
        have hlt : idx < (a :: l).length := by
          rcases Nat.lt_or_ge idx (a :: l).length with h0 | h0
          · exact h0
          · have hlast : (a :: l)[(a :: l).length - 1]? = some la := by
              rw [← List.getLast?_eq_getElem?]; exact hla
            have := h2' _ la (by simp at *; omega) hlast
            omega
        obtain ⟨w1, w2, w3, _, _⟩ := window_in_range _ _ hpos hlt
        refine ⟨idx, (a :: l)[idx], hpos, hlt, List.getElem?_eq_getElem hlt, h2', h3', ?_⟩
        simp only
        rw [if_neg (by omega), if_neg (by omega)]
        unfold slice?
        rw [if_pos w3, List.getElem?_eq_getElem hlt]

/-- **C16 (safety).** Whatever the trajectory (sorted or not), `at` never indexes out of bounds,
given a search that meets the documented contract on it. -/
theorem at_never_panics (search : List Int → Int → Except Nat Nat)
    (interp : TS X → Int → List (TS X) → Except E (TS X)) (l : List (TS X)) (epoch : Int)
    (hs : SearchOk (l.map TS.epoch) epoch (search (l.map TS.epoch) epoch)) :
    at_ search interp l epoch ≠ .panic := by
  rcases at_spec search interp l epoch hs with ⟨h, _⟩ | ⟨s, _, _, h⟩ | ⟨idx, s, _, _, _, _, _, h⟩
  · rw [h]; simp
  · rw [h]; simp
  · rw [h]; split <;> simp

/-- **C16 (stored).** On a strictly sorted trajectory, asking for a stored epoch returns exactly the
stored state, whatever the interpolation does. -/
theorem at_stored (search : List Int → Int → Except Nat Nat)
    (interp : TS X → Int → List (TS X) → Except E (TS X)) (l : List (TS X)) (s : TS X)
    (hsort : Sorted l) (hmem : s ∈ l)
    (hs : SearchOk (l.map TS.epoch) s.epoch (search (l.map TS.epoch) s.epoch)) :
    at_ search interp l s.epoch = .ok s := by
  rcases at_spec search interp l s.epoch hs with ⟨_, h⟩ | ⟨t, ht, he, h⟩ | ⟨idx, t, h0, h1, ht, ha, hb, _⟩
  · exfalso
    rcases h with h | ⟨f, hf, hlt⟩ | ⟨la, hla, hlt⟩
    · subst h; simp at hmem
    · cases l with
      | nil => simp at hmem
      | cons a l =>
        simp only [List.head?_cons, Option.some.injEq] at hf
        subst hf
        rcases List.mem_cons.mp hmem with rfl | hm
        · omega
        · have := (List.pairwise_cons.mp hsort).1 s hm; omega
    · have hl := List.getLast?_eq_some_iff.mp hla
      obtain ⟨l', rfl⟩ := hl
      rcases List.mem_append.mp hmem with hm | hm
      · have := (List.pairwise_append.mp hsort).2.2 s hm la (by simp); omega
      · simp only [List.mem_singleton] at hm; subst hm; omega
  · rw [h, strict_nodup_inj hsort t ht s hmem he]
  · exfalso
    obtain ⟨j, hj, hje⟩ := List.getElem_of_mem hmem
    have hje' : l[j]? = some s := by rw [List.getElem?_eq_getElem hj, hje]
    rcases Nat.lt_or_ge j idx with h | h
    · have := ha j s h hje'; omega
    · have := hb j s h hje'; omega

/-- **C16 (out of range).** Outside the span of a strictly sorted trajectory (or on an empty one) `at`
returns the missing data error. -/
theorem at_outside (search : List Int → Int → Except Nat Nat)
    (interp : TS X → Int → List (TS X) → Except E (TS X)) (l : List (TS X)) (epoch : Int)
    (hout : l = [] ∨ (∃ f, l.head? = some f ∧ epoch < f.epoch) ∨
      (∃ la, l.getLast? = some la ∧ la.epoch < epoch)) :
    at_ search interp l epoch = .err .noData := by
  cases l with
  | nil => rfl
  | cons a l =>
    obtain ⟨la, hla⟩ : ∃ la, (a :: l).getLast? = some la :=
      ⟨_, List.getLast?_eq_some_getLast (by simp)⟩
    unfold at_
    rw [hla]
    simp only [List.head?_cons]
    rw [if_pos]
    rcases hout with h | ⟨f, hf, h⟩ | ⟨la', hla', h⟩
    · simp at h
    · simp only [List.head?_cons, Option.some.injEq] at hf; subst hf; exact Or.inl h
    · rw [hla] at hla'; simp only [Option.some.injEq] at hla'; subst hla'; exact Or.inr h

/-- **C16 (bracketing, partial).** Inside the span and not at a stored epoch, `at` interpolates from
a contiguous window of at most 13 stored states that contains the next stored state; it also contains the
previous stored state, unless the trajectory has exactly 13 states and the epoch is between the first two.
Missing: that last case, refuted below. -/
theorem at_brackets_partial (search : List Int → Int → Except Nat Nat)
    (interp : TS X → Int → List (TS X) → Except E (TS X)) (l : List (TS X)) (epoch : Int)
    (hs : SearchOk (l.map TS.epoch) epoch (search (l.map TS.epoch) epoch))
    (hin : ∃ f la, l.head? = some f ∧ l.getLast? = some la ∧ f.epoch ≤ epoch ∧ epoch ≤ la.epoch)
    (hnot : ∀ s ∈ l, s.epoch ≠ epoch) :
    ∃ prev next win, (∃ idx, l[idx]? = some prev ∧ l[idx + 1]? = some next) ∧
      prev.epoch < epoch ∧ epoch < next.epoch ∧
      (∃ a b, l = a ++ win ++ b) ∧ win.length ≤ 13 ∧ next ∈ win ∧
      (prev ∈ win ∨ (l.length = 13 ∧ l[0]? = some prev)) ∧
      at_ search interp l epoch = match interp next epoch win with
        | .ok r => .ok r
        | .error e => .err (.interp e) := by
  rcases at_spec search interp l epoch hs with ⟨_, h⟩ | ⟨t, ht, he, h⟩ | ⟨idx, t, h0, h1, ht, ha, hb, hat⟩
  · exfalso
    obtain ⟨f, la, hf, hla, h1, h2⟩ := hin
    rcases h with h | ⟨f', hf', hlt⟩ | ⟨la', hla', hlt⟩
    · subst h; simp at hf
    · rw [hf] at hf'; simp only [Option.some.injEq] at hf'; subst hf'; omega
    · rw [hla] at hla'; simp only [Option.some.injEq] at hla'; subst hla'; omega
  · exact absurd he (hnot t ht)
  · obtain ⟨w1, w2, w3, w4, w5⟩ := window_in_range _ _ h0 h1
    have hprev : l[idx - 1]? = some l[idx - 1] := List.getElem?_eq_getElem (by omega)
    generalize hwf : (window l.length idx).1 = wf at *
    generalize hwl : (window l.length idx).2 = wl at *
    have hmem : ∀ j, wf ≤ j → j < wl → ∀ s, l[j]? = some s → s ∈ (l.drop wf).take (wl - wf) := by
      intro j hj1 hj2 s hs
      have : ((l.drop wf).take (wl - wf))[j - wf]? = some s := by
        rw [List.getElem?_take, if_pos (by omega), List.getElem?_drop]
        rw [show wf + (j - wf) = j by omega]; exact hs
      exact List.mem_of_getElem? this
    refine ⟨l[idx - 1], t, (l.drop wf).take (wl - wf), ⟨idx - 1, hprev, ?_⟩, ?_, ?_, ?_, ?_, ?_, ?_, hat⟩
    · rw [show idx - 1 + 1 = idx by omega]; exact ht
    · exact ha (idx - 1) _ (by omega) hprev
    · exact hb idx t (le_refl _) ht
    · refine ⟨l.take wf, l.drop wl, ?_⟩
      rw [List.append_assoc]
      have : (l.drop wf).take (wl - wf) ++ l.drop wl = l.drop wf := by
        have := List.take_append_drop (wl - wf) (l.drop wf)
        rw [List.drop_drop, show wf + (wl - wf) = wl by omega] at this
        exact this
      rw [this, List.take_append_drop]
    · rw [List.length_take, List.length_drop]; omega
    · exact hmem idx w1 w2 t ht
    · rcases w5 with w5 | ⟨w5, w6⟩
      · left; exact hmem (idx - 1) w5 (by omega) _ hprev
      · right; refine ⟨w5, ?_⟩
        subst w6; simpa using hprev

/-- The linear search meets the contract on every strictly sorted list. -/
theorem linSearch_ok (l : List Int) (e : Int) (hl : l.Pairwise (· < ·)) :
    SearchOk l e (linSearch l e) := by
  unfold linSearch
  split
  · rename_i h
    simp only [SearchOk]
    exact List.getElem?_idxOf h
  · rename_i h
    simp only [SearchOk]
    induction hl with
    | nil => simp
    | @cons a l ha hp ih =>
      simp only [List.mem_cons, not_or] at h
      obtain ⟨i1, i2, i3⟩ := ih h.2
      by_cases hae : a < e
      · rw [List.filter_cons_of_pos (by simpa using hae)]
        refine ⟨by simp; omega, ?_, ?_⟩
        · intro j k hj hk
          cases j with
          | zero => simp at hk; omega
          | succ j => exact i2 j k (by simp at hj; omega) (by simpa using hk)
        · intro j k hj hk
          cases j with
          | zero => simp at hj
          | succ j => exact i3 j k (by simp at hj; omega) (by simpa using hk)
      · have hall : l.filter (fun x => decide (x < e)) = [] := by
          rw [List.filter_eq_nil_iff]
          intro x hx
          have := ha x hx
          simp; omega
        rw [List.filter_cons_of_neg (by simpa using hae), hall]
        refine ⟨by simp, by simp, ?_⟩
        intro j k _ hk
        cases j with
        | zero => simp at hk; omega
        | succ j =>
          have := ha k (List.mem_of_getElem? (by simpa using hk))
          omega

/-- **C16 refuted (bracketing).** A trajectory of exactly 13 states: for an epoch between the first
two states the window starts at the second state, so the value is extrapolated. -/
theorem at_brackets_false : window 13 1 = (1, 13) := by decide

/-- The same, through `at`: with 13 states at epochs 0, 10, …, 120, the interpolation at epoch 5 is
given only states at epochs 10 and later. -/
theorem at_extrapolates : ∃ (l : List (TS Unit)), Sorted l ∧ l.length = 13 ∧
    at_ linSearch (fun s _ win => if win.any (fun w => decide (w.epoch ≤ 5)) then Except.error ()
      else .ok s) l 5 = .ok ⟨10, ()⟩ := by
  refine ⟨(List.range 13).map (fun (k : Nat) => ⟨10 * (k : Int), ()⟩), ?_, rfl, ?_⟩
  · unfold Sorted
    simp only [show List.range 13 = [0,1,2,3,4,5,6,7,8,9,10,11,12] from rfl]
    simp
  · simp only [show List.range 13 = [0,1,2,3,4,5,6,7,8,9,10,11,12] from rfl]
    decide

example : Sorted ([⟨0, ()⟩, ⟨10, ()⟩, ⟨25, ()⟩] : List (TS Unit)) ∧
    SearchOk [0, 10, 25] 12 (linSearch [0, 10, 25] 12) :=
  ⟨by simp [Sorted], linSearch_ok _ _ (by simp)⟩

end Verif.Traj
