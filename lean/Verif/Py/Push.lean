import Verif.Traj.Theorems
/-!
C228: adding states to a trajectory in the Python interface, `Trajectory.push` and `Trajectory.append`
(nyx-py/src/py_md.rs:408-419).
-/
namespace Verif.Py
open Verif.Util Verif.Traj

variable {X : Type}

/-- `push`. nyx-py/src/py_md.rs:408-411. -/
def push (states : List (TS X)) (s : TS X) : List (TS X) := finalize (states ++ [s])

/-- `append`. nyx-py/src/py_md.rs:414-419. -/
def append (states new : List (TS X)) : List (TS X) := finalize (states ++ new)

/-- The search of `at` keeps the contract of `binary_search_by`, on lists sorted by epoch (repeated epochs allowed). -/
def SearchesAll (search : List Int → Int → Except Nat Nat) : Prop :=
  ∀ (l : List Int) (e : Int), l.Pairwise (· ≤ ·) → SearchOk l e (search l e)

/-- **C228 (partial).** States with new and different epochs: appended to a trajectory of increasing epochs, the result has
increasing epochs, exactly the old and the new states, and `at` returns each of them at its epoch.
Missing: an epoch already in the trajectory, refuted below. -/
theorem append_partial {Er : Type} (search : List Int → Int → Except Nat Nat) (hs : SearchesAll search)
    (interp : TS X → Int → List (TS X) → Except Er (TS X)) (states new : List (TS X))
    (hn : ((states ++ new).map TS.epoch).Nodup) :
    Sorted (append states new) ∧ (∀ x, x ∈ append states new ↔ x ∈ states ∨ x ∈ new) ∧
    (∀ x, x ∈ states ∨ x ∈ new → at_ search interp (append states new) x.epoch = .ok x) := by
  obtain ⟨h1, -, -, h4⟩ := finalize_sorted_complete_partial (states ++ new)
  have hp := h4 hn
  have hsort : Sorted (append states new) := by
    have hn' : ((append states new).map TS.epoch).Nodup := ((hp.map TS.epoch).nodup_iff).2 hn
    rw [List.nodup_iff_pairwise_ne, List.pairwise_map] at hn'
    exact (h1.and hn').imp fun {a b} h => by omega
  have hmem : ∀ x, x ∈ append states new ↔ x ∈ states ∨ x ∈ new := fun x => by
    rw [← List.mem_append]
    exact hp.mem_iff
  refine ⟨hsort, hmem, fun x hx => ?_⟩
  refine at_stored search interp _ x hsort ((hmem x).2 hx) (hs _ _ ?_)
  rw [List.pairwise_map]
  exact hsort.imp fun h => le_of_lt h

/-- `push` is `append` of one state. -/
theorem push_eq (states : List (TS X)) (s : TS X) : push states s = append states [s] := rfl

theorem dedupBy_snoc_last {α : Type} (key : α → Int) (a b : α) (hk : key a = key b) : ∀ l : List α,
    dedupBy key (l ++ [a, b]) = dedupBy key (l ++ [a]) := by
  intro l
  generalize hn : l.length = n
  induction n generalizing l with
  | zero =>
    have : l = [] := List.eq_nil_of_length_eq_zero hn
    subst this
    simp [dedupBy, hk]
  | succ n ih =>
    cases l with
    | nil => simp at hn
    | cons x l =>
      cases l with
      | nil =>
        simp only [List.cons_append, List.nil_append]
        by_cases h : key x = key a
        · have : key x = key b := by omega
          simp [dedupBy, h, hk]
        · have : ¬ key x = key b := by omega
          simp [dedupBy, hk, this]
      | cons y l =>
        simp only [List.cons_append]
        rw [dedupBy, dedupBy]
        by_cases h : key x = key y
        · rw [if_pos h, if_pos h]
          exact ih (x :: l) (by simpa using hn)
        · rw [if_neg h, if_neg h]
          congr 1
          exact ih (y :: l) (by simpa using hn)

/-- **C228 refuted (last epoch).** A state pushed at the epoch of the last state of any trajectory of increasing epochs is
dropped: the trajectory is unchanged. -/
theorem push_last_lost (states : List (TS X)) (a s : TS X) (h : Sorted (states ++ [a])) (he : a.epoch = s.epoch) :
    push (states ++ [a]) s = states ++ [a] := by
  have h0 := finalize_idem_of_sorted _ h
  unfold push finalize at *
  rw [List.append_assoc, List.singleton_append, dedupBy_snoc_last TS.epoch a s he]
  exact h0

/-- **C228 refuted (other epoch).** A state pushed at the epoch of another state of a trajectory of increasing epochs is kept
beside the old one: the epochs are not distinct any more, and a search that keeps the contract may still return the old. -/
theorem push_duplicates : ∃ (states : List (TS Nat)) (s old : TS Nat), Sorted states ∧ old ∈ states ∧ old.epoch = s.epoch ∧
    old ≠ s ∧ s ∈ push states s ∧ old ∈ push states s ∧ ¬ Sorted (push states s) ∧
    ∃ search, SearchOk ((push states s).map TS.epoch) s.epoch (search ((push states s).map TS.epoch) s.epoch) ∧
      ∀ {Er : Type} (interp : TS Nat → Int → List (TS Nat) → Except Er (TS Nat)),
        at_ search interp (push states s) s.epoch = .ok old := by
  have hp : push [⟨10, 0⟩, ⟨20, 1⟩] ⟨10, 5⟩ = ([⟨10, 0⟩, ⟨10, 5⟩, ⟨20, 1⟩] : List (TS Nat)) := by
    simp [push, finalize, dedupBy, sortBy, List.mergeSort, List.MergeSort.Internal.splitInTwo, List.merge]
  refine ⟨[⟨10, 0⟩, ⟨20, 1⟩], ⟨10, 5⟩, ⟨10, 0⟩, by simp [Sorted], by simp, rfl, by simp, ?_, ?_, ?_, linSearch, ?_, ?_⟩
  · rw [hp]; simp
  · rw [hp]; simp
  · rw [hp]; simp [Sorted]
  · rw [hp]
    show SearchOk [10, 10, 20] 10 (linSearch [10, 10, 20] 10)
    simp [linSearch, SearchOk]
  · intro Er interp
    rw [hp]
    simp [at_, linSearch]

example : Sorted ([⟨10, 'a'⟩, ⟨20, 'b'⟩] ++ [⟨30, 'c'⟩] : List (TS Char)) ∧
    (([⟨10, 'a'⟩, ⟨20, 'b'⟩] ++ [⟨15, 'd'⟩, ⟨5, 'e'⟩] : List (TS Char)).map TS.epoch).Nodup := by
  constructor
  · simp [Sorted]
  · decide

/-- A state of a new epoch joins two others; one of the epoch of the last state is dropped. -/
example := push_last_lost [⟨10, 'a'⟩, ⟨20, 'b'⟩] (⟨30, 'c'⟩ : TS Char) ⟨30, 'd'⟩ (by simp [Sorted]) rfl

end Verif.Py
