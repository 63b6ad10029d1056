/-!
Shared facts about stable sorting by an integer key (Rust `sort_by_key`) and removing adjacent
duplicates (Rust `dedup_by`). `List.mergeSort` is stable, as `sort_by_key` is.
-/
namespace Verif.Util

variable {α : Type}

/-- Rust `sort_by_key(|a| key(a))` (stable). -/
def sortBy (key : α → Int) (l : List α) : List α := l.mergeSort (fun a b => decide (key a ≤ key b))

/-- Rust `dedup_by(|a, b| key(a) == key(b))`: keeps the first of each run of equal keys. -/
def dedupBy (key : α → Int) : List α → List α
  | [] => []
  | [a] => [a]
  | a :: b :: l => if key a = key b then dedupBy key (a :: l) else a :: dedupBy key (b :: l)
termination_by l => l.length

theorem sortBy_perm (key : α → Int) (l : List α) : (sortBy key l).Perm l :=
  List.mergeSort_perm _ _

theorem sortBy_sorted (key : α → Int) (l : List α) :
    (sortBy key l).Pairwise (fun a b => key a ≤ key b) := by
  have := List.pairwise_mergeSort (le := fun a b : α => decide (key a ≤ key b))
    (by intro a b c h1 h2; simp at *; omega) (by intro a b; simp; omega) l
  simpa [sortBy] using this

theorem sortBy_of_sorted (key : α → Int) {l : List α}
    (h : l.Pairwise (fun a b => key a ≤ key b)) : sortBy key l = l :=
  List.mergeSort_of_pairwise (by simpa using h)

theorem strict_nodup_inj {key : α → Int} {l : List α}
    (h : l.Pairwise (fun a b => key a < key b)) :
    ∀ a ∈ l, ∀ b ∈ l, key a = key b → a = b := by
  induction h with
  | nil => simp
  | cons hx _ ih =>
    intro a ha b hb hab
    rcases List.mem_cons.mp ha with ha1 | ha1 <;> rcases List.mem_cons.mp hb with hb1 | hb1
    · rw [ha1, hb1]
    · have := hx b hb1; rw [← ha1] at this; omega
    · have := hx a ha1; rw [← hb1] at this; omega
    · exact ih a ha1 b hb1 hab

/-- Sorting any permutation of a strictly sorted list gives that list. -/
theorem sortBy_eq_of_perm (key : α → Int) {l l' : List α}
    (h : l.Pairwise (fun a b => key a < key b)) (hp : l'.Perm l) : sortBy key l' = l := by
  refine List.Perm.eq_of_pairwise (le := fun a b => key a ≤ key b) ?_ (sortBy_sorted key l')
    (h.imp (fun {a b} hab => by omega)) ((sortBy_perm key l').trans hp)
  intro a b ha hb h1 h2
  have hb' : b ∈ l := hb
  have ha' : a ∈ l := hp.mem_iff.mp ((sortBy_perm key l').mem_iff.mp ha)
  exact strict_nodup_inj h a ha' b hb' (by omega)

theorem dedupBy_sublist (key : α → Int) (l : List α) : (dedupBy key l).Sublist l := by
  fun_induction dedupBy key l with
  | case1 => exact List.Sublist.refl _
  | case2 => exact List.Sublist.refl _
  | case3 a b l h ih =>
    exact ih.trans (List.Sublist.cons_cons a (List.sublist_cons_self b l))
  | case4 a b l h ih => exact List.Sublist.cons_cons a ih

theorem dedupBy_keys (key : α → Int) (l : List α) (k : Int) :
    k ∈ (dedupBy key l).map key ↔ k ∈ l.map key := by
  fun_induction dedupBy key l with
  | case1 => simp
  | case2 => simp
  | case3 a b l h ih => rw [ih]; simp [h]
  | case4 a b l h ih => simp only [List.map_cons, List.mem_cons] at ih ⊢; rw [ih]

theorem dedupBy_of_nodup (key : α → Int) {l : List α} (h : (l.map key).Nodup) :
    dedupBy key l = l := by
  fun_induction dedupBy key l with
  | case1 => rfl
  | case2 => rfl
  | case3 a b l hk ih => simp [hk] at h
  | case4 a b l hk ih =>
    rw [ih]
    rw [List.map_cons, List.nodup_cons] at h
    exact h.2

/-- No two neighbours of the result have the same key. -/
theorem dedupBy_head? (key : α → Int) (a : α) (l : List α) :
    (dedupBy key (a :: l)).head? = some a := by
  generalize hn : l.length = n
  induction n generalizing l with
  | zero =>
    have : l = [] := List.eq_nil_of_length_eq_zero hn
    subst this; simp [dedupBy]
  | succ n ih =>
    cases l with
    | nil => simp at hn
    | cons b l =>
      rw [dedupBy]
      split
      · exact ih l (by simpa using hn)
      · simp

end Verif.Util
