import Verif.Rk.Stages
import Mathlib.Algebra.Order.BigOperators.Group.Finset
import Mathlib.Tactic.Ring
import Mathlib.Tactic.FieldSimp
import Mathlib.Tactic.Linarith
import Mathlib.Tactic.Module
/-!
C210: the rooted trees which index the conditions of order of a Runge Kutta method, and the check of these
conditions for the shipped tables.

A forest is an ordered list of rooted trees, a tree is a root above a forest, so that one type is enough: `cons c r` is
the forest whose first tree has the branches `c`, followed by the trees of `r`.
-/
namespace Verif.Rk
open Finset

/-- Ordered forests of rooted trees. -/
inductive Forest where
  | nil
  | cons (c r : Forest)
  deriving DecidableEq

namespace Forest

/-- Number of nodes. The tree above the forest `r` has `r.ord + 1` nodes. -/
def ord : Forest → Nat
  | nil => 0
  | cons c r => c.ord + 1 + r.ord

/-- Product of the densities of the trees. The tree above the forest `r` has the density `(r.ord + 1) * r.gam`. -/
def gam : Forest → Nat
  | nil => 1
  | cons c r => (c.ord + 1) * c.gam * r.gam

/-- Product of the weights of the trees seen from stage `i`. -/
def ph (t : Tab) : Forest → Nat → ℚ
  | nil, _ => 1
  | cons c r, i => (∑ j ∈ range i, t.a i j * ph t c j) * ph t r i

theorem gam_pos : ∀ r : Forest, 0 < r.gam
  | nil => by simp [gam]
  | cons c r => by
    have := gam_pos c
    have := gam_pos r
    rw [gam]
    positivity

/-- Number of nodes of the first tree. -/
def lead : Forest → Nat
  | nil => 0
  | cons c _ => c.ord + 1

/-- Insertion of a tree, by decreasing number of nodes. -/
def ins (c : Forest) : Forest → Forest
  | nil => cons c nil
  | cons d r => if d.ord ≤ c.ord then cons c (cons d r) else cons d (ins c r)

/-- The trees in decreasing order, at every level. -/
def norm : Forest → Forest
  | nil => nil
  | cons c r => ins (norm c) (norm r)

/-- What `norm` gives. -/
def Sorted : Forest → Prop
  | nil => True
  | cons c r => c.Sorted ∧ r.Sorted ∧ r.lead ≤ c.ord + 1

theorem ins_ord (c : Forest) : ∀ r, (ins c r).ord = c.ord + 1 + r.ord
  | nil => rfl
  | cons d r => by
    rw [ins]
    split
    · rfl
    · rw [ord, ins_ord c r, ord]; omega

theorem ins_gam (c : Forest) : ∀ r, (ins c r).gam = (c.ord + 1) * c.gam * r.gam
  | nil => rfl
  | cons d r => by
    rw [ins]
    split
    · rfl
    · rw [gam, ins_gam c r, gam]; ring

theorem ins_ph (t : Tab) (c : Forest) (i : Nat) : ∀ r, (ins c r).ph t i = (cons c r).ph t i
  | nil => rfl
  | cons d r => by
    rw [ins]
    split
    · rfl
    · rw [ph, ins_ph t c i r, ph, ph, ph]; ring

theorem ins_lead (c : Forest) : ∀ r, (ins c r).lead = max (c.ord + 1) r.lead
  | nil => by simp [ins, lead]
  | cons d r => by
    rw [ins]
    split
    · simp only [lead]; omega
    · simp only [lead]; omega

theorem ins_sorted (c : Forest) (hc : c.Sorted) : ∀ r : Forest, r.Sorted → (ins c r).Sorted
  | nil, _ => ⟨hc, trivial, Nat.zero_le _⟩
  | cons d r, h => by
    rw [ins]
    split
    · exact ⟨hc, h, by simp only [lead]; omega⟩
    · refine ⟨h.1, ins_sorted c hc r h.2.1, ?_⟩
      rw [ins_lead]
      have := h.2.2
      omega

theorem norm_ord : ∀ r : Forest, r.norm.ord = r.ord
  | nil => rfl
  | cons c r => by rw [norm, ins_ord, norm_ord c, norm_ord r, ord]

theorem norm_gam : ∀ r : Forest, r.norm.gam = r.gam
  | nil => rfl
  | cons c r => by rw [norm, ins_gam, norm_ord c, norm_gam c, norm_gam r, gam]

theorem norm_ph (t : Tab) : ∀ (r : Forest) (i : Nat), r.norm.ph t i = r.ph t i
  | nil, _ => rfl
  | cons c r, i => by
    rw [norm, ins_ph, ph, ph, norm_ph t r i]
    congr 1
    exact sum_congr rfl fun j _ => by rw [norm_ph t c j]

theorem norm_sorted : ∀ r : Forest, r.norm.Sorted
  | nil => trivial
  | cons c r => ins_sorted _ (norm_sorted c) _ (norm_sorted r)

end Forest

/-! ### Enumeration of the conditions -/

/-- Scalar product of two lists. -/
def dotl : List ℚ → List ℚ → ℚ
  | a :: as, b :: bs => (if a = 0 then 0 else a * b) + dotl as bs
  | _, _ => 0

/-- The rows of coefficients. -/
def rows (t : Tab) : List (List ℚ) := (List.range t.stages).map fun i => (List.range i).map fun j => t.a i j

/-- The weights at all stages, density and size of the first tree of the sorted forests of one more node than
the forests of the last list of `T`. -/
def nextE (R : List (List ℚ)) (T : List (List (List ℚ × Nat × Nat))) : List (List ℚ × Nat × Nat) :=
  (List.range T.length).flatMap fun k => (T.getD k []).flatMap fun c =>
    (T.getD (T.length - 1 - k) []).filterMap fun r =>
      if r.2.2 ≤ k + 1 then
        some (List.zipWith (· * ·) (R.map (dotl · c.1)) r.1, (k + 1) * c.2.1 * r.2.1, k + 1)
      else none

/-- The lists for the forests of `0, 1, …, n` nodes. -/
def tabE (t : Tab) (R : List (List ℚ)) : Nat → List (List (List ℚ × Nat × Nat))
  | 0 => [[(List.replicate t.stages 1, 1, 0)]]
  | n + 1 => tabE t R n ++ [nextE R (tabE t R n)]

/-- The conditions for the trees above the forests of `n` nodes. -/
def okE (w : List ℚ) (tol : ℚ) (n : Nat) (l : List (List ℚ × Nat × Nat)) : Bool :=
  l.all fun e => decide (|dotl w e.1 - 1 / ((n + 1) * e.2.1 : Nat)| ≤ tol)

/-- The conditions for the trees of at most `p + 1` nodes. -/
def checkE (t : Tab) (w : List ℚ) (p : Nat) (tol : ℚ) : Bool :=
  ((tabE t (rows t) p).zipIdx).all fun x => okE w tol x.2 x.1

/-- What is listed for a forest. -/
def entry (t : Tab) (r : Forest) : List ℚ × Nat × Nat := ((List.range t.stages).map (r.ph t), r.gam, r.lead)

theorem dotl_eq : ∀ l m : List ℚ, dotl l m = ∑ j ∈ range (min l.length m.length), l.getD j 0 * m.getD j 0
  | [], m => by simp [dotl]
  | a :: as, [] => by simp [dotl]
  | a :: as, b :: bs => by
    rw [dotl, dotl_eq as bs, List.length_cons, List.length_cons, Nat.succ_min_succ, sum_range_succ']
    simp only [List.getD_cons_succ, List.getD_cons_zero]
    split
    · rename_i h; rw [h]; ring
    · ring

theorem entry_getD (t : Tab) (r : Forest) (j : Nat) (hj : j < t.stages) : (entry t r).1.getD j 0 = r.ph t j := by
  simp [entry, List.getD, hj]

theorem entry_length (t : Tab) (r : Forest) : (entry t r).1.length = t.stages := by simp [entry]

/-- The entry of a forest from those of its parts. -/
theorem entry_cons (t : Tab) (c r : Forest) :
    entry t (.cons c r) = (List.zipWith (· * ·) ((rows t).map (dotl · (entry t c).1)) (entry t r).1,
      (c.ord + 1) * (entry t c).2.1 * (entry t r).2.1, c.ord + 1) := by
  refine Prod.ext ?_ rfl
  apply List.ext_getElem
  · simp [entry, rows]
  · intro i h1 h2
    have hi : i < t.stages := by simpa [entry] using h1
    simp only [entry, rows, List.getElem_map, List.getElem_range, List.getElem_zipWith, Forest.ph]
    congr 1
    rw [dotl_eq]
    simp only [List.length_map, List.length_range]
    rw [min_eq_left hi.le]
    refine sum_congr rfl fun j hj => ?_
    have hj := mem_range.1 hj
    have hj' : j < t.stages := hj.trans hi
    simp [List.getD, hj, hj']

theorem tabE_length (t : Tab) (R) : ∀ n, (tabE t R n).length = n + 1
  | 0 => rfl
  | n + 1 => by rw [tabE, List.length_append, tabE_length t R n]; rfl

/-- Every sorted forest is listed. -/
theorem entry_mem (t : Tab) : ∀ (n k : Nat), k ≤ n → ∀ r : Forest, r.ord = k → r.Sorted →
    entry t r ∈ (tabE t (rows t) n).getD k []
  | 0, k, hk, r, hr, _ => by
    have : k = 0 := by omega
    subst this
    cases r with
    | nil =>
      have : entry t .nil = (List.replicate t.stages 1, 1, 0) := by
        refine Prod.ext ?_ rfl
        apply List.ext_getElem
        · simp [entry]
        · intro i h1 h2; simp [entry, Forest.ph]
      rw [this]
      simp [tabE]
    | cons c r => simp only [Forest.ord] at hr; omega
  | n + 1, k, hk, r, hr, hs => by
    rw [tabE]
    by_cases hkn : k ≤ n
    · rw [List.getD_append _ _ _ _ (by rw [tabE_length]; omega)]
      exact entry_mem t n k hkn r hr hs
    · have hk' : k = n + 1 := by omega
      subst hk'
      rw [List.getD_append_right _ _ _ _ (by rw [tabE_length]), tabE_length, Nat.sub_self, List.getD_cons_zero]
      cases r with
      | nil => simp only [Forest.ord] at hr; omega
      | cons c r =>
        simp only [Forest.ord] at hr
        have h1 := entry_mem t n c.ord (by omega) c rfl hs.1
        have h2 := entry_mem t n r.ord (by omega) r rfl hs.2.1
        rw [nextE, tabE_length, List.mem_flatMap]
        refine ⟨c.ord, List.mem_range.2 (by omega), List.mem_flatMap.2 ⟨_, h1, List.mem_filterMap.2 ⟨entry t r, ?_, ?_⟩⟩⟩
        · rw [show n + 1 - 1 - c.ord = r.ord by omega]
          exact h2
        · rw [if_pos (show (entry t r).2.2 ≤ c.ord + 1 from hs.2.2), ← entry_cons]

/-- The check is what it claims. -/
theorem check_spec (t : Tab) (w : List ℚ) (hw : t.stages ≤ w.length) (p : Nat) (tol : ℚ) (h : checkE t w p tol = true) (r : Forest)
    (hr : r.ord ≤ p) : |(∑ i ∈ range t.stages, w.getD i 0 * r.ph t i) - 1 / (((r.ord + 1) * r.gam : Nat) : ℚ)| ≤ tol := by
  have hm := entry_mem t p r.ord hr r.norm (Forest.norm_ord r) (Forest.norm_sorted r)
  rw [checkE, List.all_eq_true] at h
  have hlen : r.ord < (tabE t (rows t) p).length := by rw [tabE_length]; omega
  have h1 := h ((tabE t (rows t) p)[r.ord], r.ord) (by
    rw [List.mem_zipIdx_iff_getElem?]
    exact List.getElem?_eq_getElem hlen)
  rw [List.getD_eq_getElem _ _ hlen] at hm
  rw [okE, List.all_eq_true] at h1
  have h2 := of_decide_eq_true (h1 _ hm)
  rw [dotl_eq, entry_length, min_eq_right hw] at h2
  have e : ∑ j ∈ range t.stages, w.getD j 0 * (entry t r.norm).1.getD j 0 = ∑ i ∈ range t.stages, w.getD i 0 * r.ph t i :=
    sum_congr rfl fun j hj => by rw [entry_getD t _ j (mem_range.1 hj), Forest.norm_ph]
  rw [e] at h2
  have e2 : (entry t r.norm).2.1 = r.gam := Forest.norm_gam r
  rw [e2] at h2
  exact h2

/-- Bound on the defects of the conditions: zero for the tables with exact coefficients. -/
def treeTol (m : Method) (tail : Bool) : ℚ :=
  match m with
  | .rungeKutta89 => if tail then 2 / 10 ^ 17 else 1 / 10 ^ 17
  | .dormandPrince78 => 1 / 10 ^ 17
  | _ => 0

set_option maxRecDepth 100000 in
theorem check_main (m : Method) : checkE m.tab m.tab.B (m.tab.order - 1) (treeTol m false) = true := by
  cases m <;> decide +kernel

/-- **C210 (conditions of order).** Every shipped table satisfies, up to the bound, the condition of order of every rooted tree which has at
most as many nodes as the order: the weight of the tree is the inverse of its density. -/
theorem tree_conditions (m : Method) (r : Forest) (hr : r.ord + 1 ≤ m.tab.order) :
    |(∑ i ∈ range m.tab.stages, m.tab.b i * r.ph m.tab i) - 1 / (((r.ord + 1) * r.gam : Nat) : ℚ)| ≤ treeTol m false :=
  check_spec m.tab m.tab.B (by cases m <;> decide) _ _ (check_main m) r (by omega)

/-- The order of the embedded formula: one less, but for the classical method, whose two formulas are the same. -/
def tailOrder : Method → Nat
  | .rungeKutta4 => 4
  | m => m.tab.order - 1

set_option maxRecDepth 100000 in
theorem check_tail (m : Method) : checkE m.tab (m.tab.B.drop m.tab.stages) (tailOrder m - 1) (treeTol m true) = true := by
  cases m <;> decide +kernel

/-- **C210 (conditions of order, embedded formula).** -/
theorem tail_conditions (m : Method) (r : Forest) (hr : r.ord + 1 ≤ tailOrder m) :
    |(∑ i ∈ range m.tab.stages, m.tab.b' i * r.ph m.tab i) - 1 / (((r.ord + 1) * r.gam : Nat) : ℚ)| ≤ treeTol m true := by
  have h := check_spec m.tab (m.tab.B.drop m.tab.stages) (by cases m <;> decide) _ _ (check_tail m) r (by omega)
  have e : ∀ i, (m.tab.B.drop m.tab.stages).getD i 0 = m.tab.b' i := fun i => by
    rw [Tab.b', List.getD, List.getD, List.getElem?_drop, Nat.add_comm]
  simp only [e] at h
  exact h

end Verif.Rk
