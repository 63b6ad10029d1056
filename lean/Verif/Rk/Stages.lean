import Verif.Rk.Model
import Mathlib.Algebra.Module.LinearMap.Basic
import Mathlib.Algebra.BigOperators.Module
import Mathlib.Algebra.Module.BigOperators
import Mathlib.Algebra.BigOperators.Intervals
import Mathlib.Data.List.GetD
import Mathlib.Tactic.Ring
import Mathlib.Tactic.Abel
import Mathlib.Tactic.Linarith
/-!
What one step computes, in terms of the table: the loops of `derive` evaluate the usual formulas.
-/
namespace Verif.Rk

open Finset

/-- Entry `a_ij` of the table, for `j < i`. -/
def Tab.a (t : Tab) (i j : Nat) : ℚ := t.A.getD (i * (i - 1) / 2 + j) 0

/-- Weight of stage `i`. -/
def Tab.b (t : Tab) (i : Nat) : ℚ := t.B.getD i 0

/-- Weight of stage `i` in the embedded formula. -/
def Tab.b' (t : Tab) (i : Nat) : ℚ := t.B.getD (i + t.stages) 0

/-- Node of stage `i`. -/
def Tab.c (t : Tab) (i : Nat) : ℚ := ((List.range i).map fun j => t.a i j).sum

theorem sum_range_list {M : Type} [AddCommMonoid M] (n : Nat) (g : Nat → M) :
    ((List.range n).map g).sum = ∑ i ∈ range n, g i := rfl

theorem Res.bind_eq_ok {α β : Type} {r : Res α} {f : α → Res β} {b : β} :
    r.bind f = .ok b ↔ ∃ a, r = .ok a ∧ f a = .ok b := by
  cases r <;> simp [Res.bind]

/-- The table has the lengths that the loops expect. -/
def Tab.Shaped (t : Tab) : Prop :=
  1 ≤ t.stages ∧ t.A.length = t.stages * (t.stages - 1) / 2 ∧ t.B.length = 2 * t.stages

instance (t : Tab) : Decidable t.Shaped := by unfold Tab.Shaped; infer_instance

variable {V : Type} [AddCommGroup V] [Module ℚ V]

theorem inner_ok (A : List ℚ) : ∀ (ks : List V) (ci : ℚ) (wi : V) (idx : Nat) (r : ℚ × V × Nat),
    inner A ks (ci, wi, idx) = .ok r →
      r.1 = ci + ∑ j ∈ range ks.length, A.getD (idx + j) 0 ∧
      r.2.1 = wi + ∑ j ∈ range ks.length, A.getD (idx + j) 0 • ks.getD j 0 ∧
      r.2.2 = idx + ks.length := by
  intro ks
  induction ks with
  | nil =>
    intro ci wi idx r h
    simp only [inner, Res.ok.injEq] at h
    subst h
    simp
  | cons k ks ih =>
    intro ci wi idx r h
    unfold inner at h
    simp only at h
    cases ha : A[idx]? with
    | none => rw [ha] at h; cases h
    | some a =>
      rw [ha] at h
      simp only at h
      obtain ⟨h1, h2, h3⟩ := ih _ _ _ _ h
      have hd : A.getD idx 0 = a := by rw [List.getD_eq_getElem?_getD, ha]; rfl
      refine ⟨?_, ?_, by rw [h3, List.length_cons]; omega⟩
      · rw [h1, List.length_cons, sum_range_succ', add_zero, hd,
          sum_congr rfl fun j _ => by rw [show idx + 1 + j = idx + (j + 1) by omega]]
        abel
      · rw [h2, List.length_cons, sum_range_succ', add_zero, hd,
          sum_congr rfl fun j _ => by rw [show idx + 1 + j = idx + (j + 1) by omega]]
        simp only [List.getD_cons_succ, List.getD_cons_zero]
        abel

theorem inner_total (A : List ℚ) : ∀ (ks : List V) (ci : ℚ) (wi : V) (idx : Nat),
    idx + ks.length ≤ A.length → ∃ r, inner A ks (ci, wi, idx) = .ok r := by
  intro ks
  induction ks with
  | nil => intro ci wi idx _; exact ⟨_, rfl⟩
  | cons k ks ih =>
    intro ci wi idx h
    rw [List.length_cons] at h
    unfold inner
    simp only
    rw [List.getElem?_eq_getElem (by omega)]
    exact ih _ _ _ (by omega)

theorem tri (i : Nat) : i * (i - 1) / 2 + i = (i + 1) * i / 2 := by
  cases i with
  | zero => rfl
  | succ n =>
    simp only [Nat.add_sub_cancel]
    have h1 : (n + 1 + 1) * (n + 1) = (n + 1) * n + 2 * (n + 1) := by ring
    rw [h1]
    omega

/-- The stages known so far are right. -/
def StagesOk (t : Tab) (f : Eom V) (x : V) (h : ℚ) (ks : List V) : Prop :=
  ∀ i < ks.length, f (t.c i * h) (x + h • ∑ j ∈ range i, t.a i j • ks.getD j 0) = some (ks.getD i 0)

theorem stageLoop_ok (t : Tab) (f : Eom V) (x : V) (h : ℚ) : ∀ (n : Nat) (ks out : List V),
    StagesOk t f x h ks →
    stageLoop t.A f x h n ks (ks.length * (ks.length - 1) / 2) = .ok out →
    out.length = ks.length + n ∧ StagesOk t f x h out := by
  intro n
  induction n with
  | zero =>
    intro ks out hk hr
    simp only [stageLoop, Res.ok.injEq] at hr
    subst hr
    exact ⟨rfl, hk⟩
  | succ n ih =>
    intro ks out hk hr
    unfold stageLoop at hr
    obtain ⟨r, h1, h2⟩ := Res.bind_eq_ok.1 hr
    obtain ⟨e1, e2, e3⟩ := inner_ok _ _ _ _ _ _ h1
    cases hf : f (r.1 * h) (x + h • r.2.1) with
    | none => simp only [hf] at h2; cases h2
    | some k =>
      simp only [hf] at h2
      rw [e3, tri] at h2
      have hlen : (ks ++ [k]).length = ks.length + 1 := by simp
      have hidx : (ks.length + 1) * ks.length / 2 =
          (ks ++ [k]).length * ((ks ++ [k]).length - 1) / 2 := by rw [hlen, Nat.add_sub_cancel]
      rw [hidx] at h2
      have hok : StagesOk t f x h (ks ++ [k]) := by
        intro i hi
        rw [hlen] at hi
        have hget : ∀ j < ks.length, (ks ++ [k]).getD j 0 = ks.getD j 0 := by
          intro j hj
          rw [List.getD_append _ _ _ _ hj]
        rcases Nat.lt_succ_iff_lt_or_eq.1 hi with hi | hi
        · rw [hget i hi, ← hk i hi]
          congr 3
          refine sum_congr rfl fun j hj => ?_
          rw [hget j (lt_trans (mem_range.1 hj) hi)]
        · subst hi
          rw [List.getD_append_right _ _ _ _ (le_refl _), Nat.sub_self, List.getD_cons_zero, ← hf,
            e1, e2, zero_add, zero_add]
          congr 3
          refine sum_congr rfl fun j hj => ?_
          rw [hget j (mem_range.1 hj)]
          rfl
      obtain ⟨l1, l2⟩ := ih _ _ hok h2
      exact ⟨by rw [l1, hlen]; omega, l2⟩

theorem finish_ok (t : Tab) (fixed : Bool) (h : ℚ) : ∀ (ks : List V) (i : Nat) (p e : V) (r : V × V),
    finish t.B t.stages fixed h ks i (p, e) = .ok r →
      r.1 = p + h • ∑ j ∈ range ks.length, t.b (i + j) • ks.getD j 0 ∧
      r.2 = e + if fixed then 0 else
        h • ∑ j ∈ range ks.length, (t.b (i + j) - t.b' (i + j)) • ks.getD j 0 := by
  intro ks
  induction ks with
  | nil =>
    intro i p e r hr
    simp only [finish, Res.ok.injEq] at hr
    subst hr
    simp
  | cons k ks ih =>
    intro i p e r hr
    unfold finish at hr
    cases hb : t.B[i]? with
    | none => rw [hb] at hr; cases hr
    | some b =>
      rw [hb] at hr
      simp only at hr
      have hd : t.b i = b := by unfold Tab.b; rw [List.getD_eq_getElem?_getD, hb]; rfl
      have hs1 : ∑ j ∈ range (k :: ks).length, t.b (i + j) • (k :: ks).getD j 0 =
          b • k + ∑ j ∈ range ks.length, t.b (i + 1 + j) • ks.getD j 0 := by
        rw [List.length_cons, sum_range_succ', add_zero, hd, add_comm]
        congr 1
        exact sum_congr rfl fun j _ => by rw [show i + (j + 1) = i + 1 + j by omega]; rfl
      cases fixed with
      | true =>
        simp only [if_true] at hr ⊢
        obtain ⟨h1, h2⟩ := ih _ _ _ _ hr
        refine ⟨?_, by rw [h2]; simp⟩
        rw [h1, hs1, smul_add, smul_smul, add_assoc]
      | false =>
        simp only [Bool.false_eq_true, if_false] at hr ⊢
        cases hb' : t.B[i + t.stages]? with
        | none => rw [hb'] at hr; cases hr
        | some b' =>
          rw [hb'] at hr
          simp only at hr
          obtain ⟨h1, h2⟩ := ih _ _ _ _ hr
          have hd' : t.b' i = b' := by unfold Tab.b'; rw [List.getD_eq_getElem?_getD, hb']; rfl
          have hs2 : ∑ j ∈ range (k :: ks).length, (t.b (i + j) - t.b' (i + j)) • (k :: ks).getD j 0 =
              (b - b') • k + ∑ j ∈ range ks.length,
                (t.b (i + 1 + j) - t.b' (i + 1 + j)) • ks.getD j 0 := by
            rw [List.length_cons, sum_range_succ', add_zero, hd, hd', add_comm]
            congr 1
            exact sum_congr rfl fun j _ => by rw [show i + (j + 1) = i + 1 + j by omega]; rfl
          refine ⟨by rw [h1, hs1, smul_add, smul_smul, add_assoc], ?_⟩
          rw [h2]
          simp only [Bool.false_eq_true, if_false]
          rw [hs2, smul_add, smul_smul, add_assoc]

/-- What a step returns: the stages `K i` are the derivatives at the nodes, the next state is the sum
with the weights, the error estimate the difference of the two formulas. -/
theorem rkStep_ok (t : Tab) (hs : 1 ≤ t.stages) (f : Eom V) (fixed : Bool) (x : V) (h : ℚ)
    (next err : V) (hr : rkStep t f fixed x h = .ok (next, err)) :
    ∃ K : Nat → V,
      (∀ i < t.stages, f (t.c i * h) (x + h • ∑ j ∈ range i, t.a i j • K j) = some (K i)) ∧
      next = x + h • ∑ i ∈ range t.stages, t.b i • K i ∧
      err = if fixed then 0 else h • ∑ i ∈ range t.stages, (t.b i - t.b' i) • K i := by
  unfold rkStep at hr
  cases h0 : f 0 x with
  | none => rw [h0] at hr; cases hr
  | some k0 =>
    rw [h0] at hr
    simp only at hr
    obtain ⟨ks, h1, h2⟩ := Res.bind_eq_ok.1 hr
    obtain ⟨l1, l2⟩ := stageLoop_ok t f x h _ [k0] ks (by
      intro i hi
      simp only [List.length_cons, List.length_nil, zero_add, Nat.lt_one_iff] at hi
      subst hi
      simpa [Tab.c] using h0) (by simpa using h1)
    have hl : ks.length = t.stages := by
      rw [l1]
      simp only [List.length_cons, List.length_nil]
      omega
    obtain ⟨f1, f2⟩ := finish_ok t fixed h ks 0 x 0 _ h2
    rw [hl] at f1 f2
    simp only [zero_add] at f1 f2
    exact ⟨fun i => ks.getD i 0, fun i hi => l2 i (by omega), f1, f2⟩

theorem stageLoop_total (t : Tab) (f : Eom V) (hf : ∀ τ y, ∃ k, f τ y = some k) (x : V) (h : ℚ) :
    ∀ (n : Nat) (ks : List V) (idx : Nat), idx = ks.length * (ks.length - 1) / 2 →
      (ks.length + n) * (ks.length + n - 1) / 2 ≤ t.A.length →
      ∃ out, stageLoop t.A f x h n ks idx = .ok out ∧ out.length = ks.length + n := by
  intro n
  induction n with
  | zero => intro ks idx _ _; exact ⟨ks, rfl, rfl⟩
  | succ n ih =>
    intro ks idx hidx hle
    have hm : idx + ks.length ≤ t.A.length := by
      rw [hidx, tri]
      refine le_trans ?_ hle
      apply Nat.div_le_div_right
      exact Nat.mul_le_mul (by omega) (by omega)
    obtain ⟨r, h1⟩ := inner_total t.A ks 0 (0 : V) idx hm
    obtain ⟨-, -, e3⟩ := inner_ok _ _ _ _ _ _ h1
    obtain ⟨k, hk⟩ := hf (r.1 * h) (x + h • r.2.1)
    have hlen : (ks ++ [k]).length = ks.length + 1 := by simp
    obtain ⟨out, h2, h3⟩ := ih (ks ++ [k]) r.2.2 (by
      rw [e3, hidx, tri, hlen, Nat.add_sub_cancel]) (by
      rw [hlen]
      rw [show ks.length + 1 + n = ks.length + (n + 1) by omega]
      exact hle)
    refine ⟨out, ?_, by rw [h3, hlen]; omega⟩
    unfold stageLoop
    rw [h1]
    simp only [Res.bind, hk]
    exact h2

theorem finish_total (t : Tab) (fixed : Bool) (h : ℚ) : ∀ (ks : List V) (i : Nat) (acc : V × V),
    i + ks.length + t.stages ≤ t.B.length → ∃ r, finish t.B t.stages fixed h ks i acc = .ok r := by
  intro ks
  induction ks with
  | nil => intro i acc _; exact ⟨acc, rfl⟩
  | cons k ks ih =>
    intro i acc hle
    rw [List.length_cons] at hle
    unfold finish
    rw [List.getElem?_eq_getElem (show i < t.B.length by omega),
      List.getElem?_eq_getElem (show i + t.stages < t.B.length by omega)]
    cases fixed with
    | true => exact ih _ _ (by omega)
    | false => exact ih _ _ (by omega)

/-- A table with the right lengths never indexes out of bounds. -/
theorem rkStep_total (t : Tab) (ht : t.Shaped) (f : Eom V) (hf : ∀ τ y, ∃ k, f τ y = some k)
    (fixed : Bool) (x : V) (h : ℚ) : ∃ r, rkStep t f fixed x h = .ok r := by
  obtain ⟨h1, h2, h3⟩ := ht
  unfold rkStep
  obtain ⟨k0, hk0⟩ := hf 0 x
  rw [hk0]
  simp only
  obtain ⟨out, ho, hl⟩ := stageLoop_total t f hf x h (t.stages - 1) [k0] 0 (by simp) (by
    simp only [List.length_cons, List.length_nil]
    rw [h2, show 0 + 1 + (t.stages - 1) = t.stages by omega])
  rw [ho]
  simp only [Res.bind]
  apply finish_total
  simp only [List.length_cons, List.length_nil] at hl
  omega

theorem inner_not_err (A : List ℚ) : ∀ (ks : List V) (acc : ℚ × V × Nat), inner A ks acc ≠ .err := by
  intro ks
  induction ks with
  | nil => intro acc h; cases h
  | cons k ks ih =>
    intro acc h
    unfold inner at h
    split at h
    · cases h
    · exact ih _ h

/-- Applies a function to the value of an outcome. -/
def Res.map {α β : Type} (g : α → β) : Res α → Res β
  | .ok a => .ok (g a)
  | .err => .err
  | .panic => .panic

section map
variable {W : Type} [AddCommGroup W] [Module ℚ W] (L : V →ₗ[ℚ] W)

theorem inner_map (A : List ℚ) : ∀ (ks : List V) (c : ℚ) (w : V) (idx : Nat),
    inner A (ks.map L) (c, L w, idx) = (inner A ks (c, w, idx)).map fun r => (r.1, L r.2.1, r.2.2) := by
  intro ks
  induction ks with
  | nil => intro c w idx; rfl
  | cons k ks ih =>
    intro c w idx
    rw [List.map_cons]
    unfold inner
    cases hA : A[idx]? with
    | none => simp only [hA]; rfl
    | some a =>
      simp only [hA]
      rw [← map_smul, ← map_add, ih]

theorem stageLoop_map (A : List ℚ) (f : Eom V) (f' : Eom W)
    (hf : ∀ τ y, f' τ (L y) = (f τ y).map L) (x : V) (h : ℚ) : ∀ (n : Nat) (ks : List V) (idx : Nat),
    stageLoop A f' (L x) h n (ks.map L) idx = (stageLoop A f x h n ks idx).map fun l => l.map L := by
  intro n
  induction n with
  | zero => intro ks idx; rfl
  | succ n ih =>
    intro ks idx
    unfold stageLoop
    have h0 := inner_map L A ks 0 0 idx
    rw [map_zero] at h0
    rw [h0]
    cases hi : inner A ks (0, 0, idx) with
    | err => rfl
    | panic => rfl
    | ok r =>
      simp only [Res.map, Res.bind]
      rw [← map_smul, ← map_add, hf]
      cases f (r.1 * h) (x + h • r.2.1) with
      | none => rfl
      | some k =>
        simp only [Option.map_some]
        have := ih (ks ++ [k]) r.2.2
        rw [List.map_append] at this
        exact this

theorem finish_map (B : List ℚ) (st : Nat) (fixed : Bool) (h : ℚ) : ∀ (ks : List V) (i : Nat) (p e : V),
    finish B st fixed h (ks.map L) i (L p, L e) =
      (finish B st fixed h ks i (p, e)).map fun r => (L r.1, L r.2) := by
  intro ks
  induction ks with
  | nil => intro i p e; rfl
  | cons k ks ih =>
    intro i p e
    rw [List.map_cons]
    unfold finish
    cases hB : B[i]? with
    | none => rfl
    | some b =>
      simp only
      cases fixed with
      | true =>
        simp only [if_true]
        rw [← map_smul, ← map_add, ih]
      | false =>
        simp only [Bool.false_eq_true, if_false]
        cases hB' : B[i + st]? with
        | none => rfl
        | some b' =>
          simp only
          rw [← map_smul, ← map_add, ← map_smul, ← map_add, ih]

/-- A linear map that relates the equations of motion relates the steps. -/
theorem rkStep_map (t : Tab) (f : Eom V) (f' : Eom W) (hf : ∀ τ y, f' τ (L y) = (f τ y).map L)
    (fixed : Bool) (x : V) (h : ℚ) :
    rkStep t f' fixed (L x) h = (rkStep t f fixed x h).map fun r => (L r.1, L r.2) := by
  unfold rkStep
  rw [hf]
  cases f 0 x with
  | none => rfl
  | some k0 =>
    simp only [Option.map_some]
    have h1 := stageLoop_map L t.A f f' hf x h (t.stages - 1) [k0] 0
    rw [List.map_cons, List.map_nil] at h1
    rw [h1]
    cases stageLoop t.A f x h (t.stages - 1) [k0] 0 with
    | err => rfl
    | panic => rfl
    | ok ks =>
      simp only [Res.map, Res.bind]
      have h2 := finish_map L t.B t.stages fixed h ks 0 x 0
      rw [map_zero] at h2
      exact h2

end map

end Verif.Rk
