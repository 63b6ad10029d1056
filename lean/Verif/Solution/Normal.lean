import Verif.Solution.Stats
import Mathlib.Analysis.SpecialFunctions.Log.Basic
/-!
Model of the verdict of the normality test, od/process/solution/stats.rs:245-266, and theorems C212.
-/
namespace Verif.Solution
open Verif.Kalman Matrix

variable {E T K G Q : Type} {m : Nat}

/-- The comparison `ks_stat <= c_alpha / sqrt(n)` with `c_alpha = sqrt(-ln(alpha / 2) / 2)` in floating point: the logarithm of a negative number and the
square root of a negative number are NaN, for which the comparison is false, and the logarithm of zero gives an infinite threshold. stats.rs:261-265. -/
noncomputable def ksVerdict (ks alpha : ℝ) (n : Nat) : Bool :=
  if alpha < 0 then false
  else if alpha = 0 then true
  else if -Real.log (alpha * 0.5) * 0.5 < 0 then false
  else decide (ks ≤ Real.sqrt (-Real.log (alpha * 0.5) * 0.5) / Real.sqrt n)

/-- `is_normal`; the level is 0.05 by default. stats.rs:245-266. -/
noncomputable def Sol.isNormal (normal : ℝ → ℝ → Option (ℝ → ℝ)) (o : Sol E T K (RData m) G Q) (alpha : Option ℝ) : Res Bool :=
  if o.accepted.length = 0 then .err
  else (o.ksTest normal).bind fun ks => .ok (ksVerdict ks (alpha.getD 0.05) o.accepted.length)

/-- Specification: the probability, for `n` independent values of the law, of a distance of at least `d` between the law and the empirical one (the first
term of the series of Kolmogorov, which bounds it). -/
noncomputable def pValue (n : Nat) (d : ℝ) : ℝ := 2 * Real.exp (-2 * n * d ^ 2)

theorem ksVerdict_iff (ks alpha : ℝ) (n : Nat) (hn : 0 < n) (hk : 0 ≤ ks) (ha : 0 ≤ alpha) :
    ksVerdict ks alpha n = true ↔ alpha ≤ pValue n ks := by
  unfold ksVerdict pValue
  rw [if_neg (not_lt.2 ha)]
  have hnR : (0 : ℝ) < n := by exact_mod_cast hn
  split_ifs with h0 h1
  · subst h0
    simp only [true_iff]
    positivity
  · simp only [Bool.false_eq_true, false_iff, not_le]
    have hp : 0 < alpha := lt_of_le_of_ne ha (Ne.symm h0)
    have hl : 0 < Real.log (alpha * 0.5) := by linarith
    have : 1 < alpha * 0.5 := by
      by_contra hc
      exact absurd (Real.log_nonpos (by positivity) (not_lt.1 hc)) (not_le.2 hl)
    have he : Real.exp (-2 * n * ks ^ 2) ≤ 1 := Real.exp_le_one_iff.2 (by have := mul_nonneg hnR.le (sq_nonneg ks); nlinarith)
    linarith
  · have hp : 0 < alpha := lt_of_le_of_ne ha (Ne.symm h0)
    have hc : 0 ≤ -Real.log (alpha * 0.5) * 0.5 := not_lt.1 h1
    rw [decide_eq_true_iff, le_div_iff₀ (Real.sqrt_pos.2 hnR), ← Real.sqrt_sq hk, ← Real.sqrt_mul (sq_nonneg ks), Real.sqrt_le_sqrt_iff hc]
    rw [Real.sqrt_sq hk]
    constructor
    · intro h
      have : Real.log (alpha * 0.5) ≤ -2 * n * ks ^ 2 := by nlinarith
      have := (Real.log_le_iff_le_exp (by positivity)).1 this
      linarith
    · intro h
      have : alpha * 0.5 ≤ Real.exp (-2 * n * ks ^ 2) := by linarith
      have := (Real.log_le_iff_le_exp (by positivity)).2 this
      nlinarith

theorem sumSq_zero (l : List ℝ) (c : ℝ) : (l.map fun v => (v - c) ^ 2).sum = 0 ↔ ∀ a ∈ l, a = c := by
  induction l with
  | nil => simp
  | cons x l ih =>
    rw [List.map_cons, List.sum_cons]
    have h1 : 0 ≤ (x - c) ^ 2 := sq_nonneg _
    have h2 : 0 ≤ (l.map fun v => (v - c) ^ 2).sum := by
      refine List.sum_nonneg fun y hy => ?_
      obtain ⟨v, -, rfl⟩ := List.mem_map.1 hy
      exact sq_nonneg _
    rw [add_eq_zero_iff_of_nonneg h1 h2, ih]
    simp only [List.mem_cons, forall_eq_or_imp, sq_eq_zero_iff, sub_eq_zero]

theorem sum_const_of_forall (l : List ℝ) (c : ℝ) (h : ∀ a ∈ l, a = c) : l.sum = l.length * c := by
  induction l with
  | nil => simp
  | cons x l ih =>
    rw [List.sum_cons, ih fun a ha => h a (List.mem_cons_of_mem _ ha), h x List.mem_cons_self, List.length_cons]
    push_cast
    ring

theorem stdOf_nonpos (l : List ℝ) (hl : l ≠ []) : stdOf l ≤ 0 ↔ ∀ a ∈ l, ∀ b ∈ l, a = b := by
  have hlen : (0 : ℝ) < l.length := by exact_mod_cast List.length_pos_iff.2 hl
  have hnn : 0 ≤ (l.map fun v => (v - meanOf l) ^ 2).sum := by
    refine List.sum_nonneg fun y hy => ?_
    obtain ⟨v, -, rfl⟩ := List.mem_map.1 hy
    exact sq_nonneg _
  have h1 : stdOf l ≤ 0 ↔ (l.map fun v => (v - meanOf l) ^ 2).sum = 0 := by
    unfold stdOf
    rw [Real.sqrt_le_iff]
    constructor
    · rintro ⟨-, h⟩
      have h' : (l.map fun v => (v - meanOf l) ^ 2).sum ≤ 0 := by
        by_contra hc
        have := div_pos (not_le.1 hc) hlen
        nlinarith
      exact le_antisymm h' hnn
    · intro h
      rw [h]
      simp
  rw [h1, sumSq_zero]
  constructor
  · intro h a ha b hb
    rw [h a ha, h b hb]
  · intro h a ha
    have hs := sum_const_of_forall l a fun b hb => h b hb a ha
    unfold meanOf
    rw [hs]
    field_simp

/-- **C212 (failures).** The test fails exactly without accepted residuals (of at least one component), and panics exactly if all their components are
equal. -/
theorem is_normal_fails (normal : ℝ → ℝ → Option (ℝ → ℝ)) (hN : NormalSpec normal) (hm : 0 < m) (o : Sol E T K (RData m) G Q) (alpha : Option ℝ) :
    (o.isNormal normal alpha = .err ↔ ∀ r ∈ o.flat, r.rejected = true) ∧
    (o.isNormal normal alpha = .panic ↔ o.whitened ≠ [] ∧ ∀ a ∈ o.whitened, ∀ b ∈ o.whitened, a = b) := by
  have hacc : o.accepted.length = 0 ↔ ∀ r ∈ o.flat, r.rejected = true := by
    unfold Sol.accepted
    rw [List.length_eq_zero_iff, List.filter_eq_nil_iff]
    simp
  have hlen : o.whitened.length = o.accepted.length * m := by
    unfold Sol.whitened
    rw [List.length_flatMap]
    simp
  have hw : o.whitened = [] ↔ o.accepted.length = 0 := by
    rw [← List.length_eq_zero_iff, hlen]
    constructor
    · intro h
      rcases Nat.mul_eq_zero.1 h with h | h
      · exact h
      · omega
    · intro h; rw [h, Nat.zero_mul]
  unfold Sol.isNormal
  split
  · rename_i h0
    refine ⟨by simp [← hacc, h0], ?_⟩
    simp [hw.2 h0]
  · rename_i h0
    have hne : o.whitened ≠ [] := fun h => h0 (hw.1 h)
    unfold Sol.ksTest
    rw [if_neg hne]
    have hs := stdOf_nonpos o.whitened hne
    cases hn : normal (meanOf o.whitened) (stdOf o.whitened) with
    | none =>
      have := hs.1 ((hN.1 _ _).1 hn)
      refine ⟨?_, ?_⟩
      · simp only [Res.bind, reduceCtorEq, false_iff]
        exact fun h => h0 (hacc.2 h)
      · simp only [Res.bind, true_iff]
        exact ⟨hne, this⟩
    | some F =>
      refine ⟨?_, ?_⟩
      · simp only [Res.bind, reduceCtorEq, false_iff]
        exact fun h => h0 (hacc.2 h)
      · simp only [Res.bind, reduceCtorEq, false_iff]
        rintro ⟨-, h⟩
        rw [(hN.1 _ _).2 (hs.2 h)] at hn
        cases hn

/-- **C212 (partial).** The verdict at a level that is not negative (5 % by default) compares the level with the probability of the distance for as many values as
there are accepted residuals. Missing: residuals of more than one component, for which there are more values, see `is_normal_lenient`. -/
theorem is_normal_partial (normal : ℝ → ℝ → Option (ℝ → ℝ)) (hN : NormalSpec normal) (o : Sol E T K (RData m) G Q) (alpha : Option ℝ)
    (ha : ∀ a, alpha = some a → 0 ≤ a) (b : Bool) (h : o.isNormal normal alpha = .ok b) :
    ∃ d, o.ksTest normal = .ok d ∧ (b = true ↔ (alpha.getD (1 / 20)) ≤ pValue o.accepted.length d) := by
  unfold Sol.isNormal at h
  split at h
  · cases h
  · rename_i hl
    obtain ⟨d, hd, h⟩ := Res.bind_eq_ok.1 h
    simp only [Res.ok.injEq] at h
    refine ⟨d, hd, ?_⟩
    rw [← h, ksVerdict_iff d _ _ (by omega) (ks_statistic normal hN o d hd).1 ?_]
    · rw [show (0.05 : ℝ) = 1 / 20 by norm_num]
    · cases alpha with
      | none => simp only [Option.getD_none]; norm_num
      | some a => exact ha a rfl

/-- **C212.** A higher level rejects more: what is accepted at a level is accepted at the lower levels that are not negative. -/
theorem is_normal_antitone (normal : ℝ → ℝ → Option (ℝ → ℝ)) (hN : NormalSpec normal) (o : Sol E T K (RData m) G Q) (a a' : ℝ)
    (ha : 0 ≤ a') (hle : a' ≤ a) (h : o.isNormal normal (some a) = .ok true) : o.isNormal normal (some a') = .ok true := by
  obtain ⟨d, hd, hb⟩ := is_normal_partial normal hN o (some a) (by intro x hx; cases hx; linarith) true h
  have h1 := hb.1 rfl
  unfold Sol.isNormal at h ⊢
  split at h
  · cases h
  · rename_i hl
    rw [if_neg hl, hd, Res.bind_ok]
    simp only [Option.getD_some, Res.ok.injEq]
    exact (ksVerdict_iff d a' _ (by omega) (ks_statistic normal hN o d hd).1 ha).2 (le_trans hle h1)

/-- **C212, refuted.** For residuals of at least two components, the statistic is that of all components but the threshold that of the number of residuals:
the test accepts at a level above the probability of the distance for as many values as there are. -/
theorem is_normal_lenient (normal : ℝ → ℝ → Option (ℝ → ℝ)) (hN : NormalSpec normal) (hm : 2 ≤ m) (o : Sol E T K (RData m) G Q) (d : ℝ)
    (hd : o.ksTest normal = .ok d) (hpos : 0 < d) :
    ∃ a, 0 < a ∧ a < 2 ∧ o.isNormal normal (some a) = .ok true ∧ pValue o.whitened.length d < a := by
  have hacc : o.accepted.length ≠ 0 := by
    intro h0
    unfold Sol.ksTest at hd
    rw [if_pos (by unfold Sol.whitened; rw [List.length_eq_zero_iff.1 h0]; rfl)] at hd
    cases hd
  have hw : o.whitened.length = o.accepted.length * m := by
    unfold Sol.whitened
    rw [List.length_flatMap]
    simp
  have hnR : (0 : ℝ) < o.accepted.length := by exact_mod_cast Nat.pos_of_ne_zero hacc
  have hmR : (2 : ℝ) ≤ m := by exact_mod_cast hm
  have hd2 : 0 < d ^ 2 := by positivity
  refine ⟨pValue o.accepted.length d, by unfold pValue; positivity, ?_, ?_, ?_⟩
  · unfold pValue
    have : Real.exp (-2 * (o.accepted.length : ℝ) * d ^ 2) < 1 := by
      rw [← Real.exp_zero]
      exact Real.exp_lt_exp.2 (by have := mul_pos hnR hd2; nlinarith)
    linarith
  · unfold Sol.isNormal
    rw [if_neg hacc, hd, Res.bind_ok]
    simp only [Option.getD_some, Res.ok.injEq]
    exact (ksVerdict_iff d _ _ (Nat.pos_of_ne_zero hacc) hpos.le (by unfold pValue; positivity)).2 le_rfl
  · unfold pValue
    rw [hw]
    have : Real.exp (-2 * ((o.accepted.length * m : Nat) : ℝ) * d ^ 2) < Real.exp (-2 * (o.accepted.length : ℝ) * d ^ 2) := by
      apply Real.exp_lt_exp.2
      push_cast
      have h1 := mul_pos hnR hd2
      nlinarith
    linarith

/-! ### Examples -/

/-- A solution with two residuals of two components. -/
def exPairs : Sol Unit Unit Unit (RData 2) Unit Unit :=
  ⟨[(), ()],
    [some ⟨some (), [()], ⟨0, 1, some 0, 1, 0, 0, ![1, -1], false⟩⟩, some ⟨some (), [()], ⟨1, 1, some 0, 2, 0, 0, ![2, -2], false⟩⟩],
    [none, none], [none, none]⟩

/-- The hypotheses of the theorems are met: a law which satisfies the specification (a step), for which the statistic of the four components is one
half. -/
example : ∃ normal, NormalSpec normal ∧ exPairs.ksTest normal = .ok (1 / 2) ∧
    ∃ a, 0 < a ∧ a < 2 ∧ exPairs.isNormal normal (some a) = .ok true ∧ pValue 4 (1 / 2) < a := by
  classical
  let law : ℝ → ℝ → Option (ℝ → ℝ) := fun _ b => if b ≤ 0 then none else some fun x => if 0 ≤ x then 1 else 0
  have hN : NormalSpec law := by
    refine ⟨fun a b => by simp [law], fun a b F h => ?_⟩
    simp only [law, Option.ite_none_left_eq_some, Option.some.injEq] at h
    obtain ⟨_, rfl⟩ := h
    refine ⟨fun x y hxy => ?_, fun x => ?_⟩
    · simp only
      split
      · rw [if_pos (by linarith)]
      · split <;> norm_num
    · simp only
      split <;> norm_num
  have hw : exPairs.whitened = [1, -1, 2, -2] := by
    simp [Sol.whitened, Sol.accepted, Sol.flat, exPairs, List.ofFn_succ]
  have hsort : ([1, -1, 2, -2] : List ℝ).mergeSort (fun a b => decide (a ≤ b)) = [-2, -1, 1, 2] := by
    refine List.Perm.eq_of_pairwise (le := fun a b : ℝ => a ≤ b) ?_ ?_ ?_ ?_
    · intro a b _ _ h1 h2
      exact le_antisymm h1 h2
    · have := List.pairwise_mergeSort (le := fun a b : ℝ => decide (a ≤ b))
        (fun a b c => by simp only [decide_eq_true_iff]; exact le_trans)
        (fun a b => by simp only [Bool.or_eq_true, decide_eq_true_iff]; exact le_total a b) [1, -1, 2, -2]
      simpa using this
    · norm_num
    · exact (List.mergeSort_perm _ _).trans (by
        rw [List.perm_iff_count]
        intro a
        simp only [List.count_cons, List.count_nil]
        omega)
  have hk : exPairs.ksTest law = .ok (1 / 2) := by
    have hs : ¬ stdOf exPairs.whitened ≤ 0 := by
      rw [hw, stdOf_nonpos _ (by simp)]
      intro h
      have := h 1 (by simp) (-1) (by simp)
      norm_num at this
    unfold Sol.ksTest
    rw [if_neg (by rw [hw]; simp)]
    simp only [law]
    rw [if_neg hs, hw, hsort]
    simp only [ksLoop, List.length_cons, List.length_nil]
    norm_num
  refine ⟨law, hN, hk, ?_⟩
  have := is_normal_lenient law hN le_rfl exPairs (1 / 2) hk (by norm_num)
  rwa [hw] at this

end Verif.Solution
