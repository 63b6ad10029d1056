import Verif.Rk.Series
import Mathlib.Tactic.Positivity
import Mathlib.Tactic.NormNum
import Mathlib.Algebra.Field.GeomSum
/-!
C215: the error at the end of a propagation is bounded by the errors of its steps, for each shipped method, when the equations of motion are
Lipschitz where they are defined. The steps are those of `Verif/Rk/Model.lean`.
-/
namespace Verif.Rk
open Finset

variable {V : Type} [AddCommGroup V] [Module ℚ V]

/-- Specification of a size of vectors (a norm with rational values, such as the largest component). -/
structure IsSize (N : V → ℚ) : Prop where
  nonneg : ∀ v, 0 ≤ N v
  add : ∀ u v, N (u + v) ≤ N u + N v
  smul : ∀ (c : ℚ) v, N (c • v) = |c| * N v

namespace IsSize
variable {N : V → ℚ} (hN : IsSize N)
include hN

theorem zero : N 0 = 0 := by simpa using hN.smul 0 0

theorem sum (n : Nat) (c : Nat → ℚ) (u : Nat → V) : N (∑ i ∈ range n, c i • u i) ≤ ∑ i ∈ range n, |c i| * N (u i) := by
  induction n with
  | zero => simp [hN.zero]
  | succ n ih =>
    rw [sum_range_succ, sum_range_succ]
    exact (hN.add _ _).trans (add_le_add ih (hN.smul _ _).le)

theorem neg (v : V) : N (-v) = N v := by simpa using hN.smul (-1) v

theorem tri (a b c : V) : N (a - c) ≤ N (a - b) + N (b - c) := by
  have := hN.add (a - b) (b - c)
  simpa using this

end IsSize

/-- The largest sum of the absolute values of a row of coefficients of the stages. -/
def rowMax (t : Tab) : ℚ := ((List.range t.stages).map fun i => ((List.range i).map fun j => |t.a i j|).sum).foldr max 0

/-- The sum of the absolute values of the weights. -/
def weightSum (t : Tab) : ℚ := ((List.range t.stages).map fun i => |t.b i|).sum

theorem le_foldr_max (l : List ℚ) (a : ℚ) (h : a ∈ l) : a ≤ l.foldr max 0 := by
  induction l with
  | nil => cases h
  | cons b l ih =>
    rcases List.mem_cons.1 h with rfl | h
    · exact le_max_left _ _
    · exact (ih h).trans (le_max_right _ _)

theorem row_le (t : Tab) (i : Nat) (hi : i < t.stages) : ∑ j ∈ range i, |t.a i j| ≤ rowMax t :=
  le_foldr_max _ _ (List.mem_map.2 ⟨i, List.mem_range.2 hi, rfl⟩)

theorem weightSum_eq (t : Tab) : weightSum t = ∑ i ∈ range t.stages, |t.b i| := rfl

/-- The equations of motion are Lipschitz where they are defined. -/
def Lip (N : V → ℚ) (L : ℚ) (f : Eom V) : Prop := ∀ τ x y k l, f τ x = some k → f τ y = some l → N (k - l) ≤ L * N (x - y)

/-- The amplification of a difference of states up to the stage `i`, with `u = |h| L`. -/
def amp (t : Tab) (u : ℚ) (i : Nat) : ℚ := 1 + u * ∑ j : Fin i, |t.a i j| * amp t u j

/-- The amplification of a difference of states by a step, with `u = |h| L`. -/
def stepAmp (t : Tab) (u : ℚ) : ℚ := 1 + u * ∑ i ∈ range t.stages, |t.b i| * amp t u i

theorem amp_eq (t : Tab) (u : ℚ) (i : Nat) : amp t u i = 1 + u * ∑ j ∈ range i, |t.a i j| * amp t u j := by
  rw [amp, Fin.sum_univ_eq_sum_range (fun j => |t.a i j| * amp t u j)]

theorem amp_mono (t : Tab) {u v : ℚ} (hu : 0 ≤ u) (huv : u ≤ v) (i : Nat) : 1 ≤ amp t u i ∧ amp t u i ≤ amp t v i := by
  have hv : 0 ≤ v := hu.trans huv
  induction i using Nat.strong_induction_on with
  | _ i ih =>
    have hs : 0 ≤ ∑ j ∈ range i, |t.a i j| * amp t u j :=
      sum_nonneg fun j hj => mul_nonneg (abs_nonneg _) (le_trans zero_le_one (ih j (mem_range.1 hj)).1)
    have hle : ∑ j ∈ range i, |t.a i j| * amp t u j ≤ ∑ j ∈ range i, |t.a i j| * amp t v j :=
      sum_le_sum fun j hj => mul_le_mul_of_nonneg_left (ih j (mem_range.1 hj)).2 (abs_nonneg _)
    rw [amp_eq t u, amp_eq t v]
    refine ⟨le_add_of_nonneg_right (mul_nonneg hu hs), ?_⟩
    gcongr

theorem stepAmp_mono (t : Tab) {u v : ℚ} (hu : 0 ≤ u) (huv : u ≤ v) : 1 ≤ stepAmp t u ∧ stepAmp t u ≤ stepAmp t v := by
  have hv : 0 ≤ v := hu.trans huv
  have hs : 0 ≤ ∑ i ∈ range t.stages, |t.b i| * amp t u i :=
    sum_nonneg fun j _ => mul_nonneg (abs_nonneg _) (le_trans zero_le_one (amp_mono t hu huv j).1)
  have hle : ∑ i ∈ range t.stages, |t.b i| * amp t u i ≤ ∑ i ∈ range t.stages, |t.b i| * amp t v i :=
    sum_le_sum fun j _ => mul_le_mul_of_nonneg_left (amp_mono t hu huv j).2 (abs_nonneg _)
  unfold stepAmp
  refine ⟨le_add_of_nonneg_right (mul_nonneg hu hs), ?_⟩
  gcongr

/-- For small steps the amplification of a step is at most `1 + 2 u w`, with `w` the sum of the absolute weights. -/
theorem stepAmp_small (t : Tab) {u : ℚ} (hu : 0 ≤ u) (h : 2 * u * rowMax t ≤ 1) : stepAmp t u ≤ 1 + 2 * u * weightSum t := by
  have key : ∀ i, i < t.stages → amp t u i ≤ 2 := by
    intro i
    induction i using Nat.strong_induction_on with
    | _ i ih =>
      intro hi
      rw [amp_eq]
      have h1 : ∑ j ∈ range i, |t.a i j| * amp t u j ≤ ∑ j ∈ range i, |t.a i j| * 2 :=
        sum_le_sum fun j hj => mul_le_mul_of_nonneg_left (ih j (mem_range.1 hj) ((mem_range.1 hj).trans hi)) (abs_nonneg _)
      rw [← sum_mul] at h1
      have h2 := mul_le_mul_of_nonneg_left (h1.trans (mul_le_mul_of_nonneg_right (row_le t i hi) (by norm_num : (0 : ℚ) ≤ 2))) hu
      linarith
  have h1 : ∑ i ∈ range t.stages, |t.b i| * amp t u i ≤ ∑ i ∈ range t.stages, |t.b i| * 2 :=
    sum_le_sum fun j hj => mul_le_mul_of_nonneg_left (key j (mem_range.1 hj)) (abs_nonneg _)
  rw [← sum_mul, ← weightSum_eq] at h1
  have h2 := mul_le_mul_of_nonneg_left h1 hu
  unfold stepAmp
  linarith

/-- **C215, one step.** Two steps of the same method and size from two states: their difference is amplified at most by `stepAmp`. -/
theorem step_lipschitz (t : Tab) (hs : 1 ≤ t.stages) {N : V → ℚ} (hN : IsSize N) (L : ℚ) (hL : 0 ≤ L) (f : Eom V) (hf : Lip N L f) (h : ℚ)
    (fx fy : Bool) (x y x' y' ex ey : V) (hx : rkStep t f fx x h = .ok (x', ex)) (hy : rkStep t f fy y h = .ok (y', ey)) :
    N (x' - y') ≤ stepAmp t (|h| * L) * N (x - y) := by
  obtain ⟨K, hK, hx', -⟩ := rkStep_ok t hs f fx x h x' ex hx
  obtain ⟨M, hM, hy', -⟩ := rkStep_ok t hs f fy y h y' ey hy
  have h0 : 0 ≤ N (x - y) := hN.nonneg _
  have key : ∀ i, i < t.stages → N (K i - M i) ≤ L * amp t (|h| * L) i * N (x - y) := by
    intro i
    induction i using Nat.strong_induction_on with
    | _ i ih =>
      intro hi
      refine (hf _ _ _ _ _ (hK i hi) (hM i hi)).trans ?_
      have e1 : x + h • ∑ j ∈ range i, t.a i j • K j - (y + h • ∑ j ∈ range i, t.a i j • M j) =
          (x - y) + h • ∑ j ∈ range i, t.a i j • (K j - M j) := by
        simp only [smul_sub, sum_sub_distrib]
        abel
      rw [e1, mul_assoc]
      refine mul_le_mul_of_nonneg_left ?_ hL
      refine (hN.add _ _).trans ?_
      rw [hN.smul, amp_eq]
      have e3 := hN.sum i (fun j => t.a i j) (fun j => K j - M j)
      have e4 : ∑ j ∈ range i, |t.a i j| * N (K j - M j) ≤ ∑ j ∈ range i, |t.a i j| * (L * amp t (|h| * L) j * N (x - y)) :=
        sum_le_sum fun j hj => mul_le_mul_of_nonneg_left (ih j (mem_range.1 hj) ((mem_range.1 hj).trans hi)) (abs_nonneg _)
      have e5 : ∑ j ∈ range i, |t.a i j| * (L * amp t (|h| * L) j * N (x - y)) = L * (∑ j ∈ range i, |t.a i j| * amp t (|h| * L) j) * N (x - y) := by
        rw [mul_sum, sum_mul]
        exact sum_congr rfl fun j _ => by ring
      have e6 := mul_le_mul_of_nonneg_left (e3.trans (e4.trans e5.le)) (abs_nonneg h)
      linarith
  have e1 : x' - y' = (x - y) + h • ∑ i ∈ range t.stages, t.b i • (K i - M i) := by
    rw [hx', hy']
    simp only [smul_sub, sum_sub_distrib]
    abel
  rw [e1]
  refine (hN.add _ _).trans ?_
  rw [hN.smul]
  have e3 := hN.sum t.stages (fun j => t.b j) (fun j => K j - M j)
  have e4 : ∑ j ∈ range t.stages, |t.b j| * N (K j - M j) ≤ ∑ j ∈ range t.stages, |t.b j| * (L * amp t (|h| * L) j * N (x - y)) :=
    sum_le_sum fun j hj => mul_le_mul_of_nonneg_left (key j (mem_range.1 hj)) (abs_nonneg _)
  have e5 : ∑ j ∈ range t.stages, |t.b j| * (L * amp t (|h| * L) j * N (x - y)) =
      L * (∑ j ∈ range t.stages, |t.b j| * amp t (|h| * L) j) * N (x - y) := by
    rw [mul_sum, sum_mul]
    exact sum_congr rfl fun j _ => by ring
  have e6 := mul_le_mul_of_nonneg_left (e3.trans (e4.trans e5.le)) (abs_nonneg h)
  unfold stepAmp
  linarith

/-- **C215.** A propagation: the states `x k` by steps of sizes `h k` of a shipped method, of a fixed step or as accepted by the adaptive one, with
equations of motion `f k` for the step `k` (they include the epoch of its start). A reference: any states `z k`, such that one step of the method from
`z k` differs from `z (k + 1)` by at most `d k`. After `n` steps the difference to the reference is at most the sum of these errors and of the
initial one, each amplified at most by the factors of the steps which follow. -/
theorem global_error (m : Method) {N : V → ℚ} (hN : IsSize N) (L H : ℚ) (hL : 0 ≤ L) (f : Nat → Eom V) (hf : ∀ k, Lip N L (f k)) (h : Nat → ℚ)
    (hH : ∀ k, |h k| ≤ H) (fx fz : Nat → Bool) (x ex z z' ez : Nat → V) (d : Nat → ℚ)
    (hx : ∀ k, rkStep m.tab (f k) (fx k) (x k) (h k) = .ok (x (k + 1), ex k))
    (hz : ∀ k, rkStep m.tab (f k) (fz k) (z k) (h k) = .ok (z' k, ez k)) (hd : ∀ k, N (z' k - z (k + 1)) ≤ d k) (n : Nat) :
    N (x n - z n) ≤ stepAmp m.tab (H * L) ^ n * N (x 0 - z 0) + ∑ k ∈ range n, stepAmp m.tab (H * L) ^ (n - 1 - k) * d k := by
  have hs : 1 ≤ m.tab.stages := by cases m <;> decide
  have hH0 : 0 ≤ H := (abs_nonneg _).trans (hH 0)
  have hq : 0 ≤ stepAmp m.tab (H * L) := zero_le_one.trans (stepAmp_mono m.tab (mul_nonneg hH0 hL) le_rfl).1
  induction n with
  | zero => simp
  | succ n ih =>
    have h1 := step_lipschitz m.tab hs hN L hL (f n) (hf n) (h n) (fx n) (fz n) (x n) (z n) _ _ _ _ (hx n) (hz n)
    have h2 : N (x (n + 1) - z' n) ≤ stepAmp m.tab (H * L) * N (x n - z n) :=
      h1.trans (mul_le_mul_of_nonneg_right (stepAmp_mono m.tab (mul_nonneg (abs_nonneg _) hL) (mul_le_mul_of_nonneg_right (hH n) hL)).2
        (hN.nonneg _))
    have h3 := hN.tri (x (n + 1)) (z' n) (z (n + 1))
    have h4 := mul_le_mul_of_nonneg_left ih hq
    have h5 := hd n
    rw [sum_range_succ, Nat.add_sub_cancel, Nat.sub_self, pow_zero, one_mul]
    have h6 : ∑ k ∈ range n, stepAmp m.tab (H * L) ^ (n - k) * d k =
        stepAmp m.tab (H * L) * ∑ k ∈ range n, stepAmp m.tab (H * L) ^ (n - 1 - k) * d k := by
      rw [mul_sum]
      refine sum_congr rfl fun k hk => ?_
      have hk' := mem_range.1 hk
      rw [← mul_assoc, ← pow_succ', show n - 1 - k + 1 = n - k by omega]
    rw [h6, pow_succ']
    linarith

/-- **C215, order of convergence.** With errors of the steps of at most `C H ^ (p + 1)`, from the same start, and steps which are not too long, the
error after `n` steps is at most `C H ^ p` times `((1 + 2 H L w) ^ n - 1) / (2 L w)`, which is bounded for a given duration `n H`. -/
theorem global_order (m : Method) {N : V → ℚ} (hN : IsSize N) (L H C : ℚ) (p : Nat) (hL : 0 < L) (hH0 : 0 < H) (f : Nat → Eom V)
    (hf : ∀ k, Lip N L (f k)) (h : Nat → ℚ) (hH : ∀ k, |h k| ≤ H) (hh : 2 * H * L * rowMax m.tab ≤ 1) (fx fz : Nat → Bool)
    (x ex z z' ez : Nat → V) (h0 : x 0 = z 0) (hx : ∀ k, rkStep m.tab (f k) (fx k) (x k) (h k) = .ok (x (k + 1), ex k))
    (hz : ∀ k, rkStep m.tab (f k) (fz k) (z k) (h k) = .ok (z' k, ez k)) (hd : ∀ k, N (z' k - z (k + 1)) ≤ C * H ^ (p + 1)) (n : Nat) :
    N (x n - z n) ≤ C * H ^ p * (((1 + 2 * H * L * weightSum m.tab) ^ n - 1) / (2 * L * weightSum m.tab)) := by
  have hg := global_error m hN L H hL.le f hf h hH fx fz x ex z z' ez _ hx hz hd n
  have hw : 0 < weightSum m.tab := by cases m <;> decide +kernel
  have hHL : 0 ≤ H * L := by positivity
  have hC : 0 ≤ C * H ^ (p + 1) := (hN.nonneg _).trans (hd 0)
  have ha := stepAmp_small m.tab hHL (by linarith)
  have ha1 := (stepAmp_mono m.tab hHL le_rfl).1
  rw [h0, sub_self, hN.zero, mul_zero, zero_add] at hg
  have hq : (1 + 2 * H * L * weightSum m.tab) ≠ 1 := by
    have : 0 < 2 * H * L * weightSum m.tab := by positivity
    intro h
    linarith
  have hsum : ∑ k ∈ range n, stepAmp m.tab (H * L) ^ (n - 1 - k) * (C * H ^ (p + 1)) ≤
      ∑ k ∈ range n, (1 + 2 * H * L * weightSum m.tab) ^ (n - 1 - k) * (C * H ^ (p + 1)) :=
    sum_le_sum fun k _ => mul_le_mul_of_nonneg_right (pow_le_pow_left₀ (by linarith) (by linarith) _) hC
  have hgeo : ∑ k ∈ range n, (1 + 2 * H * L * weightSum m.tab) ^ (n - 1 - k) = ((1 + 2 * H * L * weightSum m.tab) ^ n - 1) /
      (2 * H * L * weightSum m.tab) := by
    rw [sum_range_reflect (fun k => (1 + 2 * H * L * weightSum m.tab) ^ k) n, geom_sum_eq hq]
    congr 1
    ring
  rw [← sum_mul (range n) (fun k => (1 + 2 * H * L * weightSum m.tab) ^ (n - 1 - k)), hgeo] at hsum
  refine (hg.trans hsum).trans (le_of_eq ?_)
  field_simp
  ring

/-- The largest absolute row sum and the sum of the absolute weights of the shipped methods. -/
theorem method_constants : ∀ m : Method, rowMax m.tab ≤ (match m with
      | .rungeKutta89 => 2307 | .dormandPrince78 => 75 | .dormandPrince45 => 25 | .rungeKutta4 => 1 | .cashKarp45 => 7 | .verner56 => 20) ∧
    weightSum m.tab ≤ (match m with
      | .rungeKutta89 => 162 / 100 | .dormandPrince78 => 312 / 100 | .dormandPrince45 => 165 / 100 | _ => 1) := by
  intro m
  cases m <;> decide +kernel

/-- The hypotheses are met by the exponential with the size of a rational, the reference being the polynomial `1 + h + h²/2` at each step. -/
example (m : Method) : ∃ (x ex z z' ez : Nat → ℚ) (d : Nat → ℚ), x 0 = 1 ∧ z 0 = 1 ∧ (∀ k, z (k + 1) = z k * (1 + 1 / 10 + 1 / 200)) ∧
    (∀ k, rkStep m.tab (fun _ y => some y) true (x k) (1 / 10) = .ok (x (k + 1), ex k)) ∧
    (∀ k, rkStep m.tab (fun _ y => some y) true (z k) (1 / 10) = .ok (z' k, ez k)) ∧ (∀ k, |z' k - z (k + 1)| ≤ d k) ∧
    ∀ n, |x n - z n| ≤ stepAmp m.tab (1 / 10 * 1) ^ n * |x 0 - z 0| + ∑ k ∈ range n, stepAmp m.tab (1 / 10 * 1) ^ (n - 1 - k) * d k := by
  have ht : m.tab.Shaped := by cases m <;> decide +kernel
  have htot := fun y : ℚ => rkStep_total m.tab ht (fun _ y => some y) (fun _ y => ⟨y, rfl⟩) true y (1 / 10)
  choose F hF using htot
  refine ⟨fun k => (fun y => (F y).1)^[k] 1, fun k => (F ((fun y => (F y).1)^[k] 1)).2, fun k => (1 + 1 / 10 + 1 / 200) ^ k,
    fun k => (F ((1 + 1 / 10 + 1 / 200) ^ k)).1, fun k => (F ((1 + 1 / 10 + 1 / 200) ^ k)).2,
    fun k => |(F ((1 + 1 / 10 + 1 / 200) ^ k)).1 - (1 + 1 / 10 + 1 / 200) ^ (k + 1)|, rfl, pow_zero _, fun k => pow_succ _ _, ?_, fun k => hF _,
    fun k => le_rfl, ?_⟩
  · intro k
    show _ = Res.ok ((fun y => (F y).1)^[k + 1] 1, _)
    rw [Function.iterate_succ_apply', hF]
  · exact global_error m (N := fun v : ℚ => |v|) ⟨abs_nonneg, abs_add_le, fun c v => by rw [smul_eq_mul, abs_mul]⟩ 1 (1 / 10) zero_le_one
      (fun _ _ y => some y) (fun k τ a b c e h1 h2 => by
        cases h1
        cases h2
        simp) (fun _ => 1 / 10) (fun _ => by norm_num [abs_of_pos]) (fun _ => true) (fun _ => true) _ _ _ _ _ _
      (fun k => by
        show _ = Res.ok ((fun y => (F y).1)^[k + 1] 1, _)
        rw [Function.iterate_succ_apply', hF]) (fun k => hF _) (fun k => le_rfl)

end Verif.Rk
