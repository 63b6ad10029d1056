import Verif.Target.Model
import Mathlib.Analysis.SpecialFunctions.Log.Base
import Mathlib.Data.Int.DivMod
import Mathlib.Data.Nat.Log
import Mathlib.Tactic.NormNum
import Mathlib.Tactic.Linarith
/-!
C224: the width of the columns of the log of the targeters.
-/
namespace Verif.Target

/-- The outcome of an operation on `i32` with the exact result `x`: beyond the range, a panic with the overflow
checks (the default for debug and test builds), else the result is wrapped. -/
def i32 (checks : Bool) (x : Int) : Res Int :=
  if -2 ^ 31 ≤ x ∧ x < 2 ^ 31 then .ok x else if checks then .panic else .ok (x.bmod (2 ^ 32))

/-- The outcome of a sum on `usize` with the exact result `x`. -/
def usize (checks : Bool) (x : Nat) : Res Nat :=
  if x < 2 ^ 64 then .ok x else if checks then .panic else .ok (x % 2 ^ 64)

/-- `obj.tolerance.abs().log10().ceil() as u32`: a negative number, like the infinite one of zero, becomes zero.
raphson_finite_diff.rs:207, raphson_hyperdual.rs:109. -/
noncomputable def exponent (tol : ℝ) : Nat := if tol = 0 then 0 else min ⌈Real.logb 10 |tol|⌉.toNat (2 ^ 32 - 1)

/-- `obj.desired_value.abs().ceil() as i32 * 10_i32.pow(..)`. raphson_finite_diff.rs:205-208,
raphson_hyperdual.rs:107-110. -/
noncomputable def scaled (checks : Bool) (o : Objective E) : Res Int :=
  (i32 checks (10 ^ exponent o.tol)).bind fun p => i32 checks (min ⌈|o.desired|⌉ (2 ^ 31 - 1) * p)

/-- `obj.tolerance.log10().abs().ceil() as usize`: zero for the NaN of a negative number, the largest number for
the infinite logarithm of zero. raphson_finite_diff.rs:212-217, raphson_hyperdual.rs:114-119. -/
noncomputable def digits (o : Objective E) : Nat :=
  if o.tol = 0 then 2 ^ 64 - 1 else if o.tol < 0 then 0 else min ⌈|Real.logb 10 o.tol|⌉.toNat (2 ^ 64 - 1)

/-- The width of the columns: the maxima over the objectives, `unwrap` of the maximum of none, and the sum.
raphson_finite_diff.rs:200-219, raphson_hyperdual.rs:102-121. -/
noncomputable def logWidth (checks : Bool) (objs : List (Objective E)) : Res Nat :=
  (foldRes (fun (m : Option Int) o => (scaled checks o).bind fun x => .ok (some (m.elim x (max x)))) objs none).bind fun m =>
  (unwrapO m).bind fun v =>
  (usize checks (Nat.log 10 v.toNat + 2)).bind fun a => usize checks (a + (objs.map digits).foldr max 0)

/-- Specification: the product of the magnitudes of the desired value and of the tolerance is a number of 32 bits.
-/
def Fits (o : Objective E) : Prop :=
  (10 : ℝ) ^ ⌈Real.logb 10 o.tol⌉₊ < 2 ^ 31 ∧ (min ⌈|o.desired|⌉ (2 ^ 31 - 1) : Int) * 10 ^ ⌈Real.logb 10 o.tol⌉₊ < 2 ^ 31

theorem exponent_eq {tol : ℝ} (h : 0 < tol) (h2 : tol ≤ 10 ^ 400) : exponent tol = ⌈Real.logb 10 tol⌉₊ := by
  rw [exponent, if_neg h.ne', abs_of_pos h, Int.ceil_toNat]
  refine min_eq_left ?_
  have : Real.logb 10 tol ≤ 400 := by
    rw [Real.logb_le_iff_le_rpow (by norm_num) h]
    exact_mod_cast h2
  have h3 : ⌈Real.logb 10 tol⌉₊ ≤ 400 := Nat.ceil_le.2 (by exact_mod_cast this)
  omega

theorem scaled_ok {o : Objective E} (h : 0 < o.tol) (h2 : o.tol ≤ 10 ^ 400) :
    (∃ x, scaled true o = .ok x) ∧ Fits o ∨ scaled true o = .panic ∧ ¬ Fits o := by
  have hd : (0 : Int) ≤ min ⌈|o.desired|⌉ (2 ^ 31 - 1) := le_min (Int.ceil_nonneg (abs_nonneg _)) (by norm_num)
  have hp : (0 : Int) < 10 ^ ⌈Real.logb 10 o.tol⌉₊ := by positivity
  have hcast : (10 : ℝ) ^ ⌈Real.logb 10 o.tol⌉₊ < 2 ^ 31 ↔ (10 : Int) ^ ⌈Real.logb 10 o.tol⌉₊ < 2 ^ 31 := by
    norm_cast
  rw [scaled, exponent_eq h h2, Fits, hcast]
  by_cases h1 : (10 : Int) ^ ⌈Real.logb 10 o.tol⌉₊ < 2 ^ 31
  · have hi : i32 true (10 ^ ⌈Real.logb 10 o.tol⌉₊) = .ok (10 ^ ⌈Real.logb 10 o.tol⌉₊) := by
      rw [i32, if_pos ⟨by linarith, h1⟩]
    rw [hi]
    by_cases h3 : (min ⌈|o.desired|⌉ (2 ^ 31 - 1) : Int) * 10 ^ ⌈Real.logb 10 o.tol⌉₊ < 2 ^ 31
    · refine .inl ⟨⟨min ⌈|o.desired|⌉ (2 ^ 31 - 1) * 10 ^ ⌈Real.logb 10 o.tol⌉₊, ?_⟩, h1, h3⟩
      show i32 true _ = _
      rw [i32, if_pos ⟨by linarith [mul_nonneg hd hp.le], h3⟩]
    · refine .inr ⟨?_, fun h => h3 h.2⟩
      show i32 true _ = _
      rw [i32, if_neg (fun h => h3 h.2), if_pos rfl]
  · refine .inr ⟨?_, fun h => h1 h.1⟩
    rw [i32, if_neg (fun h => h1 h.2), if_pos rfl]
    rfl

theorem fold_panic {c : Bool} {l : List (Objective E)} {o : Objective E} (ho : o ∈ l) (h : scaled c o = .panic)
    (hn : ∀ o' ∈ l, ∀ e, scaled c o' ≠ .err e) (m : Option Int) :
    foldRes (fun (m : Option Int) o => (scaled c o).bind fun x => .ok (some (m.elim x (max x)))) l m = .panic := by
  induction l generalizing m with
  | nil => simp at ho
  | cons o' l ih =>
    simp only [foldRes]
    rcases hs : scaled c o' with x | e | _
    · rcases List.mem_cons.1 ho with rfl | ho
      · rw [h] at hs
        cases hs
      · exact ih ho (fun o'' h'' => hn o'' (List.mem_cons_of_mem _ h'')) _
    · exact absurd hs (hn o' List.mem_cons_self e)
    · rfl

theorem scaled_not_err (c : Bool) (o : Objective E) (e : Err) : scaled c o ≠ .err e := by
  intro h
  unfold scaled i32 at h
  split at h
  · simp only [Res.bind] at h
    split at h
    · cases h
    · split at h <;> cases h
  · split at h
    · cases h
    · simp only [Res.bind] at h
      split at h <;> cases h

theorem fold_ok {c : Bool} {l : List (Objective E)} (h : ∀ o ∈ l, ∃ x, scaled c o = .ok x) (m : Option Int) :
    ∃ m', foldRes (fun (m : Option Int) o => (scaled c o).bind fun x => .ok (some (m.elim x (max x)))) l m = .ok m' ∧
      ((l ≠ [] ∨ m.isSome) → m'.isSome) ∧ ((∀ v, m = some v → v < 2 ^ 31) → ∀ v, m' = some v → v < 2 ^ 31) := by
  induction l generalizing m with
  | nil => exact ⟨m, rfl, by simp, fun h => h⟩
  | cons o l ih =>
    obtain ⟨x, hx⟩ := h o List.mem_cons_self
    have hlt : x < 2 ^ 31 := by
      unfold scaled at hx
      have : ∀ (y z : Int), i32 c y = .ok z → z < 2 ^ 31 := by
        intro y z hz
        unfold i32 at hz
        split at hz
        · cases hz
          rename_i hh
          exact hh.2
        · split at hz
          · cases hz
          · cases hz
            have := Int.bmod_lt (x := y) (m := 2 ^ 32) (by norm_num)
            norm_num at this ⊢
            exact this
      rcases hp : i32 c (10 ^ exponent o.tol) with p | e | _
      · rw [hp] at hx
        exact this _ _ hx
      · rw [hp] at hx; cases hx
      · rw [hp] at hx; cases hx
    obtain ⟨m', h1, h2, h3⟩ := ih (fun o' h' => h o' (List.mem_cons_of_mem _ h')) (some (m.elim x (max x)))
    refine ⟨m', ?_, fun _ => h2 (.inr rfl), fun hm => h3 ?_⟩
    · simp only [foldRes, hx]
      exact h1
    · rintro v hv
      cases hv
      rcases m with _ | v
      · exact hlt
      · exact max_lt hlt (hm v rfl)

theorem digits_le {o : Objective E} (h : 1 / 10 ^ 400 ≤ o.tol) (h2 : o.tol ≤ 10 ^ 400) : digits o ≤ 400 := by
  have h0 : 0 < o.tol := lt_of_lt_of_le (by positivity) h
  rw [digits, if_neg h0.ne', if_neg h0.not_gt]
  refine (min_le_left _ _).trans ?_
  rw [Int.ceil_toNat]
  refine Nat.ceil_le.2 ?_
  rw [abs_le]
  constructor
  · rw [Real.le_logb_iff_rpow_le (by norm_num) h0]
    refine le_trans (le_of_eq ?_) h
    rw [Real.rpow_neg (by norm_num), one_div]
    norm_cast
  · rw [Real.logb_le_iff_le_rpow (by norm_num) h0]
    exact_mod_cast h2

theorem foldr_max_le {l : List Nat} {b : Nat} (h : ∀ x ∈ l, x ≤ b) : l.foldr max 0 ≤ b := by
  induction l with
  | nil => simp
  | cons a l ih =>
    rw [List.foldr_cons]
    exact max_le (h a List.mem_cons_self) (ih fun x hx => h x (List.mem_cons_of_mem _ hx))

/-- C224. With positive tolerances (of the range of the floating point numbers), a build with overflow checks can
compute the width of the columns exactly if each product of magnitudes is a number of 32 bits. -/
theorem log_width_partial {objs : List (Objective E)} (hne : objs ≠ [])
    (htol : ∀ o ∈ objs, 1 / 10 ^ 400 ≤ o.tol ∧ o.tol ≤ 10 ^ 400) :
    ((∀ o ∈ objs, Fits o) → ∃ w, logWidth true objs = .ok w ∧ w ≤ 411) ∧
      ((∃ o ∈ objs, ¬ Fits o) → logWidth true objs = .panic) := by
  have hpos : ∀ o ∈ objs, 0 < o.tol := fun o ho => lt_of_lt_of_le (by positivity) (htol o ho).1
  constructor
  · intro hf
    have hs : ∀ o ∈ objs, ∃ x, scaled true o = .ok x := by
      intro o ho
      rcases scaled_ok (hpos o ho) (htol o ho).2 with h | h
      · exact h.1
      · exact absurd (hf o ho) h.2
    obtain ⟨m, h1, h2, h3⟩ := fold_ok hs none
    obtain ⟨v, hv⟩ := Option.isSome_iff_exists.1 (h2 (.inl hne))
    have hlt : v < 2 ^ 31 := h3 (by simp) v hv
    have hlog : Nat.log 10 v.toNat ≤ 9 := by
      by_contra hc
      push Not at hc
      have h10 : 10 ^ 10 ≤ v.toNat := by
        refine Nat.pow_le_of_le_log ?_ (by omega)
        rintro h0
        rw [h0] at hc
        simp at hc
      omega
    have hdig : (objs.map digits).foldr max 0 ≤ 400 := foldr_max_le fun x hx => by
      obtain ⟨o, ho, rfl⟩ := List.mem_map.1 hx
      exact digits_le (htol o ho).1 (htol o ho).2
    refine ⟨Nat.log 10 v.toNat + 2 + (objs.map digits).foldr max 0, ?_, by omega⟩
    rw [logWidth, h1, hv]
    show Res.bind (usize true (Nat.log 10 v.toNat + 2)) _ = _
    rw [usize, if_pos (by omega)]
    show usize true _ = _
    rw [usize, if_pos (by omega)]
  · rintro ⟨o, ho, hn⟩
    rw [logWidth, fold_panic ho _ fun o' _ e => scaled_not_err true o' e]
    · rfl
    · rcases scaled_ok (hpos o ho) (htol o ho).2 with h | h
      · exact absurd h.2 hn
      · exact h.1

/-- C224: with tolerances of at most one, every desired value is accepted. -/
theorem small_tolerance_fits {o : Objective E} (h : 0 < o.tol) (h1 : o.tol ≤ 1) : Fits o := by
  have : ⌈Real.logb 10 o.tol⌉₊ = 0 := by
    rw [Nat.ceil_eq_zero]
    exact Real.logb_nonpos (by norm_num) h.le h1
  rw [Fits, this, pow_zero, pow_zero, mul_one]
  refine ⟨by norm_num, lt_of_le_of_lt (min_le_right _ _) (by norm_num)⟩

/-- C224, refuted: the width of the columns of an objective on a semi-major axis of one astronomical unit to 100
kilometers, a legitimate objective, cannot be computed: a build with overflow checks panics. -/
theorem log_width_overflow (p : Param E) (mult add : ℝ) :
    logWidth true [⟨p, 149597870, 100, mult, add⟩] = .panic := by
  refine (log_width_partial (by simp) ?_).2 ⟨_, List.mem_singleton.2 rfl, ?_⟩
  · rintro o ho
    rw [List.mem_singleton.1 ho]
    constructor
    · show (1 / 10 ^ 400 : ℝ) ≤ 100
      rw [div_le_iff₀ (by positivity)]
      have : (1 : ℝ) ≤ 10 ^ 400 := one_le_pow₀ (by norm_num)
      generalize (10 : ℝ) ^ 400 = y at this ⊢
      linarith
    · show (100 : ℝ) ≤ 10 ^ 400
      calc (100 : ℝ) = 10 ^ 2 := by norm_num
        _ ≤ 10 ^ 400 := pow_le_pow_right₀ (by norm_num) (by norm_num)
  · intro h
    have hl : Real.logb 10 100 = 2 := by
      rw [show (100 : ℝ) = 10 ^ (2 : ℝ) by norm_num, Real.logb_rpow (by norm_num) (by norm_num)]
    have h2 := h.2
    rw [show (⟨p, 149597870, 100, mult, add⟩ : Objective E).tol = 100 from rfl, hl] at h2
    have hd : ⌈|(149597870 : ℝ)|⌉ = 149597870 := by
      rw [abs_of_pos (by norm_num)]
      exact_mod_cast Int.ceil_intCast (R := ℝ) 149597870
    rw [show (⟨p, 149597870, 100, mult, add⟩ : Objective E).desired = 149597870 from rfl, hd] at h2
    norm_num at h2

/-- C224, refuted: with an objective whose tolerance is zero, a build with overflow checks panics whatever the
desired value. -/
theorem zero_tolerance_panics (o : Objective E) (h : o.tol = 0) : logWidth true [o] = .panic := by
  have hs : ∃ x, scaled true o = .ok x := by
    rw [scaled, exponent, if_pos h, pow_zero, i32, if_pos (by norm_num)]
    refine ⟨min ⌈|o.desired|⌉ (2 ^ 31 - 1) * 1, ?_⟩
    show i32 true _ = _
    have hd : (0 : Int) ≤ min ⌈|o.desired|⌉ (2 ^ 31 - 1) := le_min (Int.ceil_nonneg (abs_nonneg _)) (by norm_num)
    have hm : min ⌈|o.desired|⌉ (2 ^ 31 - 1 : Int) ≤ 2 ^ 31 - 1 := min_le_right _ _
    rw [i32, if_pos ⟨by linarith, by linarith⟩]
  obtain ⟨m, h1, h2, h3⟩ := fold_ok (l := [o]) (c := true) (fun o' ho' => by rw [List.mem_singleton.1 ho']; exact hs) none
  obtain ⟨v, hv⟩ := Option.isSome_iff_exists.1 (h2 (.inl (by simp)))
  have hlt : v < 2 ^ 31 := h3 (by simp) v hv
  rw [logWidth, h1, hv]
  show Res.bind (usize true (Nat.log 10 v.toNat + 2)) _ = _
  rw [usize]
  split
  · show usize true _ = _
    rw [usize, if_neg, if_pos rfl]
    simp only [List.map_cons, List.map_nil, List.foldr_cons, List.foldr_nil, digits, if_pos h]
    omega
  · rfl

/-- C224: a build without overflow checks never fails here; the widths are then arbitrary. -/
theorem unchecked_log_width {objs : List (Objective E)} (hne : objs ≠ []) : ∃ w, logWidth false objs = .ok w := by
  have hi : ∀ x, ∃ y, i32 false x = .ok y := fun x => by
    unfold i32
    split
    · exact ⟨_, rfl⟩
    · exact ⟨_, rfl⟩
  have hu : ∀ x, ∃ y, usize false x = .ok y := fun x => by
    unfold usize
    split
    · exact ⟨_, rfl⟩
    · exact ⟨_, rfl⟩
  have hs : ∀ o ∈ objs, ∃ x, scaled false o = .ok x := by
    intro o _
    obtain ⟨y, hy⟩ := hi (10 ^ exponent o.tol)
    rw [scaled, hy]
    exact hi _
  obtain ⟨m, h1, h2, -⟩ := fold_ok hs none
  obtain ⟨v, hv⟩ := Option.isSome_iff_exists.1 (h2 (.inl hne))
  obtain ⟨a, ha⟩ := hu (Nat.log 10 v.toNat + 2)
  rw [logWidth, h1, hv]
  show ∃ w, Res.bind (usize false (Nat.log 10 v.toNat + 2)) _ = _
  rw [ha]
  exact hu _

/-- Two objectives whose width can be computed: a semi-major axis to a tenth of kilometer and an eccentricity. -/
example : ∃ w, logWidth true ([⟨.element (), 42164, 1 / 10, 1, 0⟩, ⟨.element (), 1 / 100, 1 / 1000, 1, 0⟩] : List (Objective Unit)) =
    .ok w ∧ w ≤ 411 := by
  have hlow : ∀ x : ℝ, 1 / 1000 ≤ x → (1 / 10 ^ 400 : ℝ) ≤ x := fun x hx => le_trans (by
    rw [div_le_div_iff₀ (by positivity) (by norm_num), one_mul, one_mul]
    calc (1000 : ℝ) = 10 ^ 3 := by norm_num
      _ ≤ 10 ^ 400 := pow_le_pow_right₀ (by norm_num) (by norm_num)) hx
  have hhigh : ∀ x : ℝ, x ≤ 1 → x ≤ (10 ^ 400 : ℝ) := fun x hx => hx.trans (one_le_pow₀ (by norm_num))
  refine (log_width_partial (by simp) fun o ho => ?_).1 fun o ho => ?_
  · simp only [List.mem_cons, List.not_mem_nil, or_false] at ho
    rcases ho with rfl | rfl
    · exact ⟨hlow _ (by norm_num), hhigh _ (by norm_num)⟩
    · exact ⟨hlow _ (by norm_num), hhigh _ (by norm_num)⟩
  · simp only [List.mem_cons, List.not_mem_nil, or_false] at ho
    rcases ho with rfl | rfl
    · exact small_tolerance_fits (by norm_num) (by norm_num)
    · exact small_tolerance_fits (by norm_num) (by norm_num)

example : logWidth true [(⟨.element (), 1, 0, 1, 0⟩ : Objective Unit)] = .panic := zero_tolerance_panics _ rfl

example : ∃ w, logWidth false [(⟨.element (), 149597870, 100, 1, 0⟩ : Objective Unit)] = .ok w :=
  unchecked_log_width (by simp)

end Verif.Target
