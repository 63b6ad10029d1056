import Verif.Rk.Uniform
import Verif.Propagate.Theorems
/-!
C218: the accuracy of `propagate` (nyx-core/src/propagators/instance.rs:87-262) with a shipped method: every published state and the result are close
to the exact trajectory.
-/
namespace Verif.Propagate
open Finset Verif.Rk

variable {V Er Fr C : Type} [NormedAddCommGroup V] [NormedSpace ℝ V] [Module ℚ V]

/-- Each step of the propagator is a step of the method `m` for equations of motion which satisfy `P` at the time and the state of its start, computed up to
an error `δ` in the state, for example of rounding; `finally` changes nothing, and the states stay in their frame. The times are seconds since the
reference epoch. -/
structure StepsOf (env : Env V Er Fr) (m : Method) (P : ℝ → V → Eom V → Prop) (δ : ℝ) : Prop where
  rk : ∀ st s r, env.rk st s = .ok r →
    ∃ eom fixed next err, P ((toSec st.epoch : ℚ) : ℝ) st.x eom ∧ rkStep m.tab eom fixed st.x s = .ok (next, err) ∧ ‖r.x - next‖ ≤ δ
  fin : ∀ s s', env.finally_ s = .ok s' → s' = s
  frame : env.integrationFrame = none

/-- The propagator integrates `x' = f(t, x)` with the method `m`, and computes each step up to an error `δ`. -/
def Integrates (env : Env V Er Fr) (m : Method) (f : ℝ → V → V) (δ : ℝ) : Prop := StepsOf env m (fun t _ eom => Gives f t eom) δ

/-! ### One step -/

/-- The rounding to nanoseconds. -/
theorem toDur_close (s : ℚ) : |toSec (toDur s) - s| ≤ 1 / 1000000000 := by
  unfold toDur toSec
  have e : ∀ n : ℤ, |(n : ℚ) - s * 1000000000| ≤ 1 → |(n : ℚ) / 1000000000 - s| ≤ 1 / 1000000000 := by
    intro n hn
    rw [abs_le] at *
    constructor
    · rw [neg_le_sub_iff_le_add, ← sub_le_iff_le_add, le_div_iff₀ (by norm_num)]
      linarith
    · rw [sub_le_iff_le_add, div_le_iff₀ (by norm_num)]
      linarith
  split
  · apply e
    have h1 := Int.floor_le (s * 1000000000)
    have h2 := Int.lt_floor_add_one (s * 1000000000)
    rw [abs_le]
    constructor <;> linarith
  · apply e
    have h1 := Int.le_ceil (s * 1000000000)
    have h2 := Int.ceil_lt_add_one (s * 1000000000)
    rw [abs_le]
    constructor <;> linarith

theorem clampMin_abs {o : Opts} {d H : Int} (h0 : 0 ≤ o.minStep) (hm : o.minStep ≤ H) (hd : |d| ≤ H) : |clampMin o d| ≤ H := by
  unfold clampMin
  split
  · split
    · rw [abs_neg, abs_of_nonneg h0]
      exact hm
    · rw [abs_of_nonneg h0]
      exact hm
  · exact hd

theorem toDur_abs {s : ℚ} {H : Int} (hs : |s| ≤ toSec H) : |toDur s| ≤ H := by
  obtain ⟨h1, h2⟩ := abs_le.1 hs
  have h3 : -((H : Int) : ℚ) ≤ s * 1000000000 ∧ s * 1000000000 ≤ (H : Int) := by
    unfold toSec at h1 h2
    constructor
    · have := mul_le_mul_of_nonneg_right h1 (by norm_num : (0 : ℚ) ≤ 1000000000)
      linarith
    · have := mul_le_mul_of_nonneg_right h2 (by norm_num : (0 : ℚ) ≤ 1000000000)
      linarith
  unfold toDur
  rw [abs_le]
  split
  · constructor
    · exact Int.le_floor.2 (by push_cast; exact h3.1)
    · exact_mod_cast (Int.floor_le (s * 1000000000)).trans h3.2
  · constructor
    · exact_mod_cast h3.1.trans (Int.le_ceil (s * 1000000000))
    · exact Int.ceil_le.2 h3.2

theorem grow_abs {env : Env V Er Fr} (h0 : 0 ≤ env.opts.maxStep) (s err : ℚ) : |grow env s err| ≤ toSec env.opts.maxStep := by
  have hm : 0 ≤ toSec env.opts.maxStep := by
    unfold toSec
    positivity
  have sg : ∀ x : ℚ, |toSec env.opts.maxStep * signum x| = toSec env.opts.maxStep := by
    intro x
    unfold signum
    split
    · rw [mul_neg_one, abs_neg, abs_of_nonneg hm]
    · rw [mul_one, abs_of_nonneg hm]
  unfold grow
  split
  · exact (sg _).le
  · split
    · simpa using hm
    · simp only
      split
      · exact (sg _).le
      · rename_i h
        rw [abs_of_nonneg hm] at h
        exact not_lt.1 h

/-- What `derive` does: the stages of the step it used, the time by which it moves the epoch, and the size of the next step. -/
theorem derive_used (env : Env V Er Fr) (back : Bool) {i : Inst V} {m H : Int} (hm : 2 ≤ m) (hs : m ≤ dirn back * i.step) (hH : |i.step| ≤ H)
    (hc : i.fixed = false → env.SaneControl ∧ m ≤ env.opts.minStep ∧ env.opts.maxStep ≤ H) {d : Derived V} (hd : derive env i = .ok d) :
    (∃ r, env.rk i.st d.used = .ok r ∧ r.x = d.x) ∧ |d.used| ≤ toSec H ∧
    |toSec d.dt - d.used| ≤ (if i.fixed then 0 else 1 / (env.opts.minStep : ℚ)) * |d.used| ∧ |d.newStep| ≤ H := by
  have hsec : |toSec i.step| ≤ toSec H := by
    unfold toSec
    rw [abs_div, abs_of_pos (by norm_num : (0 : ℚ) < 1000000000), div_le_div_iff_of_pos_right (by norm_num)]
    exact_mod_cast hH
  by_cases hf : i.fixed = true
  · unfold derive at hd
    rw [if_pos hf] at hd
    split at hd
    · cases hd
    · rename_i r hr
      simp only [Except.ok.injEq] at hd
      subst hd
      refine ⟨⟨r, hr, rfl⟩, hsec, ?_, hH⟩
      simp [hf]
  · have hf' : i.fixed = false := by simpa using hf
    obtain ⟨hc1, hc2, hc3⟩ := hc hf'
    have hmin := hc1.minPos
    have hminH : env.opts.minStep ≤ H := hc1.minMax.trans hc3
    unfold derive at hd
    rw [if_neg hf] at hd
    rw [if_neg hf]
    cases back with
    | false =>
      have hpos : 0 < i.step := by
        simp only [dirn] at hs
        simp at hs
        omega
      obtain ⟨⟨r, r1, r2, -, -⟩, -, a3, a4, a5, a6, a7, -⟩ := deriveAdaptive_fwd hc1 i.st 1 (toSec i.step) (toSec_pos.mpr hpos) d hd
      have hu0 : 0 < d.used := by
        rcases a5 with a5 | a5
        · rw [a5]
          exact toSec_pos.mpr hpos
        · exact lt_of_lt_of_le (toSec_pos.mpr hmin) a5
      have hu : |d.used| ≤ toSec H := by
        rw [abs_of_pos hu0]
        exact a4.trans ((le_abs_self _).trans hsec)
      refine ⟨⟨r, r1, r2⟩, hu, ?_, ?_⟩
      · rcases a5 with a5 | a5
        · rw [a3, a5, toDur_toSec, sub_self, abs_zero]
          have : (0 : ℚ) < env.opts.minStep := by exact_mod_cast hmin
          positivity
        · rw [a3]
          refine (toDur_close d.used).trans ?_
          have hq : (0 : ℚ) < env.opts.minStep := by exact_mod_cast hmin
          unfold toSec at a5
          rw [abs_of_pos hu0, one_div_mul_eq_div, div_le_div_iff₀ (by norm_num) hq]
          rw [div_le_iff₀ (by norm_num)] at a5
          linarith
      · have hn0 : 0 ≤ d.newStep := by omega
        rw [abs_of_nonneg hn0]
        rcases a7 with a7 | a7
        · omega
        · exact a7.trans (max_le hminH ((le_abs_self _).trans (toDur_abs hu)))
    | true =>
      have hneg : i.step < 0 := by
        simp only [dirn] at hs
        simp at hs
        omega
      obtain ⟨a1, -, a3, r, b1, b2, -, -, b5⟩ := (deriveAdaptive_bwd hmin i.st 1 (toSec i.step) (toSec_neg.mpr hneg)).2 d hd
      refine ⟨⟨r, by rw [a1]; exact b1, b2⟩, by rw [a1]; exact hsec, ?_, ?_⟩
      · rw [a3, a1, toDur_toSec, sub_self, abs_zero]
        have : (0 : ℚ) < env.opts.minStep := by exact_mod_cast hmin
        positivity
      · rw [b5]
        refine clampMin_abs hmin.le hminH (toDur_abs ?_)
        split
        · refine (grow_abs (hmin.le.trans hc1.minMax) _ _).trans ?_
          unfold toSec
          rw [div_le_div_iff_of_pos_right (by norm_num)]
          exact_mod_cast hc3
        · exact hsec

/-! ### The steps of a propagation -/

/-- One state follows from another by `n` steps of the method, each computed up to an error `δ`. -/
inductive Run (m : Method) (P : ℝ → V → Eom V → Prop) (H η δ : ℝ) (back : Bool) (s : St V) : Nat → St V → Prop where
  | refl : Run m P H η δ back s 0 s
  | snoc {n : Nat} {s' s'' : St V} (h : ℚ) (eom : Eom V) (fixed : Bool) (next err : V) (prev : Run m P H η δ back s n s')
      (gives : P ((toSec s'.epoch : ℚ) : ℝ) s'.x eom) (step : rkStep m.tab eom fixed s'.x h = .ok (next, err)) (close : ‖s''.x - next‖ ≤ δ)
      (size : |(h : ℝ)| ≤ H) (time : |((toSec (s''.epoch - s'.epoch) : ℚ) : ℝ) - h| ≤ η * |(h : ℝ)|) (dir : 0 ≤ dirn back * (s''.epoch - s'.epoch)) :
      Run m P H η δ back s (n + 1) s''

theorem Run.trans {m : Method} {P : ℝ → V → Eom V → Prop} {H η δ : ℝ} {back : Bool} {n n' : Nat} {s s' s'' : St V} (h1 : Run m P H η δ back s n s')
    (h2 : Run m P H η δ back s' n' s'') : Run m P H η δ back s (n + n') s'' := by
  induction h2 with
  | refl => exact h1
  | snoc h eom fixed next err _ g st cl sz ti di ih => exact .snoc h eom fixed next err ih g st cl sz ti di

theorem toSec_sub (a b : Int) : toSec (a - b) = toSec a - toSec b := by
  unfold toSec
  push_cast
  ring

/-- A run as sequences of states, times and steps. -/
theorem Run.sequence {m : Method} {P : ℝ → V → Eom V → Prop} {H η δ : ℝ} {back : Bool} (hη : η ≤ 1 / 2) {n : Nat} {s s' : St V}
    (hr : Run m P H η δ back s n s') : ∃ (t : Nat → ℝ) (h : Nat → ℚ) (eom : Nat → Eom V) (fixed : Nat → Bool) (x next err : Nat → V),
      t 0 = (toSec s.epoch : ℚ) ∧ x 0 = s.x ∧ t n = (toSec s'.epoch : ℚ) ∧ x n = s'.x ∧
      (∀ k ≤ n, ∃ e : Int, t k = (toSec e : ℚ) ∧ 0 ≤ dirn back * (e - s.epoch) ∧ 0 ≤ dirn back * (s'.epoch - e)) ∧
      (∀ k < n, |t (k + 1) - (t k + h k)| ≤ η * |(h k : ℝ)|) ∧ (∀ k < n, |(h k : ℝ)| ≤ H) ∧
      ∑ k ∈ range n, |(h k : ℝ)| ≤ 2 * ((toSec (dirn back * (s'.epoch - s.epoch)) : ℚ) : ℝ) ∧
      (∀ k < n, P (t k) (x k) (eom k)) ∧ (∀ k < n, rkStep m.tab (eom k) (fixed k) (x k) (h k) = .ok (next k, err k)) ∧
      ∀ k < n, ‖x (k + 1) - next k‖ ≤ δ := by
  induction hr with
  | refl =>
    refine ⟨fun _ => (toSec s.epoch : ℚ), fun _ => 0, fun _ _ _ => none, fun _ => true, fun _ => s.x, fun _ => 0, fun _ => 0, rfl, rfl, rfl, rfl, ?_, ?_, ?_, ?_, ?_, ?_, ?_⟩
    · exact fun k _ => ⟨s.epoch, rfl, by simp, by simp⟩
    · simp
    · simp
    · simp [toSec]
    · simp
    · simp
    · simp
  | @snoc n s2 s3 h eom fixed next err _ g st cl sz ti di ih =>
    obtain ⟨t, hs, es, fs, x, nx, er, h1, h2, h3, h4, h5, h6, h7, h8, h9, h10, h11⟩ := ih
    have hlt : ∀ k < n, k ≤ n ∧ k + 1 ≤ n ∧ k < n := fun k hk => ⟨hk.le, hk, hk⟩
    refine ⟨fun k => if k ≤ n then t k else (toSec s3.epoch : ℚ), fun k => if k < n then hs k else h, fun k => if k < n then es k else eom,
      fun k => if k < n then fs k else fixed, fun k => if k ≤ n then x k else s3.x, fun k => if k < n then nx k else next,
      fun k => if k < n then er k else err, ?_, ?_, ?_, ?_, ?_, ?_, ?_, ?_, ?_, ?_, ?_⟩
    · simpa using h1
    · simpa using h2
    · simp
    · simp
    · intro k hk
      simp only
      split
      · rename_i hk'
        obtain ⟨e, e1, e2, e3⟩ := h5 k hk'
        refine ⟨e, e1, e2, ?_⟩
        have : dirn back * (s3.epoch - e) = dirn back * (s3.epoch - s2.epoch) + dirn back * (s2.epoch - e) := by ring
        omega
      · refine ⟨s3.epoch, rfl, ?_, by simp⟩
        obtain ⟨e, e1, e2, e3⟩ := h5 0 (Nat.zero_le _)
        have : dirn back * (s3.epoch - s.epoch) = dirn back * (s3.epoch - s2.epoch) + dirn back * (s2.epoch - e) + dirn back * (e - s.epoch) := by ring
        omega
    · intro k hk
      rcases Nat.lt_succ_iff_lt_or_eq.1 hk with hk' | rfl
      · have := h6 k hk'
        simpa [hk', hk'.le, Nat.succ_le_of_lt hk'] using this
      · rw [toSec_sub] at ti
        push_cast at ti
        simp only [le_refl, if_true, lt_irrefl, if_false, Nat.not_succ_le_self]
        rw [h3, ← sub_sub]
        exact ti
    · intro k hk
      rcases Nat.lt_succ_iff_lt_or_eq.1 hk with hk' | rfl
      · simpa [hk'] using h7 k hk'
      · simpa using sz
    · rw [sum_range_succ]
      have e1 : ∑ k ∈ range n, |((if k < n then hs k else h : ℚ) : ℝ)| = ∑ k ∈ range n, |(hs k : ℝ)| :=
        sum_congr rfl fun k hk => by rw [if_pos (mem_range.1 hk)]
      rw [e1]
      simp only [lt_irrefl, if_false]
      have e2 : dirn back * (s3.epoch - s.epoch) = dirn back * (s2.epoch - s.epoch) - (-(dirn back * (s3.epoch - s2.epoch))) := by ring
      rw [e2, toSec_sub]
      have e3 : toSec (-(dirn back * (s3.epoch - s2.epoch))) = -|toSec (s3.epoch - s2.epoch)| := by
        unfold toSec
        rw [abs_div, abs_of_pos (by norm_num : (0 : ℚ) < 1000000000), ← neg_div, div_left_inj' (by norm_num)]
        cases back
        · simp only [dirn] at *
          simp at *
          rw [abs_of_nonneg (by exact_mod_cast (by omega : (0 : Int) ≤ s3.epoch - s2.epoch))]
          ring
        · simp only [dirn] at *
          simp at *
          rw [abs_of_nonpos (by exact_mod_cast (by omega : s3.epoch - s2.epoch ≤ (0 : Int)))]
          ring
      rw [e3]
      push_cast
      have e4 : |(h : ℝ)| ≤ 2 * |((toSec (s3.epoch - s2.epoch) : ℚ) : ℝ)| := by
        have f1 := abs_sub_abs_le_abs_sub (h : ℝ) ((toSec (s3.epoch - s2.epoch) : ℚ) : ℝ)
        rw [abs_sub_comm] at f1
        have f2 := mul_le_mul_of_nonneg_right hη (abs_nonneg (h : ℝ))
        linarith
      linarith
    · intro k hk
      rcases Nat.lt_succ_iff_lt_or_eq.1 hk with hk' | rfl
      · simpa [hk', hk'.le] using h9 k hk'
      · simp only [le_refl, if_true, lt_irrefl, if_false]
        rw [h3, h4]
        exact g
    · intro k hk
      rcases Nat.lt_succ_iff_lt_or_eq.1 hk with hk' | rfl
      · have := h10 k hk'
        simpa [hk', hk'.le, Nat.succ_le_of_lt hk'] using this
      · simp only [le_refl, if_true, lt_irrefl, if_false, Nat.not_succ_le_self]
        rw [h4]
        exact st
    · intro k hk
      rcases Nat.lt_succ_iff_lt_or_eq.1 hk with hk' | rfl
      · have := h11 k hk'
        simpa [hk', hk'.le, Nat.succ_le_of_lt hk'] using this
      · simpa using cl

theorem step_run {env : Env V Er Fr} {mt : Method} {P : ℝ → V → Eom V → Prop} {δ : ℝ} (hI : StepsOf env mt P δ) (hk : env.KeepsEpoch) (back : Bool) {m H : Int} (hm : 2 ≤ m)
    {η : ℝ} (hη0 : 0 ≤ η) {i i' : Inst V} (hs : m ≤ dirn back * i.step) (hH : |i.step| ≤ H)
    (hc : i.fixed = false → env.SaneControl ∧ m ≤ env.opts.minStep ∧ env.opts.maxStep ≤ H) (hη : i.fixed = false → 1 / (env.opts.minStep : ℝ) ≤ η)
    (h : singleStep env i = (.ok (), i')) :
    Run mt P ((toSec H : ℚ) : ℝ) η δ back i.st 1 i'.st ∧ m ≤ dirn back * i'.step ∧ |i'.step| ≤ H ∧ i'.fixed = i.fixed ∧
      0 ≤ dirn back * (i.st.epoch + i.step - i'.st.epoch) := by
  obtain ⟨b1, b2, b3, b4, -⟩ := singleStep_dir env hk back (by omega) (fun _ => hm) hs (fun hf => ⟨(hc hf).1, (hc hf).2.1⟩) h
  obtain ⟨d, hd, h2, h3, -, h5⟩ := singleStep_ok hk h
  obtain ⟨⟨r, r1, r2⟩, u1, u2, u3⟩ := derive_used env back hm hs hH hc hd
  have hst := hI.fin _ _ h5
  obtain ⟨eom, fixed, next, err, g, st, cl⟩ := hI.rk _ _ _ r1
  refine ⟨.snoc d.used eom fixed next err (.refl) g st ?_ ?_ ?_ (by omega), b3, by rw [h3]; exact u3, b4, ?_⟩
  · rw [hst]
    simp only [← r2]
    exact cl
  · rw [← Rat.cast_abs]
    exact_mod_cast u1
  · have e : i'.st.epoch - i.st.epoch = d.dt := by omega
    rw [e]
    have u2' : |((toSec d.dt : ℚ) : ℝ) - d.used| ≤ ((if i.fixed then 0 else 1 / (env.opts.minStep : ℚ) : ℚ) : ℝ) * |(d.used : ℝ)| := by exact_mod_cast u2
    refine u2'.trans (mul_le_mul_of_nonneg_right ?_ (abs_nonneg _))
    split
    · simpa using hη0
    · rename_i hf
      have := hη (by simpa using hf)
      push_cast
      exact this
  · have : dirn back * (i.st.epoch + i.step - i'.st.epoch) = dirn back * i.step - dirn back * (i'.st.epoch - i.st.epoch) := by ring
    omega

theorem loop_run {env : Env V Er Fr} {mt : Method} {P : ℝ → V → Eom V → Prop} {δ : ℝ} (hI : StepsOf env mt P δ) (hk : env.KeepsEpoch) (cond : Cond V Er C) (back : Bool)
    (stop : Int) {m H : Int} (hm : 2 ≤ m) {η : ℝ} (hη0 : 0 ≤ η) (n : Nat) :
    ∀ (i : Inst V) (sent : List (St V)) (mem : C) (o : Outcome V Er C), m ≤ dirn back * i.step → |i.step| ≤ H →
      (i.fixed = false → env.SaneControl ∧ m ≤ env.opts.minStep ∧ env.opts.maxStep ≤ H) → (i.fixed = false → 1 / (env.opts.minStep : ℝ) ≤ η) →
      0 ≤ dirn back * (stop - i.st.epoch) → loop env cond back stop none n i sent mem = some o →
      sent.length ≤ o.sent.length ∧
      (∀ s, o.res = .ok s → ∃ k, k + sent.length ≤ o.sent.length + 1 ∧ Run mt P ((toSec H : ℚ) : ℝ) η δ back i.st k s ∧ 0 ≤ dirn back * (stop - s.epoch)) ∧
      ∀ q ∈ o.sent, q ∈ sent ∨
        ∃ k, k + sent.length ≤ o.sent.length ∧ Run mt P ((toSec H : ℚ) : ℝ) η δ back i.st k q ∧ 0 ≤ dirn back * (stop - q.epoch) := by
  induction n with
  | zero => intro i sent mem o _ _ _ _ _ h; simp [loop] at h
  | succ n ih =>
    intro i sent mem o hs hH hc hη hr h
    rw [loop] at h
    simp only at h
    split at h
    · rename_i hfin
      split at h
      · rename_i he
        simp only [Option.some.injEq, rotateBack] at h
        subst h
        refine ⟨le_rfl, fun s hs => ?_, fun q hq => .inl hq⟩
        cases hs
        exact ⟨0, by simp, .refl, hr⟩
      · rename_i hne
        split at h
        · simp only [Option.some.injEq] at h
          subst h
          exact ⟨le_rfl, fun s hs => (by cases hs), fun q hq => .inl hq⟩
        · rename_i i' hi
          simp only [Option.some.injEq, rotateBack] at h
          subst h
          have hst := (singleStep_fixed hk rfl hi).1
          simp only at hst
          have hst' : i'.st.epoch = stop := by omega
          -- the last step is a fixed step
          obtain ⟨d, hd, h2, h3, -, h5⟩ := singleStep_ok hk hi
          obtain ⟨d1, -, r, r1, r2⟩ := derive_fixed rfl hd
          have hx := hI.fin _ _ h5
          simp only at d1 r1
          obtain ⟨eom, fixed, next, err, g, st, cl⟩ := hI.rk _ _ _ r1
          have hrun : Run mt P ((toSec H : ℚ) : ℝ) η δ back i.st 1 i'.st := by
            refine .snoc (toSec (stop - i.st.epoch)) eom fixed next err (.refl) g st ?_ ?_ ?_ ?_
            · rw [hx]
              simp only [r2]
              exact cl
            · have : |stop - i.st.epoch| ≤ H := by
                have hb := abs_le.1 hH
                rw [abs_le]
                cases back <;> simp only [dirn] at * <;> simp at * <;> omega
              rw [← Rat.cast_abs]
              unfold toSec
              rw [abs_div, abs_of_pos (by norm_num : (0 : ℚ) < 1000000000)]
              push_cast
              rw [div_le_div_iff_of_pos_right (by norm_num)]
              exact_mod_cast this
            · rw [hst', sub_self, abs_zero]
              positivity
            · rw [hst']
              exact hr
          have h0 : 0 ≤ dirn back * (stop - i'.st.epoch) := by rw [hst']; simp
          refine ⟨by simp, fun s hs => ?_, fun q hq => ?_⟩
          · cases hs
            exact ⟨1, by simp; omega, hrun, h0⟩
          · rcases List.mem_append.1 hq with hq | hq
            · exact .inl hq
            · rw [List.mem_singleton] at hq
              subst hq
              exact .inr ⟨1, by simp; omega, hrun, h0⟩
    · rename_i hnf
      split at h
      · simp only [Option.some.injEq] at h
        subst h
        exact ⟨le_rfl, fun s hs => (by cases hs), fun q hq => .inl hq⟩
      · rename_i i' hi
        obtain ⟨c1, c2, c3, c4, c5⟩ := step_run hI hk back hm hη0 hs hH hc hη hi
        have hr' : 0 ≤ dirn back * (stop - i'.st.epoch) := by
          cases back <;> simp only [dirn] at * <;> simp at * <;> omega
        split at h
        · simp only [Option.some.injEq] at h
          subst h
          exact ⟨le_rfl, fun s hs => (by cases hs), fun q hq => .inl hq⟩
        · simp only [Option.some.injEq] at h
          subst h
          refine ⟨le_rfl, fun s hs => ?_, fun q hq => .inl hq⟩
          cases hs
          exact ⟨1, by simp; omega, c1, hr'⟩
        · obtain ⟨g0, g1, g2⟩ := ih i' (sent ++ [i'.st]) _ o c2 c3 (by rw [c4]; exact hc) (by rw [c4]; exact hη) hr' h
          rw [List.length_append, List.length_singleton] at g0 g1 g2
          refine ⟨by omega, fun s hs => ?_, fun q hq => ?_⟩
          · obtain ⟨k, k1, k2, k3⟩ := g1 s hs
            exact ⟨1 + k, by omega, c1.trans k2, k3⟩
          rcases g2 q hq with g | ⟨k, k1, k2, k3⟩
          · rcases List.mem_append.1 g with g | g
            · exact .inl g
            · rw [List.mem_singleton] at g
              subst g
              exact .inr ⟨1, by omega, c1, hr'⟩
          · exact .inr ⟨1 + k, by omega, c1.trans k2, k3⟩

/-! ### The sequences of a propagation -/

/-- The state returned by a propagation and all the states published follow from the initial one by at most as many steps of the method as there are states
published, and one; the times of the steps are between those of the start and of the end of the propagation. -/
theorem propagation_sequences [DecidableEq Fr] {env : Env V Er Fr} {mt : Method} {P : ℝ → V → Eom V → Prop} {δ : ℝ} (hI : StepsOf env mt P δ) (hk : env.KeepsEpoch)
    {cond : Cond V Er C} {fuel : Nat} {d : Int} {i : Inst V} {mem : C} {m H : Int} {o : Outcome V Er C} (hm : 2 ≤ m) (hi : Drivable env m i)
    (hstep : i.step ≤ H) (hmax : i.fixed = false → env.opts.maxStep ≤ H) {a b : ℝ} (ht0 : ((toSec i.st.epoch : ℚ) : ℝ) ∈ Set.Icc a b)
    (ht1 : ((toSec (i.st.epoch + d) : ℚ) : ℝ) ∈ Set.Icc a b) {η : ℝ} (hηd : η = if i.fixed then 0 else 1 / (env.opts.minStep : ℝ))
    (hp : propagate env cond fuel d i mem = some o) :
    0 ≤ η ∧ η ≤ 1 / 2 ∧ (0 : ℝ) ≤ (toSec H : ℚ) ∧ ∀ s, o.res = .ok s ∨ s ∈ o.sent →
      ∃ (n : Nat) (t : Nat → ℝ) (h : Nat → ℚ) (eom : Nat → Eom V) (fixed : Nat → Bool) (x next err : Nat → V), n ≤ o.sent.length + 1 ∧
      t 0 = (toSec i.st.epoch : ℚ) ∧ x 0 = i.st.x ∧ t n = (toSec s.epoch : ℚ) ∧ x n = s.x ∧ (∀ k ≤ n, t k ∈ Set.Icc a b) ∧
      (∀ k < n, |t (k + 1) - (t k + h k)| ≤ η * |(h k : ℝ)|) ∧ (∀ k < n, |(h k : ℝ)| ≤ (toSec H : ℚ)) ∧ ∑ k ∈ range n, |(h k : ℝ)| ≤ 2 * (b - a) ∧
      (∀ k < n, P (t k) (x k) (eom k)) ∧ (∀ k < n, rkStep mt.tab (eom k) (fixed k) (x k) (h k) = .ok (next k, err k)) ∧
      ∀ k < n, ‖x (k + 1) - next k‖ ≤ δ := by
  have hmin : i.fixed = false → (2 : ℝ) ≤ env.opts.minStep := fun hf => by
    have := (hi.ctl hf).2
    exact_mod_cast hm.trans this
  have hη0 : 0 ≤ η := by
    rw [hηd]
    split
    · exact le_rfl
    · rename_i hf
      have := hmin (by simpa using hf)
      positivity
  have hη1 : η ≤ 1 / 2 := by
    rw [hηd]
    split
    · norm_num
    · rename_i hf
      exact one_div_le_one_div_of_le (by norm_num) (hmin (by simpa using hf))
  have hpos : 0 < i.step := lt_of_lt_of_le (by omega) hi.step
  have hH0 : (0 : ℝ) ≤ (toSec H : ℚ) := by
    unfold toSec
    have : (0 : ℚ) ≤ H := by exact_mod_cast hpos.le.trans hstep
    exact_mod_cast (by positivity : (0 : ℚ) ≤ (H : ℚ) / 1000000000)
  refine ⟨hη0, hη1, hH0, ?_⟩
  -- every state which follows from the initial one by steps
  have main : ∀ (back : Bool) (n : ℕ) (s : St V), n ≤ o.sent.length + 1 → Run mt P ((toSec H : ℚ) : ℝ) η δ back i.st n s →
      (0 ≤ dirn back * (i.st.epoch + d - s.epoch) ∨ s = i.st) → ∃ (n : Nat) (t : Nat → ℝ) (h : Nat → ℚ) (eom : Nat → Eom V) (fixed : Nat → Bool) (x next err : Nat → V), n ≤ o.sent.length + 1 ∧
      t 0 = (toSec i.st.epoch : ℚ) ∧ x 0 = i.st.x ∧ t n = (toSec s.epoch : ℚ) ∧ x n = s.x ∧ (∀ k ≤ n, t k ∈ Set.Icc a b) ∧
      (∀ k < n, |t (k + 1) - (t k + h k)| ≤ η * |(h k : ℝ)|) ∧ (∀ k < n, |(h k : ℝ)| ≤ (toSec H : ℚ)) ∧ ∑ k ∈ range n, |(h k : ℝ)| ≤ 2 * (b - a) ∧
      (∀ k < n, P (t k) (x k) (eom k)) ∧ (∀ k < n, rkStep mt.tab (eom k) (fixed k) (x k) (h k) = .ok (next k, err k)) ∧
      ∀ k < n, ‖x (k + 1) - next k‖ ≤ δ := by
    intro back n s hn hr hs
    obtain ⟨t, h, eom, fixed, x, next, err, k1, k2, k3, k4, k5, k6, k7, k8, k9, k10, k11⟩ := hr.sequence hη1
    have hin : ∀ e : Int, 0 ≤ dirn back * (e - i.st.epoch) → 0 ≤ dirn back * (s.epoch - e) → ((toSec e : ℚ) : ℝ) ∈ Set.Icc a b := by
      intro e e1 e2
      have mono : ∀ u v : Int, u ≤ v → ((toSec u : ℚ) : ℝ) ≤ (toSec v : ℚ) := fun u v huv => by exact_mod_cast toSec_le_toSec.2 huv
      rcases hs with hs | rfl
      swap
      · have : e = i.st.epoch := by cases back <;> simp only [dirn] at e1 e2 <;> simp at e1 e2 <;> omega
        rw [this]
        exact ht0
      cases back
      · simp only [dirn, Bool.false_eq_true, if_false, one_mul] at e1 e2 hs
        exact ⟨ht0.1.trans (mono _ _ (by omega)), (mono _ _ (by omega)).trans ht1.2⟩
      · simp only [dirn, if_true, neg_mul, one_mul] at e1 e2 hs
        exact ⟨ht1.1.trans (mono _ _ (by omega)), (mono _ _ (by omega)).trans ht0.2⟩
    have hse : 0 ≤ dirn back * (s.epoch - i.st.epoch) := by
      obtain ⟨e, -, e1, e2⟩ := k5 0 (Nat.zero_le _)
      have : dirn back * (s.epoch - i.st.epoch) = dirn back * (s.epoch - e) + dirn back * (e - i.st.epoch) := by ring
      omega
    have hsum : 2 * ((toSec (dirn back * (s.epoch - i.st.epoch)) : ℚ) : ℝ) ≤ 2 * (b - a) := by
      have s1 := hin s.epoch hse (by simp)
      have : ((toSec (dirn back * (s.epoch - i.st.epoch)) : ℚ) : ℝ) ≤ b - a := by
        cases back
        · simp only [dirn]
          simp only [Bool.false_eq_true, if_false, one_mul]
          rw [toSec_sub]
          push_cast
          linarith [s1.2, ht0.1]
        · simp only [dirn]
          simp only [if_true, neg_mul, one_mul, neg_sub]
          rw [toSec_sub]
          push_cast
          linarith [s1.1, ht0.2]
      linarith
    refine ⟨n, t, h, eom, fixed, x, next, err, hn, k1, k2, k3, k4, fun k hk => ?_, k6, k7, k8.trans hsum, k9, k10, k11⟩
    obtain ⟨e, e1, e2, e3⟩ := k5 k hk
    rw [e1]
    exact hin e e2 e3
  by_cases hd : d = 0
  · unfold propagate at hp
    rw [if_pos hd] at hp
    simp only [Option.some.injEq] at hp
    subst hp
    intro s hs
    rcases hs with hs | hs
    · cases hs
      exact main false 0 i.st (by simp) .refl (.inr rfl)
    · simp at hs
  · unfold propagate at hp
    rw [if_neg hd] at hp
    simp only at hp
    split at hp
    · simp only [Option.some.injEq] at hp
      subst hp
      intro s hs
      rcases hs with hs | hs
      · cases hs
      · simp at hs
    · rename_i s hfin
      have hs := hI.fin _ _ hfin
      subst hs
      rw [hI.frame] at hp
      simp only at hp
      have hstepd : dirn (decide (d < 0)) * (if decide (d < 0) = true then -i.step else i.step) = i.step := by
        by_cases h : d < 0 <;> simp [dirn, h]
      obtain ⟨-, g1, g2⟩ := loop_run hI hk cond (decide (d < 0)) (i.st.epoch + d) (m := m) (H := H) hm hη0 fuel
        { i with st := i.st, step := if decide (d < 0) = true then -i.step else i.step } [] mem o
        (by simp only [hstepd]; exact hi.step)
        (by
          by_cases h : d < 0
          · simp only [h, decide_true, if_true, abs_neg]
            rw [abs_of_pos hpos]
            exact hstep
          · simp only [h, decide_false, Bool.false_eq_true, if_false]
            rw [abs_of_pos hpos]
            exact hstep)
        (fun hf => ⟨(hi.ctl hf).1, (hi.ctl hf).2, hmax hf⟩)
        (fun hf => by
          have hf' : i.fixed = false := hf
          rw [hηd, hf']
          simp)
        (by
          have : i.st.epoch + d - i.st.epoch = d := by ring
          simp only [this]
          by_cases h : d < 0
          · simp [dirn, h]
            omega
          · simp [dirn, h]
            omega)
        (by exact hp)
      intro s hs
      rcases hs with hs | hs
      · obtain ⟨k, k1, k2, k3⟩ := g1 s hs
        exact main _ k s (by simpa using k1) k2 (.inl k3)
      · rcases g2 s hs with g | ⟨k, k1, k2, k3⟩
        · cases g
        · exact main _ k s (by simp at k1; omega) k2 (.inl k3)

/-! ### C218 -/

/-- **C218.** A propagation with a shipped method of order `p` along a trajectory of smooth equations of motion, forward or backward, with fixed or
adaptive steps of at most `H`, whatever its stop condition: the state returned and all the states published are within a constant times
`e + H ^ p` of the trajectory at their epochs, where `e` is the error of the initial state, up to the rounding of the coefficients of the method,
for adaptive steps the rounding of the epochs to nanoseconds, and for each step the error `δ` with which it is computed.  The constant depends only on the equations and the trajectory. -/
theorem propagation_error [CompleteSpace V] [DecidableEq Fr] (mt : Method) (f : ℝ → V → V) (z : ℝ → V) (a b : ℝ) (hz : Along f mt.tab.order z a b) :
    ∃ c h0 ρ : ℝ, 0 ≤ c ∧ 0 < h0 ∧ 0 < ρ ∧ ∀ (env : Env V Er Fr) (δ : ℝ), 0 ≤ δ → Integrates env mt f δ → env.KeepsEpoch →
      ∀ (cond : Cond V Er C) (fuel : Nat) (d : Int) (i : Inst V) (mem : C) (m H : Int) (o : Outcome V Er C), 2 ≤ m → Drivable env m i → i.step ≤ H →
      (i.fixed = false → env.opts.maxStep ≤ H) → ((toSec H : ℚ) : ℝ) ≤ h0 →
      ((toSec i.st.epoch : ℚ) : ℝ) ∈ Set.Icc a b → ((toSec (i.st.epoch + d) : ℚ) : ℝ) ∈ Set.Icc a b →
      ∀ B : ℝ, B = c * (‖i.st.x - z (toSec i.st.epoch : ℚ)‖ + ((toSec H : ℚ) : ℝ) ^ mt.tab.order + treeTol mt false +
        (if i.fixed then 0 else 1 / (env.opts.minStep : ℝ)) + (o.sent.length + 1 : ℕ) * δ) → B ≤ ρ →
      propagate env cond fuel d i mem = some o →
      (∀ s, o.res = .ok s → ‖s.x - z (toSec s.epoch : ℚ)‖ ≤ B) ∧ ∀ s ∈ o.sent, ‖s.x - z (toSec s.epoch : ℚ)‖ ≤ B := by
  obtain ⟨c, h0, ρ, hc, hh0, hρ, hl⟩ := convergence mt f z a b hz (2 * (b - a)) (by linarith [hz.order])
  refine ⟨c, h0, ρ, hc, hh0, hρ, ?_⟩
  intro env δ hδ hI hk cond fuel d i mem m H o hm hi hstep hmax hH ht0 ht1 B hB hBρ hp
  obtain ⟨η, hηd⟩ : ∃ η : ℝ, η = if i.fixed then 0 else 1 / (env.opts.minStep : ℝ) := ⟨_, rfl⟩
  obtain ⟨hη0, hη1, hH0, hseq⟩ := propagation_sequences hI hk hm hi hstep hmax ht0 ht1 hηd hp
  rw [← hηd] at hB
  suffices hmain : ∀ s, o.res = .ok s ∨ s ∈ o.sent → ‖s.x - z (toSec s.epoch : ℚ)‖ ≤ B from ⟨fun s hs => hmain s (.inl hs), fun s hs => hmain s (.inr hs)⟩
  intro s hs
  obtain ⟨n, t, h, eom, fixed, x, next, err, hn, k1, k2, k3, k4, k5, k6, k7, k8, k9, k10, k11⟩ := hseq s hs
  have hnδ : c * (‖i.st.x - z (toSec i.st.epoch : ℚ)‖ + ((toSec H : ℚ) : ℝ) ^ mt.tab.order + treeTol mt false + η + ∑ k ∈ range n, δ) ≤ B := by
    rw [hB, sum_const, card_range, nsmul_eq_mul]
    have hn' : (n : ℝ) ≤ (o.sent.length + 1 : ℕ) := by exact_mod_cast hn
    gcongr
  have := hl _ η t (fun _ => δ) h eom fixed x next err n hH0 hH hη0 (by linarith) k5 k6 k7 k8 k9 k10 k11 (by rw [k1, k2]; exact hnδ.trans hBρ)
  rw [k1, k2, k3, k4] at this
  exact this.trans hnδ

/-- **C218 (exact tables, fixed steps).** With an exact table, from a state of the trajectory and with a fixed step short enough, all the states are within
a constant times the step to the power of the order of the method: no rounding and no condition on the errors is left. -/
theorem propagation_exact [CompleteSpace V] [DecidableEq Fr] (mt : Method)
    (hmt : mt = .dormandPrince45 ∨ mt = .rungeKutta4 ∨ mt = .cashKarp45 ∨ mt = .verner56) (f : ℝ → V → V) (z : ℝ → V) (a b : ℝ)
    (hz : Along f mt.tab.order z a b) :
    ∃ c h0 : ℝ, 0 ≤ c ∧ 0 < h0 ∧ ∀ (env : Env V Er Fr), Integrates env mt f 0 → env.KeepsEpoch →
      ∀ (cond : Cond V Er C) (fuel : Nat) (d : Int) (i : Inst V) (mem : C) (o : Outcome V Er C), i.fixed = true → 2 ≤ i.step →
      ((toSec i.step : ℚ) : ℝ) ≤ h0 →
      ((toSec i.st.epoch : ℚ) : ℝ) ∈ Set.Icc a b → ((toSec (i.st.epoch + d) : ℚ) : ℝ) ∈ Set.Icc a b → i.st.x = z (toSec i.st.epoch : ℚ) →
      propagate env cond fuel d i mem = some o →
      (∀ s, o.res = .ok s → ‖s.x - z (toSec s.epoch : ℚ)‖ ≤ c * ((toSec i.step : ℚ) : ℝ) ^ mt.tab.order) ∧
      ∀ s ∈ o.sent, ‖s.x - z (toSec s.epoch : ℚ)‖ ≤ c * ((toSec i.step : ℚ) : ℝ) ^ mt.tab.order := by
  obtain ⟨c, h0, ρ, hc, hh0, hρ, hl⟩ := propagation_error (Er := Er) (Fr := Fr) (C := C) mt f z a b hz
  have htol : (treeTol mt false : ℝ) = 0 := by exact_mod_cast (exact_methods mt).2 hmt
  have hp : 1 ≤ mt.tab.order := by cases mt <;> decide
  refine ⟨c, min h0 (min 1 (ρ / (c + 1))), hc, by positivity, ?_⟩
  intro env hI hk cond fuel d i mem o hf hstep hH ht0 ht1 hx hpr
  have hH0 : (0 : ℝ) ≤ (toSec i.step : ℚ) := by
    exact_mod_cast (toSec_pos.mpr (by omega : (0 : Int) < i.step)).le
  have h1 := hH.trans ((min_le_right _ _).trans (min_le_left _ _))
  have h2 : ((toSec i.step : ℚ) : ℝ) * (c + 1) ≤ ρ := by
    have := hH.trans ((min_le_right _ _).trans (min_le_right _ _))
    rwa [le_div_iff₀ (by positivity)] at this
  have h3 : ((toSec i.step : ℚ) : ℝ) ^ mt.tab.order ≤ (toSec i.step : ℚ) := pow_le_of_le_one hH0 h1 (by omega)
  refine hl env 0 le_rfl hI hk cond fuel d i mem 2 i.step o le_rfl ⟨by norm_num, hstep, fun h => ?_⟩ le_rfl (fun h => ?_) (hH.trans (min_le_left _ _)) ht0 ht1 _ ?_ ?_ hpr
  · rw [hf] at h
    cases h
  · rw [hf] at h
    cases h
  · rw [hx, sub_self, norm_zero, htol, if_pos hf, mul_zero, zero_add, add_zero, add_zero, add_zero]
  · have := mul_le_mul_of_nonneg_left h3 hc
    linarith

/-- **C219.** Forward and back: a propagation over a duration, and with the same propagator over the opposite duration, comes back to the initial epoch with
a state which differs from the initial one by at most a constant times the step to the power of the order of the method. -/
theorem round_trip [CompleteSpace V] [DecidableEq Fr] (mt : Method)
    (hmt : mt = .dormandPrince45 ∨ mt = .rungeKutta4 ∨ mt = .cashKarp45 ∨ mt = .verner56) (f : ℝ → V → V) (z : ℝ → V) (a b : ℝ)
    (hz : Along f mt.tab.order z a b) :
    ∃ c h0 : ℝ, 0 ≤ c ∧ 0 < h0 ∧ ∀ (env : Env V Er Fr), Integrates env mt f 0 → env.KeepsEpoch →
      ∀ (fuel fuel' : Nat) (d : Int) (i : Inst V) (o o' : Outcome V Er Unit) (s s' : St V), i.fixed = true → 2 ≤ i.step →
      ((toSec i.step : ℚ) : ℝ) ≤ h0 →
      ((toSec i.st.epoch : ℚ) : ℝ) ∈ Set.Icc a b → ((toSec (i.st.epoch + d) : ℚ) : ℝ) ∈ Set.Icc a b → i.st.x = z (toSec i.st.epoch : ℚ) →
      forDuration env fuel d i = some o → o.res = .ok s → forDuration env fuel' (-d) o.inst = some o' → o'.res = .ok s' →
      s'.epoch = i.st.epoch ∧ ‖s'.x - i.st.x‖ ≤ c * ((toSec i.step : ℚ) : ℝ) ^ mt.tab.order := by
  obtain ⟨c, h0, hc, hh0, hl⟩ := propagation_exact (Er := Er) (Fr := Fr) (C := Unit) mt hmt f z a b hz
  obtain ⟨c', h0', ρ, hc', hh0', hρ, hl'⟩ := propagation_error (Er := Er) (Fr := Fr) (C := Unit) mt f z a b hz
  have htol : (treeTol mt false : ℝ) = 0 := by exact_mod_cast (exact_methods mt).2 hmt
  have hp : 1 ≤ mt.tab.order := by cases mt <;> decide
  obtain ⟨k, hk0, hkd⟩ : ∃ k : ℝ, 0 ≤ k ∧ k = c' * (c + 1) := ⟨_, by positivity, rfl⟩
  refine ⟨k, min (min h0 h0') (min 1 (ρ / (k + 1))), hk0, by positivity, ?_⟩
  intro env hI hk fuel fuel' d i o o' s s' hf hstep hH ht0 ht1 hx h hs h' hs'
  obtain ⟨e1, e2⟩ := forDuration_arrives env hk fuel d i o s h hs
  obtain ⟨e3, -⟩ := forDuration_arrives env hk fuel' (-d) o.inst o' s' h' hs'
  have hstep' : o.inst.step = i.step ∧ o.inst.fixed = true := by
    by_cases hd : d = 0
    · unfold forDuration propagate at h
      rw [if_pos hd] at h
      cases h
      exact ⟨rfl, hf⟩
    · obtain ⟨-, -, g1, g2⟩ := forDuration_completed env hk fuel d i 2 hd ⟨by norm_num, hstep, fun h => by rw [hf] at h; cases h⟩ (fun _ => le_rfl) o s h hs
      exact ⟨g2 hf, by rw [g1, hf]⟩
  rw [e2] at e3
  have hep : s'.epoch = i.st.epoch := by omega
  have hH0 : (0 : ℝ) ≤ (toSec i.step : ℚ) := by
    exact_mod_cast (toSec_pos.mpr (by omega : (0 : Int) < i.step)).le
  have h1 := hH.trans ((min_le_right _ _).trans (min_le_left _ _))
  have h2 : ((toSec i.step : ℚ) : ℝ) * (k + 1) ≤ ρ := by
    have := hH.trans ((min_le_right _ _).trans (min_le_right _ _))
    rwa [le_div_iff₀ (by positivity)] at this
  have h3 : ((toSec i.step : ℚ) : ℝ) ^ mt.tab.order ≤ (toSec i.step : ℚ) := pow_le_of_le_one hH0 h1 (by omega)
  have first := (hl env hI hk never fuel d i () o hf hstep (hH.trans ((min_le_left _ _).trans (min_le_left _ _))) ht0 ht1 hx h).1 s hs
  have hB : c' * (‖o.inst.st.x - z (toSec o.inst.st.epoch : ℚ)‖ + ((toSec i.step : ℚ) : ℝ) ^ mt.tab.order + treeTol mt false +
      (if o.inst.fixed then 0 else 1 / (env.opts.minStep : ℝ)) + (o'.sent.length + 1 : ℕ) * 0) ≤ k * ((toSec i.step : ℚ) : ℝ) ^ mt.tab.order := by
    rw [e2, htol, hstep'.2, if_pos rfl, mul_zero, add_zero, add_zero, add_zero, hkd, mul_assoc]
    refine mul_le_mul_of_nonneg_left ?_ hc'
    linarith
  have second := (hl' env 0 le_rfl hI hk never fuel' (-d) o.inst () 2 i.step o' le_rfl
    ⟨by norm_num, by rw [hstep'.1]; exact hstep, fun h => by rw [hstep'.2] at h; cases h⟩ hstep'.1.le (fun h => by rw [hstep'.2] at h; cases h)
    (hH.trans ((min_le_left _ _).trans (min_le_right _ _))) (by rw [e2, e1]; exact ht1)
    (by rw [e2, e1]; simpa using ht0) _ rfl (by
      have := mul_le_mul_of_nonneg_left h3 hk0
      linarith) h').1 s' hs'
  refine ⟨hep, ?_⟩
  rw [hx, ← hep]
  exact second.trans hB

/-- Non-vacuity: the propagator of a circular orbit with a shipped method, and any error estimate for the control of its steps. -/
noncomputable def orbiter (mt : Method) (fixed : Bool) (est : ℂ × ℂ → ℚ) : Env (ℂ × ℂ) Unit Unit where
  opts := { minStep := 1000000, maxStep := 10000000000, tol := 1, attempts := 50, order := mt.tab.order }
  rk := fun st s => match rkStep mt.tab planarEom fixed st.x s with
    | .ok (x, err) => .ok ⟨x, |est err|, false⟩
    | _ => .error ()
  root := fun _ _ => 1
  finally_ := fun s => .ok s
  integrationFrame := none
  frameOf := fun _ => ()
  transform := fun _ s => .ok s

theorem orbiter_integrates (mt : Method) (fixed : Bool) (est : ℂ × ℂ → ℚ) : Integrates (orbiter mt fixed est) mt planar 0 := by
  refine ⟨?_, ?_, rfl⟩
  · intro st s r h
    refine ⟨planarEom, fixed, ?_⟩
    unfold orbiter at h
    simp only at h
    split at h
    · rename_i x err hx
      cases h
      exact ⟨x, err, planar_gives _, hx, by simp⟩
    · cases h
  · intro s s' h
    cases h
    rfl

theorem orbiter_keeps (mt : Method) (fixed : Bool) (est : ℂ × ℂ → ℚ) : (orbiter mt fixed est).KeepsEpoch := by
  constructor
  · intro s s' h
    cases h
    rfl
  · intro f s s' h
    cases h
    rfl

theorem orbiter_sane (mt : Method) (fixed : Bool) (est : ℂ × ℂ → ℚ) : (orbiter mt fixed est).SaneControl := by
  refine ⟨by simp [orbiter], by simp [orbiter], by simp [orbiter], ?_, ?_, ?_, ?_⟩
  · intro x n _; simp [orbiter]
  · intro x n _ _; simp [orbiter]
  · intro x n _; simp [orbiter]
  · intro s h r hr
    unfold orbiter at hr
    simp only at hr
    split at hr
    · cases hr
      exact abs_nonneg _
    · cases hr

/-- Adaptive steps of at most ten seconds from the circle, over a hundred seconds. -/
example (est : ℂ × ℂ → ℚ) : Drivable (orbiter .dormandPrince45 false est) 1000000 (⟨⟨0, circle 0⟩, 10000000000, false⟩ : Inst (ℂ × ℂ)) :=
  ⟨by norm_num, by norm_num, fun _ => ⟨orbiter_sane _ _ _, by simp [orbiter]⟩⟩
example := propagation_error (Er := Unit) (Fr := Unit) (C := Unit) .dormandPrince45 planar circle 0 100 (circle_along _ 0 100 (by norm_num))
example := propagation_exact (Er := Unit) (Fr := Unit) (C := Unit) .rungeKutta4 (by simp) planar circle 0 100 (circle_along _ 0 100 (by norm_num))
example := round_trip (Er := Unit) (Fr := Unit) .rungeKutta4 (by simp) planar circle 0 100 (circle_along _ 0 100 (by norm_num))

end Verif.Propagate
