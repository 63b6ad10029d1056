import Verif.Propagate.Model
import Mathlib.Tactic.Linarith
import Mathlib.Tactic.Positivity
import Mathlib.Tactic.NormNum
import Mathlib.Algebra.Order.Round
/-! Helper lemmas about the propagation model. The property theorems are in `Theorems`. -/
namespace Verif.Propagate

/-- What is assumed of the dynamics and the almanac: they do not change the epoch. -/
structure Env.KeepsEpoch {X E Fr} (env : Env X E Fr) : Prop where
  fin : ∀ s s', env.finally_ s = .ok s' → s'.epoch = s.epoch
  tr : ∀ f s s', env.transform f s = .ok s' → s'.epoch = s.epoch

/-- What is assumed of the options and the power function: `x^(1/n)` is positive and on the same
side of one as `x`; error estimates are non negative (they are norms). -/
structure Env.SaneControl {X E Fr} (env : Env X E Fr) : Prop where
  minPos : 0 < env.opts.minStep
  minMax : env.opts.minStep ≤ env.opts.maxStep
  tolPos : 0 < env.opts.tol
  rootPos : ∀ x n, 0 < x → 0 < env.root x n
  rootLe : ∀ x n, 0 < x → x ≤ 1 → env.root x n ≤ 1
  rootGe : ∀ x n, 1 ≤ x → 1 ≤ env.root x n
  errNonneg : ∀ s h r, env.rk s h = .ok r → 0 ≤ r.err

theorem toDur_toSec (d : Int) : toDur (toSec d) = d := by
  have h : toSec d * 1000000000 = (d : Rat) := by unfold toSec; ring
  unfold toDur
  rw [h]
  split
  · exact Int.floor_intCast d
  · exact Int.ceil_intCast d

theorem toSec_le_toSec {a b : Int} : toSec a ≤ toSec b ↔ a ≤ b := by
  unfold toSec
  rw [div_le_div_iff_of_pos_right (by norm_num)]
  exact Int.cast_le

theorem toSec_lt_toSec {a b : Int} : toSec a < toSec b ↔ a < b := by
  unfold toSec
  rw [div_lt_div_iff_of_pos_right (by norm_num)]
  exact Int.cast_lt

theorem toSec_pos {a : Int} : 0 < toSec a ↔ 0 < a := by
  have h := @toSec_lt_toSec 0 a
  simp only [toSec] at h ⊢
  simpa using h

theorem toSec_neg {a : Int} : toSec a < 0 ↔ a < 0 := by
  have h := @toSec_lt_toSec a 0
  simp only [toSec] at h ⊢
  simpa using h

theorem le_toDur {a : Int} {s : Rat} (ha : 0 ≤ a) (h : toSec a ≤ s) : a ≤ toDur s := by
  have h0 : 0 ≤ s := le_trans (by unfold toSec; positivity) h
  unfold toDur
  rw [if_pos h0]
  apply Int.le_floor.mpr
  have : toSec a * 1000000000 = (a : Rat) := by unfold toSec; ring
  linarith

theorem toDur_le {a : Int} {s : Rat} (h0 : 0 ≤ s) (h : s ≤ toSec a) : toDur s ≤ a := by
  unfold toDur
  rw [if_pos h0]
  have h1 : s * 1000000000 ≤ (a : Rat) := by
    have : toSec a * 1000000000 = (a : Rat) := by unfold toSec; ring
    linarith
  have := Int.floor_le_floor h1
  simpa using this

theorem toDur_neg_le {a : Int} {s : Rat} (ha : a < 0) (h : s ≤ toSec a) : toDur s ≤ a := by
  have h0 : ¬ 0 ≤ s := not_le.mpr (lt_of_le_of_lt h (toSec_neg.mpr ha))
  unfold toDur
  rw [if_neg h0]
  apply Int.ceil_le.mpr
  have : toSec a * 1000000000 = (a : Rat) := by unfold toSec; ring
  linarith

theorem clampMin_ge {o : Opts} {d : Int} (hd : 0 ≤ d) : o.minStep ≤ clampMin o d := by
  unfold clampMin
  rw [abs_of_nonneg hd]
  split <;> [skip; omega]
  split <;> omega

theorem clampMin_le {o : Opts} {d b : Int} (hd : 0 ≤ d) (hb : d ≤ b) (hm : o.minStep ≤ b) :
    clampMin o d ≤ b := by
  unfold clampMin
  rw [abs_of_nonneg hd]
  split <;> [skip; omega]
  split <;> omega

theorem clampMin_neg {o : Opts} {d : Int} (hm : 0 < o.minStep) (hd : d < 0) :
    clampMin o d ≤ -o.minStep := by
  unfold clampMin
  rw [abs_of_neg hd, if_pos hd]
  split <;> omega

theorem shrink_bounds {X E Fr} {env : Env X E Fr} (hc : env.SaneControl) {s err : Rat}
    (hs : toSec env.opts.minStep < s) (he : env.opts.tol < err) :
    toSec env.opts.minStep ≤ shrink env s err ∧ shrink env s err < s := by
  have hmin := toSec_pos.mpr hc.minPos
  have hs0 : 0 < s := lt_trans hmin hs
  have herr : 0 < err := lt_trans hc.tolPos he
  have hr1 := hc.rootLe (env.opts.tol / err) (env.opts.order - 1) (div_pos hc.tolPos herr)
    ((div_le_one herr).mpr he.le)
  unfold shrink
  simp only
  split
  · exact ⟨le_refl _, hs⟩
  · rename_i h
    refine ⟨not_lt.mp h, ?_⟩
    nlinarith

theorem grow_fwd {X E Fr} {env : Env X E Fr} (hc : env.SaneControl) {s err : Rat}
    (hs : 0 < s) (he0 : 0 ≤ err) (_he : err < env.opts.tol) :
    0 < grow env s err ∧ grow env s err ≤ toSec env.opts.maxStep := by
  have hmax : 0 < toSec env.opts.maxStep :=
    toSec_pos.mpr (lt_of_lt_of_le hc.minPos hc.minMax)
  unfold grow
  split
  · unfold signum; rw [if_neg (not_lt.mpr hs.le)]; simp [hmax]
  · rename_i h
    have herr : 0 < err := lt_of_le_of_ne he0 (Ne.symm h)
    rw [if_neg (not_lt.mpr he0)]
    have hr := hc.rootPos (env.opts.tol / err) env.opts.order (div_pos hc.tolPos herr)
    have hp : 0 < (9/10 : Rat) * s * env.root (env.opts.tol / err) env.opts.order := by positivity
    simp only
    split
    · unfold signum; rw [if_neg (not_lt.mpr hp.le)]; simp [hmax]
    · rename_i h2
      refine ⟨hp, ?_⟩
      rw [abs_of_pos hp, abs_of_pos hmax] at h2
      exact not_lt.mp h2

/-- Backward, growing keeps at least nine tenths of the magnitude (or the maximum step). -/
theorem grow_bwd {X E Fr} {env : Env X E Fr} (hc : env.SaneControl) {s err : Rat}
    (hs : s < 0) (he0 : 0 ≤ err) (he : err < env.opts.tol) :
    grow env s err ≤ (9/10) * s ∨ grow env s err = -toSec env.opts.maxStep := by
  have hmax : 0 < toSec env.opts.maxStep :=
    toSec_pos.mpr (lt_of_lt_of_le hc.minPos hc.minMax)
  unfold grow
  split
  · right; unfold signum; rw [if_pos hs]; ring
  · rename_i h
    have herr : 0 < err := lt_of_le_of_ne he0 (Ne.symm h)
    rw [if_neg (not_lt.mpr he0)]
    have hr := hc.rootGe (env.opts.tol / err) env.opts.order ((one_le_div herr).mpr he.le)
    have hp : (9/10 : Rat) * s * env.root (env.opts.tol / err) env.opts.order ≤ (9/10) * s := by
      nlinarith
    simp only
    split
    · right
      have : (9/10 : Rat) * s * env.root (env.opts.tol / err) env.opts.order < 0 := by linarith
      unfold signum; rw [if_pos this]; ring
    · left; exact hp

/-- Everything about a forward adaptive `derive`. -/
theorem deriveAdaptive_fwd {X E Fr} {env : Env X E Fr} (hc : env.SaneControl) (st : St X)
    (n : Nat) (s : Rat) (hs : 0 < s) :
    (∀ d, (deriveAdaptive env st n s).1 = .ok d →
      (∃ r, env.rk st d.used = .ok r ∧ r.x = d.x ∧ r.err = d.err ∧ r.isNaN = false) ∧
      accepts env.opts d.err d.used d.attempts ∧
      d.dt = toDur d.used ∧ d.used ≤ s ∧
      (d.used = s ∨ toSec env.opts.minStep ≤ d.used) ∧
      env.opts.minStep ≤ d.newStep ∧
      (d.newStep ≤ env.opts.maxStep ∨ d.newStep ≤ max env.opts.minStep (toDur d.used)) ∧
      n ≤ d.attempts ∧ d.attempts ≤ max n env.opts.attempts) := by
  fun_induction deriveAdaptive env st n s with
  | case1 n s e h => intro d hd; simp at hd
  | case2 n s r h ha hn => intro d hd; simp at hd
  | case3 n s r h ha hn s' =>
    intro d hd
    simp only [Except.ok.injEq] at hd
    subst hd
    have he0 := hc.errNonneg _ _ _ h
    refine ⟨⟨r, h, rfl, rfl, by simpa using hn⟩, ha, rfl, le_refl _, Or.inl rfl, ?_, ?_, le_refl _,
      le_max_left _ _⟩
    · show env.opts.minStep ≤ clampMin env.opts (toDur s')
      apply clampMin_ge
      apply le_toDur (le_refl _)
      simp only [s']
      split
      · rename_i hlt; have := (grow_fwd hc hs he0 hlt).1
        simp only [toSec]; simpa using this.le
      · simp only [toSec]; simpa using hs.le
    · simp only [s']
      split
      · rename_i hlt
        left
        obtain ⟨h1, h2⟩ := grow_fwd hc hs he0 hlt
        apply clampMin_le
        · apply le_toDur (le_refl _); simp only [toSec]; simpa using h1.le
        · exact toDur_le h1.le h2
        · exact hc.minMax
      · right
        apply clampMin_le
        · apply le_toDur (le_refl _); simp only [toSec]; simpa using hs.le
        · exact le_max_right _ _
        · exact le_max_left _ _
  | case4 n s r h ha rec_ ih =>
    intro d hd
    simp only [accepts, not_or, not_le] at ha
    obtain ⟨h1, h2⟩ := shrink_bounds hc ha.2.1 ha.1
    have hpos : 0 < shrink env s r.err :=
      lt_of_lt_of_le (toSec_pos.mpr hc.minPos) h1
    obtain ⟨a1, a2, a3, a4, a5, a6, a7, a8, a9⟩ := ih hpos d hd
    refine ⟨a1, a2, a3, le_trans a4 h2.le, ?_, a6, a7, by omega, ?_⟩
    · right; rcases a5 with a5 | a5
      · rw [a5]; exact h1
      · exact a5
    · have := ha.2.2; omega

theorem deriveAdaptive_bwd {X E Fr} {env : Env X E Fr} (hm : 0 < env.opts.minStep) (st : St X)
    (n : Nat) (s : Rat) (hs : s < 0) :
    (deriveAdaptive env st n s).2 = [s] ∧
    ∀ d, (deriveAdaptive env st n s).1 = .ok d →
      d.used = s ∧ d.attempts = n ∧ d.dt = toDur s ∧
      ∃ r, env.rk st s = .ok r ∧ r.x = d.x ∧ r.err = d.err ∧ r.isNaN = false ∧
        d.newStep = clampMin env.opts (toDur (if r.err < env.opts.tol then grow env s r.err else s))
      := by
  have hacc : ∀ err, accepts env.opts err s n := fun err =>
    Or.inr (Or.inl (le_trans hs.le (toSec_pos.mpr hm).le))
  rw [deriveAdaptive]
  split
  · exact ⟨rfl, by intro d hd; simp at hd⟩
  · rename_i r h
    rw [if_pos (hacc _)]
    split
    · exact ⟨rfl, by intro d hd; simp at hd⟩
    · refine ⟨rfl, ?_⟩
      rename_i hn
      intro d hd
      simp only [Except.ok.injEq] at hd
      subst hd
      exact ⟨rfl, rfl, rfl, r, h, rfl, rfl, by simpa using hn, rfl⟩

/-- A successful single step, unfolded. -/
theorem singleStep_ok {X E Fr} {env : Env X E Fr} (hk : env.KeepsEpoch) {i i' : Inst X}
    (h : singleStep env i = (.ok (), i')) :
    ∃ d, derive env i = .ok d ∧ i'.st.epoch = i.st.epoch + d.dt ∧ i'.step = d.newStep ∧
      i'.fixed = i.fixed ∧ env.finally_ ⟨i.st.epoch + d.dt, d.x⟩ = .ok i'.st := by
  unfold singleStep at h
  split at h
  · simp at h
  · rename_i d hd
    simp only at h
    split at h
    · simp at h
    · rename_i s hs
      simp only [Prod.mk.injEq, true_and] at h
      subst h
      exact ⟨d, hd, hk.fin _ _ hs, rfl, rfl, hs⟩

theorem derive_fixed {X E Fr} {env : Env X E Fr} {i : Inst X} {d : Derived X}
    (hf : i.fixed = true) (h : derive env i = .ok d) :
    d.dt = i.step ∧ d.newStep = i.step ∧
      ∃ r, env.rk i.st (toSec i.step) = .ok r ∧ d.x = r.x := by
  unfold derive at h
  rw [if_pos hf] at h
  split at h
  · simp at h
  · rename_i r hr
    simp only [Except.ok.injEq] at h
    subst h
    exact ⟨rfl, rfl, r, hr, rfl⟩

theorem singleStep_fixed {X E Fr} {env : Env X E Fr} (hk : env.KeepsEpoch) {i i' : Inst X}
    (hf : i.fixed = true) (h : singleStep env i = (.ok (), i')) :
    i'.st.epoch = i.st.epoch + i.step ∧ i'.step = i.step ∧ i'.fixed = true := by
  obtain ⟨d, h1, h2, h3, h4, _⟩ := singleStep_ok hk h
  obtain ⟨a, b, _⟩ := derive_fixed hf h1
  exact ⟨by rw [h2, a], by rw [h3, b], by rw [h4, hf]⟩

/-- A step in one direction: magnitude between `min m |step|` and `|step|`. -/
theorem singleStep_fwd {X E Fr} {env : Env X E Fr} (hk : env.KeepsEpoch) (hc : env.SaneControl)
    {i i' : Inst X} (hs : 0 < i.step) (h : singleStep env i = (.ok (), i')) :
    i.st.epoch + min env.opts.minStep i.step ≤ i'.st.epoch ∧
    i'.st.epoch ≤ i.st.epoch + i.step ∧
    (i'.step = i.step ∨ env.opts.minStep ≤ i'.step) ∧ i'.fixed = i.fixed := by
  by_cases hf : i.fixed = true
  · obtain ⟨a, b, c⟩ := singleStep_fixed hk hf h
    refine ⟨?_, ?_, ?_, ?_⟩
    · rw [a]; have := min_le_right env.opts.minStep i.step; omega
    · omega
    · left; exact b
    · rw [c, hf]
  · obtain ⟨d, h1, h2, h3, h4, _⟩ := singleStep_ok hk h
    unfold derive at h1
    rw [if_neg hf] at h1
    obtain ⟨_, _, a3, a4, a5, a6, _⟩ :=
      deriveAdaptive_fwd hc i.st 1 (toSec i.step) (toSec_pos.mpr hs) d h1
    have hd1 : d.dt ≤ i.step := by
      rw [a3]
      refine toDur_le ?_ a4
      rcases a5 with a5 | a5
      · rw [a5]; exact (toSec_pos.mpr hs).le
      · exact le_trans (toSec_pos.mpr hc.minPos).le a5
    have hd2 : min env.opts.minStep i.step ≤ d.dt := by
      rcases a5 with a5 | a5
      · rw [a3, a5, toDur_toSec]; exact min_le_right _ _
      · rw [a3]; exact le_trans (min_le_left _ _) (le_toDur hc.minPos.le a5)
    exact ⟨by omega, by omega, Or.inr (by rw [h3]; exact a6), h4⟩

theorem singleStep_bwd {X E Fr} {env : Env X E Fr} (hk : env.KeepsEpoch) (hc : env.SaneControl)
    (hm : 2 ≤ env.opts.minStep)
    {i i' : Inst X} (hs : i.step ≤ -2) (h : singleStep env i = (.ok (), i')) :
    i'.st.epoch = i.st.epoch + i.step ∧
    (i'.step = i.step ∨ i'.step ≤ -env.opts.minStep) ∧ i'.fixed = i.fixed := by
  by_cases hf : i.fixed = true
  · obtain ⟨a, b, c⟩ := singleStep_fixed hk hf h
    exact ⟨a, Or.inl b, by rw [c, hf]⟩
  · obtain ⟨d, h1, h2, h3, h4, _⟩ := singleStep_ok hk h
    unfold derive at h1
    rw [if_neg hf] at h1
    have hneg : toSec i.step < 0 := toSec_neg.mpr (by omega)
    obtain ⟨a1, a2, a3, r, b1, b2, b3, b4, b5⟩ :=
      (deriveAdaptive_bwd hc.minPos i.st 1 (toSec i.step) hneg).2 d h1
    rw [toDur_toSec] at a3
    refine ⟨by omega, Or.inr ?_, h4⟩
    rw [h3, b5]
    apply clampMin_neg hc.minPos
    split
    · rename_i hlt
      have : toDur (grow env (toSec i.step) r.err) ≤ -1 := by
        rcases grow_bwd hc hneg (hc.errNonneg _ _ _ b1) hlt with g | g
        · apply toDur_neg_le (by omega)
          refine le_trans g ?_
          have : (i.step : Rat) ≤ -2 := by exact_mod_cast hs
          unfold toSec
          push_cast
          linarith
        · rw [g]
          have : -toSec env.opts.maxStep = toSec (-env.opts.maxStep) := by
            unfold toSec; push_cast; ring
          rw [this, toDur_toSec]
          have := hc.minMax
          omega
      omega
    · rw [toDur_toSec]; omega

end Verif.Propagate
