import Verif.MathU.Vectors
import Verif.Guide.Efficiency
/-!
The weights, the thrust direction, the throttle and the mode of the guidance laws of Ruggiero and Kluever.
-/
namespace Verif.Guide
open Matrix
open Verif.MathU (V3 nrm atan2 vecOfPlane)
open Verif.Spacecraft (Mode)
open Verif.Target (Param Objective)
open Verif.Mc (Out)

/-! ### Weights -/

/-- Property C53, the weights. For a positive tolerance, the weight is zero exactly when the value is inside
the tolerance or when the efficiency is below its threshold; otherwise it has the sign of the error. It is the
error over the error of the initial state, when that one was not inside the tolerance. -/
theorem weight_spec (init osc target tol eff thr : ℝ) (ht : 0 < tol) :
    (weigh init osc target tol eff thr = 0 ↔ |osc - target| < tol ∨ eff < thr) ∧
    (tol ≤ |osc - target| → thr ≤ eff → 0 < weigh init osc target tol eff thr * (target - osc)) ∧
    (tol ≤ |osc - target| → thr ≤ eff → tol ≤ |init - target| →
      |weigh init osc target tol eff thr| * |init - target| = |osc - target|) := by
  have hden : 0 < |target - if |init - target| < tol then init + tol else init| := by
    rw [abs_pos]
    split
    · rename_i h
      have := (abs_lt.1 h).1
      intro h0
      linarith
    · rename_i h
      intro h0
      have : init = target := by linarith
      rw [this, sub_self, abs_zero] at h
      exact h ht
  have hpos : tol ≤ |osc - target| → thr ≤ eff → 0 < weigh init osc target tol eff thr * (target - osc) := by
    intro h1 h2
    have hne : target - osc ≠ 0 := by
      intro h0
      have : osc - target = 0 := by linarith
      rw [this, abs_zero] at h1
      linarith
    unfold weigh
    rw [if_neg (not_or.2 ⟨not_lt.2 h1, not_lt.2 h2⟩), div_mul_eq_mul_div]
    exact div_pos (mul_self_pos.2 hne) hden
  refine ⟨⟨fun h => ?_, fun h => ?_⟩, hpos, ?_⟩
  · by_contra hc
    rw [not_or, not_lt, not_lt] at hc
    have := hpos hc.1 hc.2
    rw [h, zero_mul] at this
    exact lt_irrefl _ this
  · unfold weigh; rw [if_pos h]
  · intro h1 h2 h3
    have h3' := not_lt.2 h3
    unfold weigh
    rw [if_neg (not_or.2 ⟨not_lt.2 h1, not_lt.2 h2⟩), if_neg h3', abs_div, abs_abs, abs_sub_comm target init,
      abs_sub_comm target osc, div_mul_cancel₀]
    exact (lt_of_lt_of_le ht h3).ne'

example := weight_spec 7000 7010 7100 1 1 0 (by norm_num)

/-- Without a tolerance the weight of an element that starts on its target is a division by zero: the weight is
infinite or not a number. -/
theorem weight_divides_by_zero (target : ℝ) :
    |target - if |target - target| < 0 then target + 0 else target| = 0 := by simp

/-! ### Directions -/

/-- `dcm` is a rotation. -/
def Rotation (m : Matrix (Fin 3) (Fin 3) ℝ) : Prop := mᵀ * m = 1

theorem Rotation.dot {m : Matrix (Fin 3) (Fin 3) ℝ} (h : Rotation m) (v w : V3) :
    (m *ᵥ v) ⬝ᵥ (m *ᵥ w) = v ⬝ᵥ w := by
  rw [dotProduct_mulVec, vecMul_mulVec, ← dotProduct_mulVec, h, one_mulVec]

theorem Rotation.nrm {m : Matrix (Fin 3) (Fin 3) ℝ} (h : Rotation m) (v : V3) : MathU.nrm (m *ᵥ v) = MathU.nrm v := by
  unfold MathU.nrm; rw [h.dot]

/-- The objectives that the constructors accept. -/
def Supported (gs : List Goal) : Prop := ∀ g ∈ gs, supported g.objective.param = true

theorem value_some {p : Param Elem} (hp : supported p = true) (s : Sat) : ∃ v, s.value p = some v := by
  rcases p with _ | _ | _ | e | _ <;> try exact absurd hp Bool.false_ne_true
  cases e <;> first | exact absurd hp Bool.false_ne_true | exact ⟨_, rfl⟩

theorem efficiency_some {p : Param Elem} (hp : supported p = true) (s : Sat) : ∃ v, efficiency p s = some v := by
  rcases p with _ | _ | _ | e | _ <;> try exact absurd hp Bool.false_ne_true
  cases e <;> first | exact absurd hp Bool.false_ne_true | exact ⟨_, rfl⟩

theorem steer_some {p : Param Elem} (hp : supported p = true) (s : Sat) : ∃ v, steer p s = some v := by
  rcases p with _ | _ | _ | e | _ <;> try exact absurd hp Bool.false_ne_true
  cases e <;> first | exact absurd hp Bool.false_ne_true | exact ⟨_, rfl⟩ | skip
  simp only [steer]
  split <;> exact ⟨_, rfl⟩

theorem weighting_ok (r : Ruggiero) {o : Objective Elem} (hp : supported o.param = true) (s : Sat) (t : ℝ) :
    ∃ i v η, r.init.value o.param = some i ∧ s.value o.param = some v ∧ efficiency o.param s = some η ∧
      r.weighting o s t = .ok (weigh i v o.desired o.tol η t) := by
  obtain ⟨i, hi⟩ := value_some hp r.init
  obtain ⟨v, hv⟩ := value_some hp s
  obtain ⟨η, hη⟩ := efficiency_some hp s
  exact ⟨i, v, η, hi, hv, hη, by unfold Ruggiero.weighting; rw [hi, hv, hη]⟩

theorem steering_ok (r : Ruggiero) (s : Sat) (gs : List Goal) (h : Supported gs) (acc : V3) :
    ∃ v, r.steering s acc gs = .ok v := by
  induction gs generalizing acc with
  | nil => exact ⟨acc, rfl⟩
  | cons g gs ih =>
    have hg := h g (List.mem_cons_self ..)
    have ht : Supported gs := fun x hx => h x (List.mem_cons_of_mem _ hx)
    obtain ⟨_, _, _, _, _, _, hw⟩ := weighting_ok r hg s g.knob
    obtain ⟨d, hd⟩ := steer_some hg s
    unfold Ruggiero.steering
    rw [hw]
    simp only [Out.bind, hd]
    split
    · exact ih ht _
    · exact ih ht _

/-- Every objective of the list is strictly inside its tolerance. -/
def AllInside (s : Sat) (gs : List Goal) : Prop :=
  ∀ g ∈ gs, ∀ v, s.value g.objective.param = some v → |v - g.objective.desired| < g.objective.tol

theorem steering_inside (r : Ruggiero) (s : Sat) (gs : List Goal) (h : Supported gs) (hin : AllInside s gs)
    (acc : V3) : r.steering s acc gs = .ok acc := by
  induction gs generalizing acc with
  | nil => rfl
  | cons g gs ih =>
    have hg := h g (List.mem_cons_self ..)
    obtain ⟨i, v, η, _, hv, _, hw⟩ := weighting_ok r hg s g.knob
    have hlt := hin g (List.mem_cons_self ..) v hv
    unfold Ruggiero.steering
    rw [hw]
    simp only [Out.bind]
    rw [show weigh i v g.objective.desired g.objective.tol η g.knob = 0 by unfold weigh; rw [if_pos (Or.inl hlt)],
      abs_zero, if_pos le_rfl]
    exact ih (fun x hx => h x (List.mem_cons_of_mem _ hx)) (fun x hx => hin x (List.mem_cons_of_mem _ hx)) acc

theorem nrm_zero3 : nrm (0 : V3) = 0 := by unfold nrm; simp

theorem nrm_unitized (v : V3) (h : 0 < nrm v) : nrm ((1 / nrm v) • v) = 1 := by
  have hs := MathU.nrm_sq v
  have hd : nrm ((1 / nrm v) • v) = Real.sqrt (((1 / nrm v) • v) ⬝ᵥ ((1 / nrm v) • v)) := rfl
  rw [hd, smul_dotProduct, dotProduct_smul, smul_eq_mul, smul_eq_mul, ← hs]
  rw [show 1 / nrm v * (1 / nrm v * (nrm v * nrm v)) = 1 by field_simp, Real.sqrt_one]

/-- Property C53, the direction of Ruggiero. For the objectives that the constructors accept, the law never
fails; its direction is a unit vector or zero, with a throttle of one or zero respectively; it is zero unless the
mode is thrust, and when every objective is strictly inside its tolerance. -/
theorem ruggiero_direction_partial (r : Ruggiero) (s : Sat) (h : Supported r.objectives) (hd : Rotation s.dcm) :
    ∃ v, r.direction s = .ok v ∧
      ((v = 0 ∧ r.throttle s = .ok 0) ∨ (nrm v = 1 ∧ r.throttle s = .ok 1)) ∧
      (s.mode ≠ .thrust → v = 0) ∧ (AllInside s r.objectives → v = 0) := by
  by_cases hm : s.mode = .thrust
  · obtain ⟨v, hv⟩ := steering_ok r s r.objectives h 0
    have hdir : r.direction s = .ok (s.dcm *ᵥ (if nrm v > 0 then (1 / nrm v) • v else v)) := by
      unfold Ruggiero.direction; rw [if_pos hm, hv]; rfl
    refine ⟨_, hdir, ?_, fun hc => absurd hm hc, fun hin => ?_⟩
    · unfold Ruggiero.throttle
      rw [if_pos hm, hdir]
      simp only [Out.bind]
      by_cases hp : nrm v > 0
      · right
        have hn : nrm (s.dcm *ᵥ (if nrm v > 0 then (1 / nrm v) • v else v)) = 1 := by
          rw [hd.nrm, if_pos hp, nrm_unitized v hp]
        rw [hn]
        exact ⟨rfl, if_pos one_pos⟩
      · left
        have h0 : v = 0 := by
          by_contra hne
          exact hp (MathU.nrm_pos v hne)
        rw [if_neg hp, h0, mulVec_zero, nrm_zero3]
        exact ⟨rfl, if_neg (lt_irrefl _)⟩
    · have hz := steering_inside r s r.objectives h hin 0
      rw [hv, Out.ok.injEq] at hz
      rw [hz]
      simp [nrm_zero3]
  · exact ⟨0, by unfold Ruggiero.direction; rw [if_neg hm],
      Or.inl ⟨rfl, by unfold Ruggiero.throttle; rw [if_neg hm]⟩, fun _ => rfl, fun _ => rfl⟩

/-! ### Constructors -/

theorem collect_iff (l : List (Objective Elem × ℝ)) (gs : List Goal) :
    collect l = some gs ↔ (∀ p ∈ l, supported p.1.param = true) ∧ gs = l.map fun p => ⟨p.1, p.2⟩ := by
  induction l generalizing gs with
  | nil => simp [collect]
  | cons p l ih =>
    obtain ⟨o, t⟩ := p
    unfold collect
    by_cases hs : supported o.param = true
    · rw [if_pos hs, Option.map_eq_some_iff]
      constructor
      · rintro ⟨gs', h1, rfl⟩
        obtain ⟨h2, rfl⟩ := (ih gs').1 h1
        refine ⟨?_, rfl⟩
        intro q hq
        rcases List.mem_cons.1 hq with rfl | hq
        · exact hs
        · exact h2 q hq
      · rintro ⟨h1, rfl⟩
        exact ⟨_, (ih _).2 ⟨fun q hq => h1 q (List.mem_cons_of_mem _ hq), rfl⟩, rfl⟩
    · rw [if_neg hs]
      constructor
      · intro h; cases h
      · rintro ⟨h1, _⟩
        exact absurd (h1 _ (List.mem_cons_self ..)) hs

/-- Property C137. The constructor of Ruggiero accepts exactly the lists of one to five objectives on the
elements that the law controls, with at least as many thresholds; the threshold of an objective is the one at its
position. The law that it returns never fails. -/
theorem ruggiero_constructor (os : List (Objective Elem)) (ts : List ℝ) (init : Sat) (r : Ruggiero) :
    (Ruggiero.fromThresholds os ts init = some r ↔
      (1 ≤ os.length ∧ os.length ≤ 5 ∧ os.length ≤ ts.length ∧ (∀ o ∈ os, supported o.param = true) ∧
        r.maxEclipse = none ∧ r.init = init ∧ r.objectives.length = os.length ∧
        ∀ (i : Nat) g, r.objectives[i]? = some g → os[i]? = some g.objective ∧ ts[i]? = some g.knob)) ∧
    (Ruggiero.fromThresholds os ts init = some r → Supported r.objectives) := by
  have key : Ruggiero.fromThresholds os ts init = some r ↔
      (1 ≤ os.length ∧ os.length ≤ 5 ∧ os.length ≤ ts.length ∧ (∀ o ∈ os, supported o.param = true) ∧
        r = ⟨(os.zip ts).map fun p => ⟨p.1, p.2⟩, none, init⟩) := by
    unfold Ruggiero.fromThresholds
    have hnil : os = [] ↔ ¬ 1 ≤ os.length := by cases os <;> simp
    by_cases h1 : os.length > 5 ∨ os = []
    · rw [if_pos h1]
      constructor
      · intro h; cases h
      · rintro ⟨a, b, _⟩
        rcases h1 with h1 | h1
        · omega
        · exact absurd a (hnil.1 h1)
    · rw [if_neg h1]
      rw [not_or, hnil, not_not] at h1
      by_cases h2 : os.length > ts.length
      · rw [if_pos h2]
        constructor
        · intro h; cases h
        · rintro ⟨_, _, c, _⟩; omega
      · rw [if_neg h2, Option.map_eq_some_iff]
        have hmem : (∀ p ∈ os.zip ts, supported p.1.param = true) ↔ ∀ o ∈ os, supported o.param = true := by
          have : (os.zip ts).map Prod.fst = os := List.map_fst_zip (by omega)
          constructor
          · intro h o ho
            rw [← this, List.mem_map] at ho
            obtain ⟨p, hp, rfl⟩ := ho
            exact h p hp
          · intro h p hp
            exact h _ (by rw [← this]; exact List.mem_map_of_mem hp)
        constructor
        · rintro ⟨g, hg, rfl⟩
          obtain ⟨h3, rfl⟩ := (collect_iff _ _).1 hg
          exact ⟨h1.2, by omega, by omega, hmem.1 h3, rfl⟩
        · rintro ⟨_, _, _, h3, rfl⟩
          exact ⟨_, (collect_iff _ _).2 ⟨hmem.2 h3, rfl⟩, rfl⟩
  constructor
  · rw [key]
    constructor
    · rintro ⟨a, b, c, d, rfl⟩
      refine ⟨a, b, c, d, rfl, rfl, by simp [c], ?_⟩
      intro i g hg
      simp only [List.getElem?_map, Option.map_eq_some_iff] at hg
      obtain ⟨p, hp, rfl⟩ := hg
      rw [List.getElem?_zip_eq_some] at hp
      exact hp
    · rintro ⟨a, b, c, d, e1, e2, e3, e4⟩
      refine ⟨a, b, c, d, ?_⟩
      obtain ⟨robj, rmax, rinit⟩ := r
      simp only at e1 e2 e3 e4
      subst e1 e2
      congr 1
      refine List.ext_getElem? fun i => ?_
      simp only [List.getElem?_map]
      by_cases hi : i < robj.length
      · have hg := List.getElem?_eq_getElem hi
        obtain ⟨h1, h2⟩ := e4 i _ hg
        rw [hg]
        rw [(List.getElem?_zip_eq_some (z := (robj[i].objective, robj[i].knob))).2 ⟨h1, h2⟩]
        rfl
      · rw [List.getElem?_eq_none (by omega), List.getElem?_eq_none (by simp; omega)]
        rfl
  · intro h
    obtain ⟨_, _, _, d, rfl⟩ := key.1 h
    intro g hg
    simp only [List.mem_map] at hg
    obtain ⟨p, hp, rfl⟩ := hg
    exact d _ (List.of_mem_zip hp).1

/-! ### Eclipses -/

theorem shadowLoop_spec (bodies : List (Option ℝ)) (best p : ℝ) :
    shadowLoop best bodies = some p ↔
      (∀ b ∈ bodies, ∃ q, b = some q) ∧ (best ≤ p ∧ ∀ q, some q ∈ bodies → q ≤ p) ∧ (p = best ∨ some p ∈ bodies) := by
  induction bodies generalizing best with
  | nil => simp [shadowLoop]; constructor <;> intro h <;> simp_all
  | cons b bs ih =>
    cases b with
    | none =>
      simp only [shadowLoop]
      constructor
      · intro h; cases h
      · rintro ⟨h, _⟩
        obtain ⟨q, hq⟩ := h none (List.mem_cons_self ..)
        cases hq
    | some x =>
      simp only [shadowLoop]
      rw [ih]
      have hle : best ≤ (if x > best then x else best) := by split <;> [exact le_of_lt ‹_›; exact le_rfl]
      have hle2 : x ≤ (if x > best then x else best) := by split <;> [exact le_rfl; exact not_lt.1 ‹_›]
      constructor
      · rintro ⟨h1, ⟨h2, h3⟩, h4⟩
        refine ⟨?_, ⟨hle.trans h2, ?_⟩, ?_⟩
        · intro b hb
          rcases List.mem_cons.1 hb with rfl | hb
          · exact ⟨x, rfl⟩
          · exact h1 b hb
        · intro q hq
          rcases List.mem_cons.1 hq with hq | hq
          · cases hq; exact hle2.trans h2
          · exact h3 q hq
        · rcases h4 with h4 | h4
          · split at h4
            · right; rw [h4]; exact List.mem_cons_self ..
            · left; exact h4
          · right; exact List.mem_cons_of_mem _ h4
      · rintro ⟨h1, ⟨h2, h3⟩, h4⟩
        have hx : x ≤ p := h3 x (List.mem_cons_self ..)
        refine ⟨fun b hb => h1 b (List.mem_cons_of_mem _ hb), ⟨?_, fun q hq => h3 q (List.mem_cons_of_mem _ hq)⟩, ?_⟩
        · split <;> assumption
        · rcases h4 with h4 | h4
          · left
            split
            · linarith
            · exact h4
          · rcases List.mem_cons.1 h4 with h4 | h4
            · cases h4
              left
              split
              · rfl
              · linarith
            · right; exact h4

/-- Property C138. The shadow model reports the deepest of the eclipses by its bodies, and none (zero) when there
is none; it fails exactly when the almanac fails on a body. -/
theorem shadow_is_deepest (bodies : List (Option ℝ)) (p : ℝ) :
    shadow bodies = some p ↔
      (∀ b ∈ bodies, ∃ q, b = some q) ∧ 0 ≤ p ∧ (∀ q, some q ∈ bodies → q ≤ p) ∧ (p = 0 ∨ some p ∈ bodies) := by
  unfold shadow
  rw [shadowLoop_spec, and_assoc]

example := (shadow_is_deepest [some 20, some 70] 70).2 ⟨by simp, by norm_num, by norm_num, by simp⟩

/-! ### Modes -/

/-- All the objectives are met. -/
theorem achieved_iff (s : Sat) (os : List (Objective Elem)) :
    achieved s os = some true ↔ ∀ o ∈ os, ∃ v, s.value o.param = some v ∧ |o.mult * (o.desired - v) + o.add| ≤ o.tol := by
  induction os with
  | nil => simp [achieved]
  | cons o os ih =>
    unfold achieved
    cases hv : s.value o.param with
    | none => simp [hv]
    | some v =>
      simp only [List.forall_mem_cons, hv, Option.some.injEq]
      by_cases hm : o.met v = true
      · have hm' : |o.mult * (o.desired - v) + o.add| ≤ o.tol := of_decide_eq_true hm
        rw [if_pos hm, ih]
        constructor
        · intro h; exact ⟨⟨v, rfl, hm'⟩, h⟩
        · intro h; exact h.2
      · have hm' : ¬ |o.mult * (o.desired - v) + o.add| ≤ o.tol := fun h => hm (decide_eq_true h)
        rw [if_neg hm]
        constructor
        · intro h; simp at h
        · rintro ⟨⟨w, rfl, hw⟩, _⟩
          exact absurd hw hm'

/-- Specification: all the objectives are within their tolerances. -/
def Met (s : Sat) (os : List (Objective Elem)) : Prop :=
  ∀ o ∈ os, ∃ v, s.value o.param = some v ∧ |o.mult * (o.desired - v) + o.add| ≤ o.tol

/-- Specification: one of the objectives is out of its tolerance. -/
def Missed (s : Sat) (os : List (Objective Elem)) : Prop :=
  ∃ o ∈ os, ∃ v, s.value o.param = some v ∧ o.tol < |o.mult * (o.desired - v) + o.add|

/-- Specification: one of the bodies hides more than `e` percents of the light, which no body does if `e` is not less than zero and there
is none. -/
def Dark (bodies : List (Option ℝ)) (e : ℝ) : Prop := e < 0 ∨ ∃ p, some p ∈ bodies ∧ e < p

theorem achieved_false (s : Sat) (os : List (Objective Elem)) (h : achieved s os = some false) : Missed s os := by
  induction os with
  | nil => cases h
  | cons o os ih =>
    unfold achieved at h
    cases hv : s.value o.param with
    | none => rw [hv] at h; cases h
    | some v =>
      simp only [hv] at h
      by_cases hm : o.met v = true
      · rw [if_pos hm] at h
        obtain ⟨o', h1, h2⟩ := ih h
        exact ⟨o', List.mem_cons_of_mem _ h1, h2⟩
      · exact ⟨o, List.mem_cons_self, v, hv, not_le.1 fun hh => hm (decide_eq_true hh)⟩

theorem met_not_missed (s : Sat) (os : List (Objective Elem)) (h : Met s os) : ¬ Missed s os := by
  rintro ⟨o, ho, v, hv, h1⟩
  obtain ⟨w, hw, h2⟩ := h o ho
  rw [hv, Option.some.injEq] at hw
  subst hw
  exact absurd h2 (not_le.2 h1)

theorem shadow_dark (bodies : List (Option ℝ)) (p e : ℝ) (h : shadow bodies = some p) : e < p ↔ Dark bodies e := by
  obtain ⟨-, h1, h2, h3⟩ := (shadow_is_deepest bodies p).1 h
  constructor
  · intro he
    rcases h3 with rfl | h3
    · exact Or.inl he
    · exact Or.inr ⟨p, h3, he⟩
  · rintro (he | ⟨q, hq, he⟩)
    · exact lt_of_lt_of_le he h1
    · exact lt_of_lt_of_le he (h2 q hq)

/-- Property C54, the law of Kluever. When `next` returns, an inhibited spacecraft stays inhibited; otherwise it
coasts exactly when all the objectives are met or when the eclipse is deeper than the limit, and thrusts in the
other cases. -/
theorem kluever_next (k : Kluever) (s : Sat) (bodies : List (Option ℝ)) (m : Mode) (h : k.next s bodies = .ok m) :
    (s.mode = .inhibit ∧ m = .inhibit) ∨
    (s.mode ≠ .inhibit ∧
      ((m = .coast ∧ (Met s (k.objectives.map (·.objective)) ∨ ∃ e, k.maxEclipse = some e ∧ Dark bodies e)) ∨
       (m = .thrust ∧ Missed s (k.objectives.map (·.objective)) ∧ ∀ e, k.maxEclipse = some e → ¬ Dark bodies e))) := by
  unfold Kluever.next at h
  by_cases hm : s.mode = .inhibit
  · rw [if_pos hm, Out.ok.injEq] at h
    exact Or.inl ⟨hm, h.symm⟩
  · rw [if_neg hm] at h
    right
    refine ⟨hm, ?_⟩
    rcases ha : achieved s (k.objectives.map (·.objective)) with _ | _ | _
    · rw [ha] at h; cases h
    · rw [ha] at h
      rcases he : k.maxEclipse with _ | e
      · simp only [he, Out.ok.injEq] at h
        right
        exact ⟨h.symm, achieved_false _ _ ha, fun e h => by cases h⟩
      · simp only [he] at h
        rcases hsh : shadow bodies with _ | p
        · rw [hsh] at h; cases h
        · rw [hsh] at h
          simp only [Out.ok.injEq] at h
          by_cases hp : p > e
          · left
            rw [if_pos hp] at h
            exact ⟨h.symm, Or.inr ⟨e, rfl, (shadow_dark bodies p e hsh).1 hp⟩⟩
          · right
            rw [if_neg hp] at h
            refine ⟨h.symm, achieved_false _ _ ha, ?_⟩
            intro e' he' hd
            rw [Option.some.injEq] at he'
            subst he'
            exact hp ((shadow_dark bodies p e hsh).2 hd)
    · rw [ha, Out.ok.injEq] at h
      left
      exact ⟨h.symm, Or.inl ((achieved_iff _ _).1 ha)⟩

/-- Property C54, the law of Ruggiero: the eclipse limit has no effect. Whatever the limit and the eclipse, the
spacecraft thrusts as soon as one objective is not met. -/
theorem ruggiero_next_partial (r : Ruggiero) (s : Sat) (bodies : List (Option ℝ)) (m : Mode)
    (h : r.next s bodies = .ok m) :
    (s.mode = .inhibit ∧ m = .inhibit) ∨
    (s.mode ≠ .inhibit ∧
      ((m = .coast ∧ Met s (r.objectives.map (·.objective))) ∨ (m = .thrust ∧ Missed s (r.objectives.map (·.objective))))) := by
  unfold Ruggiero.next at h
  by_cases hm : s.mode = .inhibit
  · rw [if_pos hm, Out.ok.injEq] at h
    exact Or.inl ⟨hm, h.symm⟩
  · rw [if_neg hm] at h
    right
    refine ⟨hm, ?_⟩
    rcases ha : achieved s (r.objectives.map (·.objective)) with _ | _ | _
    · rw [ha] at h; cases h
    · rw [ha] at h
      right
      refine ⟨?_, achieved_false _ _ ha⟩
      rcases he : r.maxEclipse with _ | e
      · simp only [he, Out.ok.injEq] at h
        exact h.symm
      · simp only [he] at h
        rcases hsh : shadow bodies with _ | p
        · rw [hsh] at h; cases h
        · rw [hsh] at h
          simp only [Out.ok.injEq] at h
          exact h.symm
    · rw [ha, Out.ok.injEq] at h
      left
      exact ⟨h.symm, (achieved_iff _ _).1 ha⟩

/-- An objective on the semi major axis, not met by `circular`. -/
noncomputable def raise : Objective Elem := ⟨.element .sma, 5, 0.1, 1, 0⟩

theorem raise_not_met : achieved circular [raise] = some false := by
  have h : raise.met 4 = false := by
    rw [Objective.met]
    simp only [Objective.error, raise]
    norm_num
  show (if raise.met 4 = true then _ else _) = _
  rw [h]
  rfl

/-- Property C54 is false of Ruggiero: built with an eclipse limit of 20 %, in full umbra, the law sets the mode
to thrust, where Kluever coasts. -/
theorem ruggiero_thrusts_in_eclipse :
    ∃ r, Ruggiero.fromMaxEclipse [raise] circular 20 = some r ∧ r.maxEclipse = some 20 ∧
      shadow [some 100, some 0] = some 100 ∧ r.next circular [some 100, some 0] = .ok .thrust ∧
      (Kluever.fromMaxEclipse [raise] [1] 20).next circular [some 100, some 0] = .ok .coast := by
  have hsh : shadow [some 100, some 0] = some 100 :=
    (shadow_is_deepest _ _).2 ⟨by simp, by norm_num, by norm_num, by simp⟩
  have hne : circular.mode ≠ .inhibit := by simp [circular]
  refine ⟨⟨[⟨raise, 0⟩], some 20, circular⟩, rfl, rfl, hsh, ?_, ?_⟩
  · unfold Ruggiero.next
    rw [if_neg hne]
    simp only [List.map_cons, List.map_nil, raise_not_met, hsh]
  · unfold Kluever.next Kluever.fromMaxEclipse
    rw [if_neg hne]
    simp only [List.zip_cons_cons, List.zip_nil_right, List.map_cons, List.map_nil, raise_not_met, hsh]
    norm_num

/-- The hypotheses are met by the two calls of the previous theorem. -/
example : ∃ r : Ruggiero, Missed circular (r.objectives.map (·.objective)) ∧ r.maxEclipse = some 20 := by
  obtain ⟨r, -, h2, -, h4, -⟩ := ruggiero_thrusts_in_eclipse
  rcases ruggiero_next_partial r _ _ _ h4 with ⟨-, h⟩ | ⟨-, ⟨h, -⟩ | ⟨-, h⟩⟩
  · cases h
  · cases h
  · exact ⟨r, h, h2⟩

example : Dark [some 100, some 0] 20 := by
  obtain ⟨-, -, -, -, -, h5⟩ := ruggiero_thrusts_in_eclipse
  rcases kluever_next _ _ _ _ h5 with ⟨-, h⟩ | ⟨-, ⟨-, h | ⟨e, he, h⟩⟩ | ⟨h, -⟩⟩
  · cases h
  · exact absurd (achieved_false _ _ raise_not_met) (met_not_missed _ _ h)
  · cases he
    exact h
  · cases h

theorem rotation_one : Rotation 1 := by unfold Rotation; simp

example := ruggiero_direction_partial ⟨[⟨raise, 0⟩], none, circular⟩ circular
  (by intro g hg; simp at hg; subst hg; rfl) rotation_one

example := (ruggiero_constructor [raise] [0] circular ⟨[⟨raise, 0⟩], none, circular⟩).1.1 rfl

end Verif.Guide
