import Verif.Guide.Steering
/-!
The blended law of Kluever: its direction, the elements it steers towards their targets, and those it does not.
-/
namespace Verif.Guide
open Matrix
open Verif.MathU (V3 nrm atan2 vecOfPlane dot3 ext3)
open Verif.Spacecraft (Mode)
open Verif.Target (Param Objective)
open Verif.Mc (Out)

/-- The direction of the angles computed from a non zero sum is that of the sum. -/
theorem angles_of_sum (c : V3) :
    nrm c • vecOfPlane (atan2 (c 0) (c 1)) (atan2 (c 2) (Real.sqrt (c 0 ^ 2 + c 1 ^ 2))) = c := by
  obtain ⟨a1, a2⟩ := Verif.MathU.atan2_polar (c 0) (c 1)
  obtain ⟨b1, b2⟩ := Verif.MathU.atan2_polar (c 2) (Real.sqrt (c 0 ^ 2 + c 1 ^ 2))
  have hρ : Real.sqrt (c 0 ^ 2 + c 1 ^ 2) = Real.sqrt (c 1 * c 1 + c 0 * c 0) := by congr 1; ring
  have hn : nrm c = Real.sqrt (Real.sqrt (c 0 ^ 2 + c 1 ^ 2) * Real.sqrt (c 0 ^ 2 + c 1 ^ 2) + c 2 * c 2) := by
    unfold Verif.MathU.nrm
    rw [Real.mul_self_sqrt (by positivity), dot3]
    congr 1; ring
  rw [← hn] at b1 b2
  set α := atan2 (c 0) (c 1)
  set β := atan2 (c 2) (Real.sqrt (c 0 ^ 2 + c 1 ^ 2))
  apply ext3
  · show nrm c * (Real.sin α * Real.cos β) = c 0
    rw [show nrm c * (Real.sin α * Real.cos β) = (nrm c * Real.cos β) * Real.sin α by ring, b1, hρ, a2]
  · show nrm c * (Real.cos α * Real.cos β) = c 1
    rw [show nrm c * (Real.cos α * Real.cos β) = (nrm c * Real.cos β) * Real.cos α by ring, b1, hρ, a1]
  · exact b2

/-- What the objectives that are not skipped add up to: the specification of the blend. -/
noncomputable def demand (s : Sat) (gs : List Goal) : V3 :=
  (gs.map fun g =>
    match s.value g.objective.param, pull g.objective.param s with
    | some v, some d =>
      if g.knob ≠ 0 ∧ g.objective.tol ≤ |g.objective.desired - v| then
        (g.knob * signum (g.objective.desired - v)) • (![d.1, d.2.1, d.2.2] : V3)
      else 0
    | _, _ => 0).sum

theorem blend_eq (s : Sat) (gs : List Goal) (acc c : ℝ × ℝ × ℝ) (h : blend s acc gs = some c) :
    (![c.1, c.2.1, c.2.2] : V3) = ![acc.1, acc.2.1, acc.2.2] + demand s gs := by
  induction gs generalizing acc with
  | nil =>
    simp only [blend, Option.some.injEq] at h
    subst h
    simp [demand]
  | cons g gs ih =>
    have hcons : demand s (g :: gs) = demand s [g] + demand s gs := by
      simp [demand]
    rw [hcons]
    unfold blend at h
    by_cases hk : g.knob = 0
    · rw [if_pos hk] at h
      rw [ih acc h]
      have : demand s [g] = 0 := by
        simp only [demand, List.map_cons, List.map_nil, List.sum_cons, List.sum_nil, add_zero]
        split
        · rw [if_neg (fun hc => hc.1 hk)]
        · rfl
      rw [this, zero_add]
    · rw [if_neg hk] at h
      rcases hv : s.value g.objective.param with _ | v
      · rw [hv] at h; cases h
      · rw [hv] at h
        simp only at h
        by_cases ht : |g.objective.desired - v| < g.objective.tol
        · rw [if_pos ht] at h
          rw [ih acc h]
          have : demand s [g] = 0 := by
            simp only [demand, List.map_cons, List.map_nil, List.sum_cons, List.sum_nil, add_zero, hv]
            split
            · rename_i v' d' h1 h2
              rw [Option.some.injEq] at h1
              subst h1
              rw [if_neg (fun hc => absurd ht (not_lt.2 hc.2))]
            · rfl
          rw [this, zero_add]
        · rw [if_neg ht] at h
          rcases hp : pull g.objective.param s with _ | d
          · rw [hp] at h; cases h
          · rw [hp] at h
            simp only at h
            rw [ih _ h]
            have : demand s [g] = (g.knob * signum (g.objective.desired - v)) • (![d.1, d.2.1, d.2.2] : V3) := by
              simp only [demand, List.map_cons, List.map_nil, List.sum_cons, List.sum_nil, add_zero, hv, hp]
              rw [if_pos ⟨hk, not_lt.1 ht⟩]
            rw [this, ← add_assoc]
            congr 1
            apply ext3 <;> rfl

/-- Property C140. In the thrust mode, unless a parameter is not controlled, the direction of Kluever is a unit
vector, at full throttle. It is that of the sum of what the objectives outside of their tolerance demand; when
these add up to nothing, it is along track. In the other modes both are zero. -/
theorem kluever_direction (k : Kluever) (s : Sat) (hd : Rotation s.dcm) (t : V3)
    (h : k.direction s = some t) :
    (s.mode ≠ .thrust → t = 0 ∧ k.throttle s = 0) ∧
    (s.mode = .thrust → t ⬝ᵥ t = 1 ∧ k.throttle s = 1 ∧
      nrm (demand s k.objectives) • t = s.dcm *ᵥ demand s k.objectives ∧
      (demand s k.objectives = 0 → t = s.dcm *ᵥ ![0, 1, 0])) := by
  constructor
  · intro hm
    unfold Kluever.direction at h
    rw [if_pos hm, Option.some.injEq] at h
    exact ⟨h.symm, by unfold Kluever.throttle; rw [if_neg hm]⟩
  · intro hm
    unfold Kluever.direction at h
    rw [if_neg (not_not.2 hm)] at h
    rcases hb : blend s (0, 0, 0) k.objectives with _ | c
    · rw [hb] at h; cases h
    · rw [hb] at h
      simp only [Option.some.injEq] at h
      have hc := blend_eq s k.objectives (0, 0, 0) c hb
      have hz : (![(0, 0, 0).1, (0, 0, 0).2.1, (0, 0, 0).2.2] : V3) = 0 := by
        apply ext3 <;> rfl
      rw [hz, zero_add] at hc
      have hang := angles_of_sum ![c.1, c.2.1, c.2.2]
      have e0 : (![c.1, c.2.1, c.2.2] : V3) 0 = c.1 := rfl
      have e1 : (![c.1, c.2.1, c.2.2] : V3) 1 = c.2.1 := rfl
      have e2 : (![c.1, c.2.1, c.2.2] : V3) 2 = c.2.2 := rfl
      rw [e0, e1, e2] at hang
      refine ⟨?_, ?_, ?_, ?_⟩
      · rw [← h, hd.dot, plane_unit]
      · unfold Kluever.throttle; rw [if_pos hm]
      · rw [← hc, ← h, ← mulVec_smul, hang]
      · intro h0
        rw [h0] at hc
        have z0 : c.1 = 0 := congrFun hc 0
        have z1 : c.2.1 = 0 := congrFun hc 1
        have z2 : c.2.2 = 0 := congrFun hc 2
        rw [← h, z0, z1, z2]
        congr 1
        have ha : atan2 0 0 = 0 := by unfold Verif.MathU.atan2; exact Complex.arg_zero
        rw [show (0 : ℝ) ^ 2 + 0 ^ 2 = 0 by norm_num, Real.sqrt_zero, ha]
        simp [vecOfPlane]

theorem circular_direction (gs : List Goal) (h : blend circular (0, 0, 0) gs = some (0, 0, 0)) (e : Option ℝ) :
    (⟨gs, e⟩ : Kluever).direction circular = some ![0, 1, 0] := by
  unfold Kluever.direction
  rw [if_neg (not_not.2 (show circular.mode = .thrust from rfl))]
  simp only [h]
  have ha : atan2 0 0 = 0 := by unfold Verif.MathU.atan2; exact Complex.arg_zero
  rw [show (0 : ℝ) ^ 2 + 0 ^ 2 = 0 by norm_num, Real.sqrt_zero, ha]
  simp [vecOfPlane, circular]

/-- Property C53 is false of Kluever: with every objective inside its tolerance, in the thrust mode, the direction
is not zero and the throttle is full. -/
theorem kluever_thrusts_when_achieved :
    ∃ (k : Kluever) (s : Sat) (t : V3), s.mode = .thrust ∧ AllInside s k.objectives ∧
      k.direction s = some t ∧ t ⬝ᵥ t = 1 ∧ k.throttle s = 1 := by
  refine ⟨⟨[⟨⟨.element .sma, 4, 1, 1, 0⟩, 1⟩], none⟩, circular, ![0, 1, 0], rfl, ?_, circular_direction _ ?_ _, ?_, ?_⟩
  · intro g hg v hv
    rw [List.mem_singleton] at hg
    subst hg
    have : v = 4 := (Option.some.inj hv).symm
    subst this
    norm_num
  · have : (|(4 : ℝ) - circular.sma| < 1) := by norm_num [circular]
    simp [blend, Sat.value, this]
  · rw [dot3]; simp
  · simp [Kluever.throttle, circular]

/-- An objective of weight zero is not achieved but not steered either: `next` keeps the mode on thrust, and the
law thrusts along track at full throttle. -/
theorem kluever_zero_weight :
    (Kluever.new [raise] [0]).next circular [] = .ok .thrust ∧
    (Kluever.new [raise] [0]).direction circular = some ![0, 1, 0] ∧
    (Kluever.new [raise] [0]).throttle circular = 1 := by
  refine ⟨?_, circular_direction _ ?_ _, ?_⟩
  · unfold Kluever.next Kluever.new
    rw [if_neg (show circular.mode ≠ .inhibit by simp [circular])]
    simp only [List.zip_cons_cons, List.zip_nil_right, List.map_cons, List.map_nil, raise_not_met]
  · simp [blend]
  · simp [Kluever.throttle, circular]

/-! ### One objective -/

/-- The true longitude and the equinoctial elements give back the denominator of the conic. -/
theorem Kepler.w_pos {s : Sat} (k : Kepler s) : 0 < 1 + s.equiH * Real.sin s.lon + s.equiK * Real.cos s.lon := by
  have : 1 + s.equiH * Real.sin s.lon + s.equiK * Real.cos s.lon = 1 + s.ecc * Real.cos (rad s.ta) := by
    rw [k.equiH, k.equiK, show rad s.ta = s.lon - (rad s.aop + rad s.raan) by unfold Sat.lon; ring, Real.cos_sub]
    ring
  rw [this]; exact k.den

/-- Along the direction that `pull` gives, the element grows at least as fast as along any other unit vector. -/
theorem pull_best {s : Sat} (k : Kepler s) (hi : 0 < Real.sin (rad s.inc)) (p : Elem)
    (hp : p = .sma ∨ p = .ecc ∨ p = .inc ∨ p = .raan ∨ p = .equiP ∨ p = .equiQ) :
    ∃ d, pull (.element p) s = some d ∧ 0 < nrm ![d.1, d.2.1, d.2.2] ∧
      ∀ t : V3, nrm ![d.1, d.2.1, d.2.2] • t = ![d.1, d.2.1, d.2.2] → Best p s t := by
  have unit_of : ∀ (d t : V3), 0 < nrm d → nrm d • t = d → t ⬝ᵥ t = 1 := by
    intro d t hn ht
    have h1 : (nrm d • t) ⬝ᵥ (nrm d • t) = nrm d * nrm d := by rw [ht, Verif.MathU.nrm_sq]
    rw [smul_dotProduct, dotProduct_smul, smul_eq_mul, smul_eq_mul, ← mul_assoc] at h1
    have h2 : nrm d * nrm d ≠ 0 := (mul_pos hn hn).ne'
    exact mul_left_cancel₀ h2 (by rw [h1, mul_one])
  -- a linear form `κ (d · a)` is largest along `d`
  have form_best : ∀ (d t : V3) (κ : ℝ), 0 ≤ κ → 0 < nrm d → nrm d • t = d →
      (∀ a, rate p s a = κ * (d ⬝ᵥ a)) → Best p s t := by
    intro d t κ hκ hn ht hf
    have hu := unit_of d t hn ht
    refine ⟨hu, fun a ha => ?_⟩
    rw [hf, hf]
    refine mul_le_mul_of_nonneg_left ?_ hκ
    have e1 : d ⬝ᵥ t = nrm d := by
      conv_lhs => rw [← ht]
      rw [smul_dotProduct, hu, smul_eq_mul, mul_one]
    have e2 : d ⬝ᵥ a = nrm d * (t ⬝ᵥ a) := by
      conv_lhs => rw [← ht]
      rw [smul_dotProduct, smul_eq_mul]
    rw [e1, e2]
    have : t ⬝ᵥ a ≤ 1 := by
      rw [dot3] at hu ha ⊢
      nlinarith [sq_nonneg (t 0 - a 0), sq_nonneg (t 1 - a 1), sq_nonneg (t 2 - a 2)]
    nlinarith
  have h1 := k.hmag_pos
  have h2 := k.rmag_pos
  have h3 := k.semi_pos
  have h4 := k.w_pos
  have hnz : ∀ d : V3, d ≠ 0 → 0 < nrm d := fun d h => Verif.MathU.nrm_pos d h
  have sgn : ∀ c : ℝ, nrm (![0, 0, if c ≥ 0 then 1 else -1] : V3) = 1 := by
    intro c
    unfold Verif.MathU.nrm
    rw [dot3]
    by_cases h : c ≥ 0 <;> simp [h]
  -- the normal direction of the sign of the coefficient
  have normal_best : ∀ (c κ : ℝ), 0 ≤ κ → (∀ a : V3, rate p s a = κ * (c * a 2)) →
      ∀ t : V3, nrm (![0, 0, if c ≥ 0 then 1 else -1] : V3) • t = ![0, 0, if c ≥ 0 then 1 else -1] → Best p s t := by
    intro c κ hκ hf t ht
    rw [sgn, one_smul] at ht
    subst ht
    refine ⟨?_, fun a ha => ?_⟩
    · rw [dot3]; by_cases h : c ≥ 0 <;> simp [h]
    · rw [hf, hf]
      refine mul_le_mul_of_nonneg_left ?_ hκ
      have := normal_max c a ha
      show c * a 2 ≤ c * (if c ≥ 0 then 1 else -1)
      rw [show (c * if c ≥ 0 then (1 : ℝ) else -1) = |c| from this.2]
      exact this.1
  rcases hp with rfl | rfl | rfl | rfl | rfl | rfl
  · refine ⟨_, rfl, ?_⟩
    have hne : 0 < nrm (![s.ecc * Real.sin (rad s.ta), 1 + s.ecc * Real.cos (rad s.ta), 0] : V3) := by
      apply hnz
      intro h0
      have := congrFun h0 1
      have h' : 1 + s.ecc * Real.cos (rad s.ta) = 0 := this
      have := k.den
      linarith
    refine ⟨hne, fun t ht => form_best _ t (2 * s.sma ^ 2 / s.hmag) (by positivity) hne ht ?_⟩
    intro a
    simp only [rate, k.ratio]
    rw [dot3]
    simp [Matrix.cons_val]
  · refine ⟨_, rfl, ?_⟩
    have hdE : (s.ecc + Real.cos (rad s.ta)) / (1 + s.ecc * Real.cos (rad s.ta)) = Real.cos (rad s.ea) := k.anomaly.symm
    have hne : 0 < nrm (![Real.sin (rad s.ta), Real.cos (rad s.ta) +
        (s.ecc + Real.cos (rad s.ta)) / (1 + s.ecc * Real.cos (rad s.ta)), 0] : V3) := by
      apply hnz
      intro h0
      have z0 : Real.sin (rad s.ta) = 0 := congrFun h0 0
      have z1 : Real.cos (rad s.ta) + (s.ecc + Real.cos (rad s.ta)) / (1 + s.ecc * Real.cos (rad s.ta)) = 0 :=
        congrFun h0 1
      rw [hdE] at z1
      have hb := (ecc_best k (d := _) rfl).2
      rw [z0, z1] at hb
      have hform : ∀ a : V3, rate .ecc s a = s.semiParam / s.hmag *
          (Real.sin (rad s.ta) * a 0 + (Real.cos (rad s.ta) + Real.cos (rad s.ea)) * a 1) := by
        intro a
        simp only [rate, ecc_coeffs k]
        ring
      rw [hform, z0, z1] at hb
      simp at hb
    refine ⟨hne, fun t ht => form_best _ t (s.semiParam / s.hmag) (by positivity) hne ht ?_⟩
    intro a
    simp only [rate, ecc_coeffs k, ← hdE]
    rw [dot3]
    simp [Matrix.cons_val]
    ring
  · refine ⟨_, rfl, by rw [sgn]; exact one_pos, normal_best _ (s.rmag / s.hmag) (by positivity) ?_⟩
    intro a; simp only [rate]; ring
  · refine ⟨_, rfl, by rw [sgn]; exact one_pos,
      normal_best _ (s.rmag / (s.hmag * Real.sin (rad s.inc))) (by positivity) ?_⟩
    intro a; simp only [rate]; ring
  · refine ⟨_, rfl, by rw [sgn]; exact one_pos, normal_best _ (s.semiParam / s.hmag *
      ((1 + s.equiP ^ 2 + s.equiQ ^ 2) / (2 * (1 + s.equiH * Real.sin s.lon + s.equiK * Real.cos s.lon))))
      (by positivity) ?_⟩
    intro a; simp only [rate]; ring
  · refine ⟨_, rfl, by rw [sgn]; exact one_pos, normal_best _ (s.semiParam / s.hmag *
      ((1 + s.equiP ^ 2 + s.equiQ ^ 2) / (2 * (1 + s.equiH * Real.sin s.lon + s.equiK * Real.cos s.lon))))
      (by positivity) ?_⟩
    intro a; simp only [rate]; ring

/-- Property C141. With one objective of positive weight on the semi major axis, the eccentricity, the inclination,
the node or the equinoctial elements P and Q, outside of its tolerance, the thrust of Kluever moves the element
towards its target, and no unit thrust moves it faster. The equinoctial elements H and K are missing: see
`kluever_steers_away`. -/
theorem kluever_moves_towards_partial (k : Kluever) {s : Sat} (hk : Kepler s) (hi : 0 < Real.sin (rad s.inc))
    (hd : Rotation s.dcm) (hm : s.mode = .thrust) (p : Elem)
    (hp : p = .sma ∨ p = .ecc ∨ p = .inc ∨ p = .raan ∨ p = .equiP ∨ p = .equiQ) (g : Goal) (hg : k.objectives = [g])
    (hgp : g.objective.param = .element p) (hw : 0 < g.knob) (v : ℝ) (hv : s.value (.element p) = some v)
    (hout : g.objective.tol ≤ |g.objective.desired - v|) :
    ∃ t, k.direction s = some t ∧ t ⬝ᵥ t = 1 ∧ 0 ≤ (g.objective.desired - v) * rate p s (s.dcmᵀ *ᵥ t) ∧
      ∀ a : V3, a ⬝ᵥ a = 1 → |rate p s a| ≤ |rate p s (s.dcmᵀ *ᵥ t)| := by
  obtain ⟨d, hpd, hdpos, hbest⟩ := pull_best hk hi p hp
  have hdirE : ∃ t, k.direction s = some t := by
    unfold Kluever.direction
    rw [if_neg (not_not.2 hm), hg]
    unfold blend
    rw [if_neg hw.ne', hgp, hv]
    simp only
    rw [if_neg (not_lt.2 hout), hpd]
    exact ⟨_, rfl⟩
  obtain ⟨t, ht⟩ := hdirE
  obtain ⟨hu, _, hdem, _⟩ := (kluever_direction k s hd t ht).2 hm
  have hdm : demand s k.objectives = (g.knob * signum (g.objective.desired - v)) • (![d.1, d.2.1, d.2.2] : V3) := by
    rw [hg]
    simp only [demand, List.map_cons, List.map_nil, List.sum_cons, List.sum_nil, add_zero, hgp, hv, hpd]
    rw [if_pos ⟨hw.ne', hout⟩]
  set D : V3 := ![d.1, d.2.1, d.2.2] with hD
  set σ := signum (g.objective.desired - v) with hσ
  have hσ2 : σ * σ = 1 := by rw [hσ]; unfold signum; split <;> norm_num
  have hσg : 0 ≤ (g.objective.desired - v) * σ := by
    rw [hσ]; unfold signum
    split
    · rename_i h; linarith
    · rename_i h; linarith
  have hnd : nrm (demand s k.objectives) = g.knob * nrm D := by
    have : nrm (demand s k.objectives) = Real.sqrt ((demand s k.objectives) ⬝ᵥ (demand s k.objectives)) := rfl
    rw [this, hdm, smul_dotProduct, dotProduct_smul, ← Verif.MathU.nrm_sq, smul_eq_mul, smul_eq_mul,
      show g.knob * σ * (g.knob * σ * (nrm D * nrm D)) = (σ * σ) * ((g.knob * nrm D) * (g.knob * nrm D)) by ring,
      hσ2, one_mul, Real.sqrt_mul_self (mul_nonneg hw.le hdpos.le)]
  -- the thrust in the RCN frame, up to the sign, is the best direction
  have hb : Best p s (σ • (s.dcmᵀ *ᵥ t)) := by
    apply hbest
    rw [hnd, hdm] at hdem
    have h1 := congrArg (fun x => s.dcmᵀ *ᵥ x) hdem
    simp only [mulVec_smul, mulVec_mulVec] at h1
    rw [hd, one_mulVec] at h1
    have h2 : g.knob • (nrm D • (s.dcmᵀ *ᵥ t)) = g.knob • (σ • D) := by
      rw [smul_smul, smul_smul]; exact h1
    have h3 : nrm D • (s.dcmᵀ *ᵥ t) = σ • D := by
      have := congrArg (fun x => (1 / g.knob) • x) h2
      simp only [smul_smul] at this
      rw [show 1 / g.knob * (g.knob * nrm D) = nrm D by field_simp,
        show 1 / g.knob * (g.knob * σ) = σ by field_simp] at this
      exact this
    rw [smul_comm, h3, smul_smul, hσ2, one_smul]
  have hr : rate p s (σ • (s.dcmᵀ *ᵥ t)) = σ * rate p s (s.dcmᵀ *ᵥ t) := rate_smul _ _ _ _
  have hσa : |σ| = 1 := by
    have h := abs_mul_abs_self σ
    rw [hσ2] at h
    nlinarith [abs_nonneg σ]
  refine ⟨t, ht, hu, ?_, ?_⟩
  · have h0 := hb.nonneg
    rw [hr] at h0
    have e : (g.objective.desired - v) * rate p s (s.dcmᵀ *ᵥ t) =
        ((g.objective.desired - v) * σ) * (σ * rate p s (s.dcmᵀ *ᵥ t)) := by
      rw [show (g.objective.desired - v) * σ * (σ * rate p s (s.dcmᵀ *ᵥ t)) =
        (σ * σ) * ((g.objective.desired - v) * rate p s (s.dcmᵀ *ᵥ t)) by ring, hσ2, one_mul]
    rw [e]
    exact mul_nonneg hσg h0
  · intro a ha
    have h0 := hb.abs a ha
    rw [hr] at h0
    calc |rate p s a| ≤ σ * rate p s (s.dcmᵀ *ᵥ t) := h0
      _ ≤ |σ * rate p s (s.dcmᵀ *ᵥ t)| := le_abs_self _
      _ = |rate p s (s.dcmᵀ *ᵥ t)| := by rw [abs_mul, hσa, one_mul]

example := kluever_moves_towards_partial (Kluever.new [raise] [1]) circular_kepler circular_inc rotation_one rfl
  .sma (Or.inl rfl) ⟨raise, 1⟩ rfl rfl one_pos 4 rfl (by norm_num [raise])

/-- A circular orbit at a true longitude of 90 degrees. -/
noncomputable def quarter : Sat :=
  { mode := .thrust, sma := 4, ecc := 0, inc := 90, raan := 0, aop := 0, ta := 90, ea := 90, mu := 4, vmag := 1
    rmag := 4, semiParam := 4, equiH := 0, equiK := 0, equiP := 0, equiQ := 1, equiLambda := 0
    more := fun _ => none, dcm := 1 }

theorem rad90 : rad 90 = Real.pi / 2 := by unfold rad; ring

theorem quarter_kepler : Kepler quarter where
  e0 := le_rfl
  e1 := by norm_num [quarter]
  mu := by norm_num [quarter]
  sma := by norm_num [quarter]
  semi := by norm_num [quarter]
  conic := by norm_num [quarter]
  visViva := by
    show (1 : ℝ) = Real.sqrt (4 * (2 / 4 - 1 / 4))
    norm_num
  anomaly := by simp [quarter, rad90]
  equiH := by simp [quarter]
  equiK := by simp [quarter]

/-- Property C141 is false for the equinoctial elements H and K: the radial coefficient has the wrong sign. On a
circular orbit at a true longitude of 90 degrees, the law thrusts downwards to increase K, which decreases it. -/
theorem kluever_steers_away :
    ∃ (k : Kluever) (s : Sat) (t : V3), Kepler s ∧ Rotation s.dcm ∧ s.mode = .thrust ∧
      k = Kluever.new [⟨.element .equiK, 0.1, 0.01, 1, 0⟩] [1] ∧ s.equiK = 0 ∧
      k.direction s = some t ∧ t ⬝ᵥ t = 1 ∧ rate .equiK s (s.dcmᵀ *ᵥ t) < 0 := by
  have hl : quarter.lon = Real.pi / 2 := by
    have h0 : rad 0 = 0 := by unfold rad; ring
    show rad 90 + rad 0 + rad 0 = _
    rw [rad90, h0]; ring
  have hs : Real.sin quarter.lon = 1 := by rw [hl, Real.sin_pi_div_two]
  have hc : Real.cos quarter.lon = 0 := by rw [hl, Real.cos_pi_div_two]
  have hbl : blend quarter (0, 0, 0) [⟨⟨.element .equiK, 0.1, 0.01, 1, 0⟩, 1⟩] = some (-1, 0, 0) := by
    have h1 : ¬ (|(0.1 : ℝ) - 0| < 0.01) := by norm_num
    have h2 : signum ((0.1 : ℝ) - 0) = 1 := by unfold signum; rw [if_pos (by norm_num)]
    have hk0 : quarter.equiK = 0 := rfl
    have hh0 : quarter.equiH = 0 := rfl
    simp only [blend, Sat.value, pull, hs, hc, hk0, hh0, h1, h2, one_ne_zero, if_false]
    norm_num
  refine ⟨_, quarter, ![-1, 0, 0], quarter_kepler, rotation_one, rfl, rfl, rfl, ?_, ?_, ?_⟩
  · unfold Kluever.direction Kluever.new
    rw [if_neg (not_not.2 (show quarter.mode = .thrust from rfl))]
    simp only [List.zip_cons_cons, List.zip_nil_right, List.map_cons, List.map_nil, hbl]
    have h1 := angles_of_sum ![-1, 0, 0]
    have hn : nrm (![-1, 0, 0] : V3) = 1 := by
      unfold Verif.MathU.nrm; rw [dot3]; simp
    rw [hn, one_smul] at h1
    have e0 : (![-1, 0, 0] : V3) 0 = -1 := rfl
    have e1 : (![-1, 0, 0] : V3) 1 = 0 := rfl
    have e2 : (![-1, 0, 0] : V3) 2 = 0 := rfl
    rw [e0, e1, e2] at h1
    rw [h1]
    simp [quarter]
  · rw [dot3]; simp
  · have hh : 0 < quarter.hmag := quarter_kepler.hmag_pos
    have : quarter.dcmᵀ *ᵥ ![-1, 0, 0] = ![-1, 0, 0] := by simp [quarter]
    rw [this]
    simp only [rate]
    have e0 : (![-1, 0, 0] : V3) 0 = -1 := rfl
    have e1 : (![-1, 0, 0] : V3) 1 = 0 := rfl
    have e2 : (![-1, 0, 0] : V3) 2 = 0 := rfl
    rw [e0, e1, e2, hs, show quarter.semiParam = 4 from rfl]
    have : 0 < 4 / quarter.hmag := by positivity
    nlinarith

example := (kluever_direction (Kluever.new [raise] [0]) circular rotation_one _ kluever_zero_weight.2.1).2 rfl

end Verif.Guide
