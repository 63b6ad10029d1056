import Verif.Kalman.Info
import Verif.Kalman.Examples
/-!
C248: a whole run of the filter and the least squares problem of the whole arc.
-/
namespace Verif.KalmanArc
open Matrix Verif.Kalman

variable {F Ω : Type} {s a : Nat} {chol : Chol} {dcm : F → Ω → Option (Matrix (Fin 3) (Fin 3) ℝ)}

/-! ### Specification -/

/-- The weighted square of a vector. -/
noncomputable def sq {k : Nat} (W : Matrix (Fin k) (Fin k) ℝ) (u : Fin k → ℝ) : ℝ := u ⬝ᵥ (W *ᵥ u)

/-- The transition of an operation, from the previous one. -/
noncomputable def phi : Op Ω s → Matrix (Fin s) (Fin s) ℝ
  | .time x => x.stm.getD 1
  | .msr x _ _ _ => x.stm.getD 1

/-- The deviation at the end of the operations, for a deviation `v` at their start, under the linear dynamics. -/
noncomputable def flow : List (Op Ω s) → (Fin s → ℝ) → Fin s → ℝ
  | [], v => v
  | o :: rest, v => flow rest (phi o *ᵥ v)

/-- The weighted square of the residual of one operation for a deviation `v` at its epoch; none for a time update. -/
noncomputable def misfit : Op Ω s → (Fin s → ℝ) → ℝ
  | .time _, _ => 0
  | .msr _ _ z _, v => sq z.R⁻¹ ((z.real - z.computed) - z.H *ᵥ v)

/-- The sum of the weighted squares of the residuals of all the measurements, for a deviation `v` at the start. -/
noncomputable def arcCost : List (Op Ω s) → (Fin s → ℝ) → ℝ
  | [], _ => 0
  | o :: rest, v => misfit o (phi o *ᵥ v) + arcCost rest (phi o *ᵥ v)

/-- The least squares cost of an initial deviation: its distance to that of the filter, weighted with the initial covariance, plus the
residuals of all the measurements. -/
noncomputable def total (kf : KF F Ω s a) (ops : List (Op Ω s)) (v : Fin s → ℝ) : ℝ :=
  sq kf.prev.covar⁻¹ (v - kf.prev.dev) + arcCost ops v

/-- What the data say of a change `u` of the initial deviation: the weighted squares of the changes of the measurements. -/
noncomputable def arcInfo : List (Op Ω s) → (Fin s → ℝ) → ℝ
  | [], _ => 0
  | .time x :: rest, u => arcInfo rest (x.stm.getD 1 *ᵥ u)
  | .msr x _ z _ :: rest, u => sq z.R⁻¹ (z.H *ᵥ (x.stm.getD 1 *ᵥ u)) + arcInfo rest (x.stm.getD 1 *ᵥ u)

/-- An operation that can be used: an invertible transition, a positive definite noise, no rejection threshold. -/
def Usable : Op Ω s → Prop
  | .time x => IsUnit (x.stm.getD 1).det
  | .msr x _ z t => IsUnit (x.stm.getD 1).det ∧ z.R.PosDef ∧ t = none

/-! ### Lemmas -/

/-- The weighted distance is unchanged by an invertible change of the deviation and of the covariance. -/
theorem sq_move {P T : Matrix (Fin s) (Fin s) ℝ} (hT : IsUnit T.det) (u : Fin s → ℝ) :
    sq (T * P * Tᵀ)⁻¹ (T *ᵥ u) = sq P⁻¹ u := by
  unfold sq
  have e : (T *ᵥ u) ⬝ᵥ ((T * P * Tᵀ)⁻¹ *ᵥ (T *ᵥ u)) = u ⬝ᵥ ((Tᵀ * (T * P * Tᵀ)⁻¹ * T) *ᵥ u) := by
    rw [mulVec_mulVec, ← vecMul_transpose, ← dotProduct_mulVec, mulVec_mulVec]
    simp only [Matrix.mul_assoc]
  have hTt : IsUnit Tᵀ.det := by rwa [det_transpose]
  rw [e, Matrix.mul_inv_rev, Matrix.mul_inv_rev, ← Matrix.mul_assoc, mul_nonsing_inv _ hTt, Matrix.one_mul, Matrix.mul_assoc,
    nonsing_inv_mul _ hT, Matrix.mul_one]

theorem predict_quiet {kf : KF F Ω s a} (hn : kf.noises = []) {x : Nominal Ω s} {stm : Matrix (Fin s) (Fin s) ℝ}
    {pu : Matrix (Fin s) (Fin s) ℝ × Nat} (h : kf.predict dcm x stm = .ok pu) : pu.1 = stm * kf.prev.covar * stmᵀ := by
  unfold KF.predict at h
  rw [hn] at h
  simp only [List.zipIdx_nil, List.reverse_nil, sncLoop, Res.bind] at h
  cases h
  rfl

theorem moved_posDef {P T : Matrix (Fin s) (Fin s) ℝ} (hP : P.PosDef) (hT : IsUnit T.det) : (T * P * Tᵀ).PosDef := by
  refine posDef_of_psd_det (posSemidef_conj hP.posSemidef T) ?_
  rw [det_mul, det_mul, det_transpose]
  exact mul_ne_zero (mul_ne_zero hT.ne_zero (detUnit hP).ne_zero) hT.ne_zero

/-- What a time update does without process noise. -/
theorem time_step {kf kf' : KF F Ω s a} {x : Nominal Ω s} {e : Est Ω s} (hv : kf.variant = .deviationTracking) (hn : kf.noises = [])
    (h : kf.timeUpdate dcm x = .ok (kf', e)) :
    kf'.variant = .deviationTracking ∧ kf'.noises = [] ∧ kf'.prev = e ∧ e.dev = x.stm.getD 1 *ᵥ kf.prev.dev ∧
      e.covar = x.stm.getD 1 * kf.prev.covar * (x.stm.getD 1)ᵀ := by
  obtain ⟨stm, pu, h1, h2, h3, h4⟩ := timeUpdate_ok h
  subst h3
  have := predict_quiet hn h2
  rw [h1, h4]
  refine ⟨hv, by simp [KF.store, hn], rfl, by rw [if_pos hv]; rfl, this⟩

/-- One operation: the cost after it and its residual are the cost before it, up to a constant. -/
theorem step_cost (hc : CholSpec chol) {kf : KF F Ω s a} (hv : kf.variant = .deviationTracking) (hn : kf.noises = [])
    (hP : kf.prev.covar.PosDef) {x : Nominal Ω s} {m : Nat} {z : MsrIn s m} (hx : IsUnit (x.stm.getD 1).det) (hR : z.R.PosDef)
    {kf' : KF F Ω s a} {e : Est Ω s} {r : Resid m} {g : Option (Matrix (Fin s) (Fin m) ℝ)}
    (h : kf.measurementUpdate chol dcm x z none = .ok (kf', e, r, g)) :
    kf'.variant = .deviationTracking ∧ kf'.noises = [] ∧ kf'.prev.covar.PosDef ∧
      (∃ c : ℝ, 0 ≤ c ∧ ∀ v, sq kf.prev.covar⁻¹ (v - kf.prev.dev) + sq z.R⁻¹ ((z.real - z.computed) - z.H *ᵥ (x.stm.getD 1 *ᵥ v)) =
        c + sq kf'.prev.covar⁻¹ (x.stm.getD 1 *ᵥ v - kf'.prev.dev)) ∧
      ∀ u, sq kf.prev.covar⁻¹ u + sq z.R⁻¹ (z.H *ᵥ (x.stm.getD 1 *ᵥ u)) = sq kf'.prev.covar⁻¹ (x.stm.getD 1 *ᵥ u) := by
  have hr := no_threshold_no_rejection _ _ _ _ _ _ _ h
  have hq : ∀ q ∈ kf.noises, ∀ i, 0 ≤ q.diag i := by rw [hn]; simp
  have hPs : SymPsd kf.prev.covar := (symPsd_iff _).2 hP.posSemidef
  obtain ⟨kb, eb, S, g1, -, -, -, -, -, -, -, g8⟩ := accepted_form hc hPs hq ((symPsd_iff _).2 hR.posSemidef) h hr
  obtain ⟨t1, t2, t3, t4, t5⟩ := time_step hv hn g1
  have hbd : eb.covar.PosDef := by rw [t5]; exact moved_posDef hP hx
  obtain ⟨i1, i2⟩ := accepted_info hc hPs hq hR h hr g1 hbd
  set T := x.stm.getD 1 with hT
  have hI : (eb.covar⁻¹ + z.Hᵀ * z.R⁻¹ * z.H).PosDef := by
    refine hbd.inv.add_posSemidef ?_
    have := posSemidef_conj hR.inv.posSemidef z.Hᵀ
    rwa [transpose_transpose] at this
  have hinv : e.covar⁻¹ = eb.covar⁻¹ + z.Hᵀ * z.R⁻¹ * z.H := inv_eq_left_inv i1
  have hec : e.covar = (eb.covar⁻¹ + z.Hᵀ * z.R⁻¹ * z.H)⁻¹ := (inv_eq_right_inv i1).symm
  have hprev : kf'.prev = e := by rw [g8]; rfl
  have hP' : kf'.prev.covar.PosDef := by rw [hprev, hec]; exact hI.inv
  refine ⟨by rw [g8]; exact t1, by rw [g8]; simp [KF.store, t2], hP', ⟨cost eb.covar eb.dev z e.dev, ?_, fun v => ?_⟩, fun u => ?_⟩
  · unfold cost
    have p1 := ((symPsd_iff _).2 hbd.inv.posSemidef).2 (e.dev - eb.dev)
    have p2 := ((symPsd_iff _).2 hR.inv.posSemidef).2 ((z.real - z.computed) - z.H *ᵥ e.dev)
    linarith
  · rw [hprev, hinv]
    have hw : T *ᵥ v = e.dev + (T *ᵥ v - e.dev) := by abel
    have hcst : cost eb.covar eb.dev z (T *ᵥ v) = cost eb.covar eb.dev z e.dev +
        (T *ᵥ v - e.dev) ⬝ᵥ ((eb.covar⁻¹ + z.Hᵀ * z.R⁻¹ * z.H) *ᵥ (T *ᵥ v - e.dev)) := by
      conv_lhs => rw [hw]
      rw [cost_expand hbd hR, i2, sub_self, dotProduct_zero, mul_zero, add_zero]
    have hm : sq kf.prev.covar⁻¹ (v - kf.prev.dev) = sq eb.covar⁻¹ (T *ᵥ v - eb.dev) := by
      rw [t5, t4, ← mulVec_sub, sq_move hx]
    rw [hm]
    exact hcst
  · rw [hprev, hinv, ← sq_move hx, ← t5]
    unfold sq
    rw [add_mulVec, dotProduct_add]
    congr 1
    rw [← mulVec_mulVec, ← mulVec_mulVec, dotProduct_mulVec (T *ᵥ u), vecMul_transpose]

/-- The run as a whole: the cost of the arc is a constant plus the distance of its end to the estimate, weighted with the final
covariance. -/
theorem run_cost (hc : CholSpec chol) : ∀ (ops : List (Op Ω s)) {kf kf' : KF F Ω s a}, kf.variant = .deviationTracking →
    kf.noises = [] → kf.prev.covar.PosDef → (∀ o ∈ ops, Usable o) → kf.run chol dcm ops = .ok kf' →
    kf'.prev.covar.PosDef ∧ (∃ c : ℝ, 0 ≤ c ∧ ∀ v, total kf ops v = c + sq kf'.prev.covar⁻¹ (flow ops v - kf'.prev.dev)) ∧
      ∀ u, sq kf.prev.covar⁻¹ u + arcInfo ops u = sq kf'.prev.covar⁻¹ (flow ops u) := by
  intro ops
  induction ops with
  | nil =>
    intro kf kf' _ _ hP _ h
    cases h
    exact ⟨hP, ⟨0, le_refl _, fun v => by simp [total, arcCost, flow]⟩, fun u => by simp [arcInfo, flow]⟩
  | cons o rest ih =>
    intro kf kf' hv hn hP ho h
    have ho' : ∀ o ∈ rest, Usable o := fun p hp => ho p (by simp [hp])
    cases o with
    | time x =>
      have hx : IsUnit (x.stm.getD 1).det := ho (.time x) (by simp)
      rw [KF.run] at h
      obtain ⟨⟨k1, e⟩, h1, h2⟩ := Res.bind_eq_ok.1 h
      obtain ⟨t1, t2, t3, t4, t5⟩ := time_step hv hn h1
      have hP1 : k1.prev.covar.PosDef := by rw [t3, t5]; exact moved_posDef hP hx
      obtain ⟨a1, ⟨c, a2, a3⟩, a4⟩ := ih t1 t2 hP1 ho' h2
      refine ⟨a1, ⟨c, a2, fun v => ?_⟩, fun u => ?_⟩
      · have := a3 (x.stm.getD 1 *ᵥ v)
        simp only [total, arcCost, flow, phi, misfit, zero_add] at this ⊢
        rw [← this, t3, t5, t4, ← mulVec_sub, sq_move hx]
      · have := a4 (x.stm.getD 1 *ᵥ u)
        simp only [arcInfo, flow, phi]
        rw [← this, t3, t5, sq_move hx]
    | msr x m z t =>
      obtain ⟨hx, hR, rfl⟩ : IsUnit (x.stm.getD 1).det ∧ z.R.PosDef ∧ t = none := ho (.msr x m z t) (by simp)
      rw [KF.run] at h
      obtain ⟨⟨k1, e, r, g⟩, h1, h2⟩ := Res.bind_eq_ok.1 h
      obtain ⟨t1, t2, t3, ⟨c1, t4, t5⟩, t6⟩ := step_cost hc hv hn hP hx hR h1
      obtain ⟨a1, ⟨c, a2, a3⟩, a4⟩ := ih t1 t2 t3 ho' h2
      refine ⟨a1, ⟨c1 + c, add_nonneg t4 a2, fun v => ?_⟩, fun u => ?_⟩
      · have := a3 (x.stm.getD 1 *ᵥ v)
        have h5 := t5 v
        simp only [total, arcCost, flow, phi, misfit] at this ⊢
        linarith
      · have := a4 (x.stm.getD 1 *ᵥ u)
        have h6 := t6 u
        simp only [arcInfo, flow, phi]
        linarith

/-! ### C248 -/

theorem flow_surj : ∀ (ops : List (Op Ω s)), (∀ o ∈ ops, Usable o) → Function.Surjective (flow ops) := by
  intro ops
  induction ops with
  | nil => intro _ v; exact ⟨v, rfl⟩
  | cons o rest ih =>
    intro ho w
    obtain ⟨v, hv⟩ := ih (fun p hp => ho p (by simp [hp])) w
    have hx : IsUnit (phi o).det := by
      have := ho o (by simp)
      cases o with
      | time x => exact this
      | msr x m z t => exact this.1
    refine ⟨(phi o)⁻¹ *ᵥ v, ?_⟩
    rw [flow, mulVec_mulVec, mul_nonsing_inv _ hx, one_mulVec, hv]

theorem flow_sub : ∀ (ops : List (Op Ω s)) (u v : Fin s → ℝ), flow ops (u - v) = flow ops u - flow ops v := by
  intro ops
  induction ops with
  | nil => intro u v; rfl
  | cons o rest ih => intro u v; rw [flow, flow, flow, mulVec_sub, ih]

theorem arcInfo_nonneg : ∀ (ops : List (Op Ω s)), (∀ o ∈ ops, Usable o) → ∀ u, 0 ≤ arcInfo ops u := by
  intro ops
  induction ops with
  | nil => intro _ u; exact le_refl _
  | cons o rest ih =>
    intro ho u
    have ih' := ih fun p hp => ho p (by simp [hp])
    cases o with
    | time x => exact ih' _
    | msr x m z t =>
      have hR : z.R.PosDef := (ho (.msr x m z t) (by simp)).2.1
      exact add_nonneg (((symPsd_iff _).2 hR.inv.posSemidef).2 _) (ih' _)

/-- **C248.** Without process noise and without rejection, the deviation at the end of a run of the filter, in deviation tracking, is
the flow of an initial deviation that minimises the least squares cost of the initial estimate and of all the measurements, and no
other initial deviation does. -/
theorem run_is_least_squares (hc : CholSpec chol) (ops : List (Op Ω s)) (kf kf' : KF F Ω s a) (hv : kf.variant = .deviationTracking)
    (hn : kf.noises = []) (hP : kf.prev.covar.PosDef) (ho : ∀ o ∈ ops, Usable o) (h : kf.run chol dcm ops = .ok kf') :
    ∃ v0, flow ops v0 = kf'.prev.dev ∧ ∀ v, total kf ops v0 ≤ total kf ops v ∧ (total kf ops v = total kf ops v0 → v = v0) := by
  obtain ⟨hP', ⟨c, -, hcost⟩, hinfo⟩ := run_cost hc ops hv hn hP ho h
  obtain ⟨v0, hv0⟩ := flow_surj ops ho kf'.prev.dev
  have h0 : total kf ops v0 = c := by
    rw [hcost, hv0, sub_self]
    simp [sq]
  refine ⟨v0, hv0, fun v => ⟨?_, fun heq => ?_⟩⟩
  · rw [h0, hcost v]
    have := ((symPsd_iff _).2 hP'.inv.posSemidef).2 (flow ops v - kf'.prev.dev)
    unfold sq
    linarith
  · rw [h0, hcost v, ← hv0, ← flow_sub, ← hinfo] at heq
    by_contra hne
    have p1 := hP.inv.dotProduct_mulVec_pos (sub_ne_zero.2 hne)
    simp only [star_trivial] at p1
    have p2 := arcInfo_nonneg ops ho (v - v0)
    unfold sq at heq
    linarith

/-- **C248.** The covariance at the end of a run is what the initial covariance and the data leave: for every change of the initial
deviation, the square of its flow weighted with the inverse of the final covariance is its square weighted with the inverse of the
initial one, plus what the data say. -/
theorem run_information (hc : CholSpec chol) (ops : List (Op Ω s)) (kf kf' : KF F Ω s a) (hv : kf.variant = .deviationTracking)
    (hn : kf.noises = []) (hP : kf.prev.covar.PosDef) (ho : ∀ o ∈ ops, Usable o) (h : kf.run chol dcm ops = .ok kf') (u : Fin s → ℝ) :
    sq kf'.prev.covar⁻¹ (flow ops u) = sq kf.prev.covar⁻¹ u + arcInfo ops u :=
  ((run_cost hc ops hv hn hP ho h).2.2 u).symm

/-- The measurements are those of the initial deviation `w`. -/
def ExactData : List (Op Ω s) → (Fin s → ℝ) → Prop
  | [], _ => True
  | .time x :: rest, w => ExactData rest (x.stm.getD 1 *ᵥ w)
  | .msr x _ z _ :: rest, w => z.real - z.computed = z.H *ᵥ (x.stm.getD 1 *ᵥ w) ∧ ExactData rest (x.stm.getD 1 *ᵥ w)

theorem exact_cost : ∀ (ops : List (Op Ω s)) (w : Fin s → ℝ), ExactData ops w → arcCost ops w = 0 := by
  intro ops
  induction ops with
  | nil => intro w _; rfl
  | cons o rest ih =>
    intro w h
    cases o with
    | time x => rw [arcCost, phi, ih _ h]; simp [misfit]
    | msr x m z t =>
      rw [arcCost, phi, ih _ h.2, misfit, h.1, sub_self]
      simp [sq]

/-- **C248.** On exact data of a linear problem, a wrong guess is forgotten: the error left is bounded by that of the guess over what
the data say. -/
theorem guess_forgotten (hc : CholSpec chol) (ops : List (Op Ω s)) (kf kf' : KF F Ω s a) (hv : kf.variant = .deviationTracking)
    (hn : kf.noises = []) (hP : kf.prev.covar.PosDef) (ho : ∀ o ∈ ops, Usable o) (h : kf.run chol dcm ops = .ok kf')
    (w : Fin s → ℝ) (hw : ExactData ops w) (μ : ℝ) (hμ : 0 < μ) (hi : ∀ u, μ * (u ⬝ᵥ u) ≤ arcInfo ops u) :
    ∃ v0, flow ops v0 = kf'.prev.dev ∧ (w - v0) ⬝ᵥ (w - v0) ≤ sq kf.prev.covar⁻¹ (w - kf.prev.dev) / μ := by
  obtain ⟨hP', ⟨c, c0, hcost⟩, hinfo⟩ := run_cost hc ops hv hn hP ho h
  obtain ⟨v0, hv0⟩ := flow_surj ops ho kf'.prev.dev
  refine ⟨v0, hv0, ?_⟩
  have h1 := hcost w
  rw [total, exact_cost ops w hw, add_zero, ← hv0, ← flow_sub, ← hinfo] at h1
  have h2 := hi (w - v0)
  have h3 := ((symPsd_iff _).2 hP.inv.posSemidef).2 (w - v0)
  rw [le_div_iff₀ hμ]
  unfold sq at h1 ⊢
  linarith

/-! ### The hypotheses are met -/

/-- A measurement of the example filter. -/
example (y : ℝ) : ∃ kf', (exKf .deviationTracking).run someChol (fun _ _ => none) [.msr exX 1 (exZ y) none] = .ok kf' ∧
    ∃ v0, flow [.msr exX 1 (exZ y) none] v0 = kf'.prev.dev ∧ ∀ v,
      total (exKf .deviationTracking) [.msr exX 1 (exZ y) none] v0 ≤ total (exKf .deviationTracking) [.msr exX 1 (exZ y) none] v := by
  obtain ⟨⟨kf', e, r, g⟩, h⟩ := exOk .deviationTracking y none
  have hrun : (exKf .deviationTracking).run someChol (fun _ _ => none) [.msr exX 1 (exZ y) none] = .ok kf' := by
    rw [KF.run, h]; rfl
  refine ⟨kf', hrun, ?_⟩
  obtain ⟨v0, h1, h2⟩ := run_is_least_squares someChol_spec _ _ _ rfl rfl PosDef.one (by
    intro o ho
    rw [List.mem_singleton.1 ho]
    exact ⟨by simp [exX], PosDef.one, rfl⟩) hrun
  exact ⟨v0, h1, fun v => (h2 v).1⟩

/-- The same filter, with exact data: the error that is left is at most that of the guess. -/
example (y : ℝ) : ∃ kf', (exKf .deviationTracking).run someChol (fun _ _ => none) [.msr exX 1 (exZ y) none] = .ok kf' ∧
    ∃ v0 : Fin 1 → ℝ, flow [.msr exX 1 (exZ y) none] v0 = kf'.prev.dev ∧
      ((fun _ => y) - v0) ⬝ᵥ ((fun _ => y) - v0) ≤ sq 1⁻¹ ((fun _ => y) - (exKf .deviationTracking).prev.dev) / 1 := by
  obtain ⟨⟨kf', e, r, g⟩, h⟩ := exOk .deviationTracking y none
  have hrun : (exKf .deviationTracking).run someChol (fun _ _ => none) [.msr exX 1 (exZ y) none] = .ok kf' := by
    rw [KF.run, h]; rfl
  refine ⟨kf', hrun, ?_⟩
  exact guess_forgotten someChol_spec _ _ _ rfl rfl PosDef.one (by
    intro o ho
    rw [List.mem_singleton.1 ho]
    exact ⟨by simp [exX], PosDef.one, rfl⟩) hrun (fun _ => y) ⟨by funext i; simp [exZ, exX], trivial⟩ 1 (by norm_num)
    (fun u => by simp [arcInfo, sq, exZ, exX])

end Verif.KalmanArc
