import Verif.Kalman.Lemmas
/-!
Theorems on the Kalman filter: C28 (covariance), C29 (gain), C30 (rejection), C31 (ratio).
-/
namespace Verif.Kalman
open Matrix
set_option linter.unusedSectionVars false

variable {F Ω : Type} {s a m : Nat}
variable {chol : Chol}
variable {dcm : F → Ω → Option (Matrix (Fin 3) (Fin 3) ℝ)}

/-! ### Unfolding of the two updates -/

theorem timeUpdate_ok {kf kf' : KF F Ω s a} {x : Nominal Ω s} {e : Est Ω s}
    (h : kf.timeUpdate dcm x = .ok (kf', e)) :
    ∃ stm pu, x.stm = some stm ∧ kf.predict dcm x stm = .ok pu ∧ kf' = kf.store pu.2 e ∧
      e = { nominal := x
            dev := if kf.variant = .deviationTracking then stm *ᵥ kf.prev.dev else 0
            covar := pu.1, covarBar := pu.1, stm := stm, predicted := true } := by
  unfold KF.timeUpdate at h
  split at h
  · cases h
  · rename_i stm hs
    obtain ⟨pu, h1, h2⟩ := Res.bind_eq_ok.1 h
    injection h2 with h2
    injection h2 with h2 h3
    exact ⟨stm, pu, hs, h1, by rw [← h3]; exact h2.symm, h3.symm⟩

theorem predict_used (kf : KF F Ω s a) (x : Nominal Ω s) (stm : Matrix (Fin s) (Fin s) ℝ)
    {pu : Matrix (Fin s) (Fin s) ℝ × Nat} (h : kf.predict dcm x stm = .ok pu) :
    ({ kf with prevUsedSnc := pu.2 } : KF F Ω s a).predict dcm x stm = .ok pu := by
  unfold KF.predict at h ⊢
  obtain ⟨o, h1, h2⟩ := Res.bind_eq_ok.1 h
  refine Res.bind_eq_ok.2 ⟨o, h1, ?_⟩
  rcases o with _ | ⟨i, C⟩
  · cases h2; rfl
  · cases h2; rfl

theorem measurementUpdate_ok {kf kf' : KF F Ω s a} {x : Nominal Ω s} {z : MsrIn s m}
    {t : Option ℝ} {e : Est Ω s} {r : Resid m} {g : Option (Matrix (Fin s) (Fin m) ℝ)}
    (h : kf.measurementUpdate chol dcm x z t = .ok (kf', e, r, g)) :
    ∃ stm pu L, x.stm = some stm ∧ kf.predict dcm x stm = .ok pu ∧
      (chol m (z.H * (pu.1 * z.Hᵀ) + z.R) = some L ∨
        (chol m (z.H * (pu.1 * z.Hᵀ) + z.R) = none ∧ chol m z.R = some L)) ∧
      r.epoch = x.epoch ∧ r.prefit = z.real - z.computed ∧ r.realObs = z.real ∧
      r.computedObs = z.computed ∧
      r.whitened = L⁻¹ *ᵥ (z.real - z.computed) ∧ r.ratio = ratioOf r.whitened ∧
      (r.rejected = true ↔ ∃ n, t = some n ∧ n < r.ratio) ∧
      ((r.rejected = true ∧ g = none ∧ r.postfit = none ∧ kf.timeUpdate dcm x = .ok (kf', e)) ∨
       (r.rejected = false ∧ ∃ K, g = some K ∧
          gainOf chol pu.1 z.H (z.H * (pu.1 * z.Hᵀ) + z.R) = .ok K ∧
          e = { nominal := x, dev := (devPost kf.variant stm kf.prev.dev K z.H (z.real - z.computed)).1
                covar := joseph pu.1 z.H z.R K, covarBar := pu.1, stm := stm, predicted := false } ∧
          r.postfit = some (devPost kf.variant stm kf.prev.dev K z.H (z.real - z.computed)).2 ∧
          kf' = kf.store pu.2 e)) := by
  unfold KF.measurementUpdate at h
  split at h
  · cases h
  · rename_i stm hs
    obtain ⟨pu, h1, h2⟩ := Res.bind_eq_ok.1 h
    clear h
    simp only at h2
    generalize hL : factorOf chol (z.H * (pu.1 * z.Hᵀ) + z.R) z.R = oL at h2
    cases oL with
    | none => cases h2
    | some L =>
      refine ⟨stm, pu, L, hs, h1, ?_, ?_⟩
      · unfold factorOf at hL
        revert hL
        cases hc : chol m (z.H * (pu.1 * z.Hᵀ) + z.R) with
        | some L' => intro hL; left; simpa using hL
        | none => intro hL; right; exact ⟨rfl, hL⟩
      · simp only at h2
        split at h2
        · rename_i hrej
          obtain ⟨r', h3, h4⟩ := Res.bind_eq_ok.1 h2
          injection h4 with h4
          injection h4 with h4 h5
          injection h5 with h5 h6
          injection h6 with h6 h7
          subst h6 h4 h5 h7
          have hx : ∃ n, t = some n ∧ n < ratioOf (L⁻¹ *ᵥ (z.real - z.computed)) := by
            cases t with
            | none => simp [rejects] at hrej
            | some n => exact ⟨n, rfl, by simpa [rejects] using hrej⟩
          refine ⟨rfl, rfl, rfl, rfl, rfl, rfl, ⟨fun _ => hx, fun _ => rfl⟩,
            Or.inl ⟨rfl, rfl, rfl, ?_⟩⟩
          obtain ⟨kf2, e2⟩ := r'
          obtain ⟨stm', pu', g1, g2, g3, g4⟩ := timeUpdate_ok h3
          rw [hs] at g1
          cases g1
          rw [predict_used kf x stm h1] at g2
          cases g2
          unfold KF.timeUpdate
          rw [hs]
          simp only
          rw [h1, Res.bind_ok]
          simp only [Res.ok.injEq, Prod.mk.injEq]
          exact ⟨by rw [g3, g4]; rfl, g4.symm⟩
        · rename_i hrej
          obtain ⟨K, h3, h4⟩ := Res.bind_eq_ok.1 h2
          injection h4 with h4
          injection h4 with h4 h5
          injection h5 with h5 h6
          injection h6 with h6 h7
          subst h6 h4 h5 h7
          refine ⟨rfl, rfl, rfl, rfl, rfl, rfl, ?_, Or.inr ⟨rfl, K, rfl, h3, ?_, ?_, rfl⟩⟩
          · constructor
            · intro hf; cases hf
            · rintro ⟨n, rfl, hn⟩
              exact absurd (by simpa [rejects] using hn) hrej
          · rfl
          · rfl

theorem goodNoises_store {kf : KF F Ω s a} (h : GoodNoises kf) (u : Nat) (e : Est Ω s) :
    GoodNoises (kf.store u e) := by
  intro q hq
  obtain ⟨q', h1, rfl⟩ := List.mem_map.1 hq
  exact h q' h1

/-! ### C28 -/

/-- Symmetric with non negative quadratic form. -/
def SymPsd {k : Type} [Fintype k] (P : Matrix k k ℝ) : Prop :=
  (∀ i j, P i j = P j i) ∧ ∀ v : k → ℝ, 0 ≤ v ⬝ᵥ (P *ᵥ v)

theorem symPsd_iff {k : Type} [Fintype k] (P : Matrix k k ℝ) : SymPsd P ↔ P.PosSemidef := by
  rw [posSemidef_iff_dotProduct_mulVec]
  constructor
  · rintro ⟨h1, h2⟩
    refine ⟨?_, fun v => by simpa using h2 v⟩
    ext i j
    simp [conjTranspose_apply, h1 j i]
  · rintro ⟨h1, h2⟩
    refine ⟨fun i j => ?_, fun v => by simpa using h2 v⟩
    have := congrFun (congrFun h1 j) i
    simpa [conjTranspose_apply] using this

/-- The measurement noises of the history are symmetric PSD. -/
def GoodOp : Op Ω s → Prop
  | .time _ => True
  | .msr _ _ z _ => SymPsd z.R

theorem time_psd {kf kf' : KF F Ω s a} {x : Nominal Ω s} {e : Est Ω s}
    (hP : kf.prev.covar.PosSemidef) (hq : GoodNoises kf) (h : kf.timeUpdate dcm x = .ok (kf', e)) :
    kf'.prev.covar.PosSemidef ∧ GoodNoises kf' ∧ kf'.prev = e := by
  obtain ⟨stm, pu, _, h2, h3, h4⟩ := timeUpdate_ok h
  subst h3
  refine ⟨?_, goodNoises_store hq _ _, rfl⟩
  rw [h4]
  exact predict_psd hP hq h2

theorem msr_psd {kf kf' : KF F Ω s a} {x : Nominal Ω s} {z : MsrIn s m} {t : Option ℝ}
    {e : Est Ω s} {r : Resid m} {g : Option (Matrix (Fin s) (Fin m) ℝ)}
    (hP : kf.prev.covar.PosSemidef) (hq : GoodNoises kf) (hR : z.R.PosSemidef)
    (h : kf.measurementUpdate chol dcm x z t = .ok (kf', e, r, g)) :
    kf'.prev.covar.PosSemidef ∧ GoodNoises kf' ∧ kf'.prev = e := by
  obtain ⟨stm, pu, L, _, h2, _, _, _, _, _, _, _, _, hc⟩ := measurementUpdate_ok h
  rcases hc with ⟨_, _, _, h3⟩ | ⟨_, K, _, _, h4, _, h5⟩
  · exact time_psd hP hq h3
  · subst h5
    refine ⟨?_, goodNoises_store hq _ _, rfl⟩
    rw [h4]
    exact joseph_psd (predict_psd hP hq h2) hR _ _

/-- **C28.** From a symmetric positive semi-definite covariance, and for process noises with non
negative diagonals, every history of time updates and measurement updates (accepted or rejected,
with any state transition and sensitivity matrices) ends with a symmetric positive semi-definite
covariance. No assumption is made on the Cholesky decomposition. -/
theorem covariance_psd (kf kf' : KF F Ω s a) (ops : List (Op Ω s)) (hP : SymPsd kf.prev.covar)
    (hq : ∀ q ∈ kf.noises, ∀ i, 0 ≤ q.diag i) (hops : ∀ o ∈ ops, GoodOp o)
    (h : kf.run chol dcm ops = .ok kf') : SymPsd kf'.prev.covar := by
  rw [symPsd_iff] at hP ⊢
  induction ops generalizing kf with
  | nil => cases h; exact hP
  | cons o rest ih =>
    cases o with
    | time x =>
      rw [KF.run] at h
      obtain ⟨⟨kf1, e⟩, h1, h2⟩ := Res.bind_eq_ok.1 h
      obtain ⟨g1, g2, _⟩ := time_psd hP hq h1
      exact ih kf1 g1 g2 (fun o ho => hops o (List.mem_cons_of_mem _ ho)) h2
    | msr x m z t =>
      rw [KF.run] at h
      obtain ⟨⟨kf1, e, r, g⟩, h1, h2⟩ := Res.bind_eq_ok.1 h
      obtain ⟨g1, g2, _⟩ := msr_psd hP hq
        ((symPsd_iff _).1 (hops (.msr x m z t) (List.mem_cons_self ..))) h1
      exact ih kf1 g1 g2 (fun o ho => hops o (List.mem_cons_of_mem _ ho)) h2

/-! ### C29 -/

/-- Loewner order: `A` is below `B`. -/
def Below {k : Type} [Fintype k] (A B : Matrix k k ℝ) : Prop :=
  ∀ v : k → ℝ, v ⬝ᵥ (A *ᵥ v) ≤ v ⬝ᵥ (B *ᵥ v)

theorem below_of_psd {k : Type} [Fintype k] {A B D : Matrix k k ℝ} (h : B = A + D)
    (hD : D.PosSemidef) : Below A B := by
  intro v
  rw [h, add_mulVec, dotProduct_add]
  have := ((symPsd_iff D).2 hD).2 v
  linarith

/-- The gain of the code is the Kalman gain, whichever branch computed it. -/
theorem gainOf_eq (hc : CholSpec chol) {P : Matrix (Fin s) (Fin s) ℝ} {H : Matrix (Fin m) (Fin s) ℝ}
    {S : Matrix (Fin m) (Fin m) ℝ} {K : Matrix (Fin s) (Fin m) ℝ} (hS : S.PosSemidef)
    (h : gainOf chol P H S = .ok K) : S.PosDef ∧ K = P * Hᵀ * S⁻¹ := by
  have hSs : S.IsSymm := PosSemidef.symm hS
  unfold gainOf at h
  split at h
  · rename_i L hL
    obtain ⟨h1, h2, _⟩ := hc.2 _ _ _ hSs hL
    injection h with h
    refine ⟨h1, ?_⟩
    rw [← h, h2]
    rw [transpose_mul, transpose_transpose, transpose_nonsing_inv, hSs.eq]
  · split at h
    · rename_i h1
      injection h with h
      exact ⟨posDef_of_psd_det hS h1, h.symm⟩
    · cases h

theorem posDef_isUnit_det {k : Type} [Fintype k] [DecidableEq k] {S : Matrix k k ℝ} (h : S.PosDef) :
    IsUnit S.det := (isUnit_iff_isUnit_det S).1 h.isUnit

/-- **C29.** An accepted measurement on a filter with a symmetric PSD covariance, with a symmetric PSD
measurement noise: with `P` the predicted covariance (which the estimate reports), `K` the returned
gain and `P'` the updated covariance,
* `P' = (1 - K H) P`;
* `P'` is below `P`;
* for every other gain `K2`, `P'` is below the covariance `(1 - K2 H) P (1 - K2 H)^T + K2 R K2^T`
  of the update with that gain. -/
theorem gain_optimal (hc : CholSpec chol) (kf kf' : KF F Ω s a) (x : Nominal Ω s) (z : MsrIn s m)
    (t : Option ℝ) (e : Est Ω s) (r : Resid m) (K : Matrix (Fin s) (Fin m) ℝ)
    (hP : SymPsd kf.prev.covar) (hq : ∀ q ∈ kf.noises, ∀ i, 0 ≤ q.diag i) (hR : SymPsd z.R)
    (h : kf.measurementUpdate chol dcm x z t = .ok (kf', e, r, some K)) :
    e.covar = (1 - K * z.H) * e.covarBar ∧
    Below e.covar e.covarBar ∧
    ∀ K2 : Matrix (Fin s) (Fin m) ℝ,
      Below e.covar ((1 - K2 * z.H) * e.covarBar * (1 - K2 * z.H)ᵀ + K2 * z.R * K2ᵀ) := by
  rw [symPsd_iff] at hP hR
  obtain ⟨stm, pu, L, _, h2, _, _, _, _, _, _, _, _, hcase⟩ := measurementUpdate_ok h
  rcases hcase with ⟨_, h3, _, _⟩ | ⟨_, K', h3, h4, h5, _, _⟩
  · cases h3
  · cases h3
    have hPp : pu.1.PosSemidef := predict_psd hP hq h2
    have hS := innovation_psd hPp hR z.H
    obtain ⟨hSd, hK⟩ := gainOf_eq hc hS h4
    have hu := posDef_isUnit_det hSd
    have hPs := PosSemidef.symm hPp
    have key := joseph_opt (R := z.R) hPs rfl (PosSemidef.symm hS) hu
    have hcov : e.covar = pu.1 - pu.1 * z.Hᵀ * (z.H * (pu.1 * z.Hᵀ) + z.R)⁻¹ * (z.H * pu.1) := by
      rw [h5]
      simp only
      rw [joseph_eq hPs (PosSemidef.symm hR), key K, hK]
      simp
    have hbar : e.covarBar = pu.1 := by rw [h5]
    rw [hbar, hcov]
    refine ⟨?_, ?_, fun K2 => ?_⟩
    · rw [Matrix.sub_mul, Matrix.one_mul, hK, Matrix.mul_assoc _ z.H]
    · refine below_of_psd
        (D := pu.1 * z.Hᵀ * (z.H * (pu.1 * z.Hᵀ) + z.R)⁻¹ * (z.H * pu.1)) (by simp) ?_
      have := posSemidef_conj hSd.inv.posSemidef (pu.1 * z.Hᵀ)
      rw [transpose_mul, transpose_transpose, hPs] at this
      exact this
    · exact below_of_psd (key K2) (posSemidef_conj hS _)

/-- Dead branches of the code: with PSD covariances and noises, a measurement update whose innovation
covariance is not positive definite returns an error (`SingularNoiseRk`), and the error
`SingularKalmanGain` is never returned. -/
theorem singular_innovation (hc : CholSpec chol) (kf : KF F Ω s a) (x : Nominal Ω s) (z : MsrIn s m)
    (t : Option ℝ) (stm : Matrix (Fin s) (Fin s) ℝ) (pu : Matrix (Fin s) (Fin s) ℝ × Nat)
    (hP : SymPsd kf.prev.covar) (hq : ∀ q ∈ kf.noises, ∀ i, 0 ≤ q.diag i) (hR : SymPsd z.R)
    (hs : x.stm = some stm) (hp : kf.predict dcm x stm = .ok pu) :
    (∃ out, kf.measurementUpdate chol dcm x z t = .ok out) ↔
      (z.H * (pu.1 * z.Hᵀ) + z.R).PosDef := by
  rw [symPsd_iff] at hP hR
  have hPp : pu.1.PosSemidef := predict_psd hP hq hp
  have hS := innovation_psd hPp hR z.H
  constructor
  · rintro ⟨⟨kf', e, r, g⟩, h⟩
    obtain ⟨stm', pu', L, g1, g2, g3, _⟩ := measurementUpdate_ok h
    rw [hs] at g1; cases g1
    rw [hp] at g2; cases g2
    rcases g3 with g3 | ⟨_, g3⟩
    · exact (hc.2 _ _ _ (PosSemidef.symm hS) g3).1
    · have hRd := (hc.2 _ _ _ (PosSemidef.symm hR) g3).1
      rw [← Matrix.mul_assoc]
      exact PosDef.posSemidef_add (posSemidef_conj hPp z.H) hRd
  · intro hd
    obtain ⟨L, hL⟩ := hc.1 _ _ hd
    unfold KF.measurementUpdate
    rw [hs]
    simp only
    rw [hp, Res.bind_ok]
    have hf : factorOf chol (z.H * (pu.1 * z.Hᵀ) + z.R) z.R = some L := by
      unfold factorOf; rw [hL]
    simp only [hf]
    split
    · unfold KF.timeUpdate
      rw [hs]
      simp only
      rw [predict_used kf x stm hp]
      exact ⟨_, rfl⟩
    · unfold gainOf
      rw [hL]
      exact ⟨_, rfl⟩

/-! ### C30 -/

/-- **C30.** When a measurement update returns a residual flagged as rejected, the returned estimate
and the whole filter afterwards are those of a time update to the same state, no gain is returned
and there is no postfit; the flag is set exactly when a threshold is configured and the residual
ratio is above it. An accepted measurement returns a gain and an estimate that is not a prediction. -/
theorem rejected_is_time_update (kf kf' : KF F Ω s a) (x : Nominal Ω s) (z : MsrIn s m)
    (t : Option ℝ) (e : Est Ω s) (r : Resid m) (g : Option (Matrix (Fin s) (Fin m) ℝ))
    (h : kf.measurementUpdate chol dcm x z t = .ok (kf', e, r, g)) :
    (r.rejected = true ↔ ∃ n, t = some n ∧ n < r.ratio) ∧
    (r.rejected = true → kf.timeUpdate dcm x = .ok (kf', e) ∧ g = none ∧ r.postfit = none ∧
      e.predicted = true) ∧
    (r.rejected = false → g.isSome ∧ r.postfit.isSome ∧ e.predicted = false) := by
  obtain ⟨stm, pu, L, _, _, _, _, _, _, _, _, _, h1, hc⟩ := measurementUpdate_ok h
  refine ⟨h1, fun hr => ?_, fun hr => ?_⟩
  · rcases hc with ⟨_, h3, h4, h5⟩ | ⟨h3, _⟩
    · obtain ⟨_, _, _, _, _, g4⟩ := timeUpdate_ok h5
      exact ⟨h5, h3, h4, by rw [g4]⟩
    · rw [hr] at h3; cases h3
  · rcases hc with ⟨h3, _⟩ | ⟨_, K, h3, _, h5, h6, _⟩
    · rw [hr] at h3; cases h3
    · exact ⟨by rw [h3]; rfl, by rw [h6]; rfl, by rw [h5]⟩

/-- Without a threshold nothing is rejected. -/
theorem no_threshold_no_rejection (kf kf' : KF F Ω s a) (x : Nominal Ω s) (z : MsrIn s m)
    (e : Est Ω s) (r : Resid m) (g : Option (Matrix (Fin s) (Fin m) ℝ))
    (h : kf.measurementUpdate chol dcm x z none = .ok (kf', e, r, g)) : r.rejected = false := by
  have := (rejected_is_time_update kf kf' x z none e r g h).1
  cases hr : r.rejected with
  | false => rfl
  | true =>
    obtain ⟨n, hn, _⟩ := this.1 hr
    cases hn

/-! ### C31 -/

theorem ratioOf_sq (w : Fin m → ℝ) (hm : 0 < m) : ratioOf w ^ 2 * (m : ℝ) = w ⬝ᵥ w := by
  have h0 : 0 ≤ w ⬝ᵥ w := by
    unfold dotProduct
    exact Finset.sum_nonneg fun i _ => mul_self_nonneg _
  have hm' : (0 : ℝ) < m := by exact_mod_cast hm
  unfold ratioOf
  rw [Real.sq_sqrt (div_nonneg h0 hm'.le)]
  field_simp

theorem whitened_dot {k : Type} [Fintype k] [DecidableEq k] {L S : Matrix k k ℝ} (hL : L * Lᵀ = S)
    (y : k → ℝ) : (L⁻¹ *ᵥ y) ⬝ᵥ (L⁻¹ *ᵥ y) = y ⬝ᵥ (S⁻¹ *ᵥ y) := by
  rw [dotProduct_mulVec, vecMul_mulVec, ← hL, Matrix.mul_inv_rev,
    transpose_nonsing_inv, ← dotProduct_mulVec]

/-- **C31.** The reported ratio is non negative and its square times the number of measurements is
`y^T S^-1 y`, with `y` the prefit residual and `S = H P H^T + R` the innovation covariance. -/
theorem ratio_mahalanobis (hc : CholSpec chol) (kf kf' : KF F Ω s a) (x : Nominal Ω s)
    (z : MsrIn s m) (t : Option ℝ) (e : Est Ω s) (r : Resid m)
    (g : Option (Matrix (Fin s) (Fin m) ℝ)) (hm : 0 < m)
    (hP : SymPsd kf.prev.covar) (hq : ∀ q ∈ kf.noises, ∀ i, 0 ≤ q.diag i) (hR : SymPsd z.R)
    (h : kf.measurementUpdate chol dcm x z t = .ok (kf', e, r, g)) :
    0 ≤ r.ratio ∧
    r.ratio ^ 2 * (m : ℝ) = (z.real - z.computed) ⬝ᵥ
      ((z.H * e.covarBar * z.Hᵀ + z.R)⁻¹ *ᵥ (z.real - z.computed)) := by
  obtain ⟨stm, pu, L, h1, h2, h3, _, _, _, _, h5, h6, _, hcase⟩ := measurementUpdate_ok h
  have hSd := (singular_innovation hc kf x z t stm pu hP hq hR h1 h2).1 ⟨_, h⟩
  have hbar : e.covarBar = pu.1 := by
    rcases hcase with ⟨_, _, _, g4⟩ | ⟨_, K, _, _, g5, _⟩
    · obtain ⟨stm', pu', k1, k2, _, k4⟩ := timeUpdate_ok g4
      rw [h1] at k1; cases k1
      rw [h2] at k2; cases k2
      rw [k4]
    · rw [g5]
  have hL : L * Lᵀ = z.H * (pu.1 * z.Hᵀ) + z.R := by
    have hsym := PosSemidef.symm hSd.posSemidef
    rcases h3 with h3 | ⟨h3, _⟩
    · exact (hc.2 _ _ _ hsym h3).2.1
    · obtain ⟨L', hL'⟩ := hc.1 _ _ hSd
      rw [hL'] at h3; cases h3
  refine ⟨by rw [h6]; exact Real.sqrt_nonneg _, ?_⟩
  rw [h6, ratioOf_sq _ hm, h5, whitened_dot hL, hbar, Matrix.mul_assoc]

end Verif.Kalman
