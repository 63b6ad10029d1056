import Verif.Kalman.Snc
import Verif.Kalman.Units
/-!
The theorems on the filter applied to concrete updates: a filter of one component with unit
covariance measured with unit noise (`exKf`, `exZ`), and a filter of six components with process
noise (`exKf6`).
-/
namespace Verif.Kalman

open Matrix

theorem exNoNoise (v : Variant) : ∀ q ∈ (exKf v).noises, ∀ i, 0 ≤ q.diag i := by simp [exKf]

/-- Any run of `exKf` that succeeds keeps a covariance, here a time update and a measurement. -/
example (v : Variant) (y : ℝ) (kf' : KF Unit Unit 1 3)
    (h : (exKf v).run someChol (fun _ _ => none) [.time exX, .msr exX 1 (exZ y) (some 3)] = .ok kf') :
    SymPsd kf'.prev.covar :=
  covariance_psd _ _ _ exSymPsd (exNoNoise v) (by simp [GoodOp, exZ, exSymPsd]) h

example (v : Variant) (y : ℝ) : ∃ kf' e r K,
    (exKf v).measurementUpdate someChol (fun _ _ => none) exX (exZ y) none =
      .ok (kf', e, r, some K) ∧ e.covar = (1 - K * (exZ y).H) * e.covarBar := by
  obtain ⟨⟨kf', e, r, g⟩, h⟩ := exOk v y none
  have hr := no_threshold_no_rejection _ _ _ _ _ _ _ h
  have hg := ((rejected_is_time_update _ _ _ _ _ _ _ _ h).2.2 hr).1
  obtain ⟨K, rfl⟩ := Option.isSome_iff_exists.1 hg
  exact ⟨kf', e, r, K, h,
    (gain_optimal someChol_spec _ _ _ _ _ _ _ _ exSymPsd (exNoNoise v) exSymPsd h).1⟩

example (v : Variant) (y : ℝ) : ∃ kf' e r g,
    (exKf v).measurementUpdate someChol (fun _ _ => none) exX (exZ y) (some 3) = .ok (kf', e, r, g) ∧
    (r.rejected = true ↔ ∃ n, some (3 : ℝ) = some n ∧ n < r.ratio) := by
  obtain ⟨⟨kf', e, r, g⟩, h⟩ := exOk v y (some 3)
  exact ⟨kf', e, r, g, h, (rejected_is_time_update _ _ _ _ _ _ _ _ h).1⟩

example (v : Variant) (y : ℝ) : ∃ kf' e r g,
    (exKf v).measurementUpdate someChol (fun _ _ => none) exX (exZ y) (some 3) = .ok (kf', e, r, g) ∧
    0 ≤ r.ratio := by
  obtain ⟨⟨kf', e, r, g⟩, h⟩ := exOk v y (some 3)
  exact ⟨kf', e, r, g, h, (ratio_mahalanobis someChol_spec _ _ _ _ _ _ _ _ (by decide) exSymPsd
    (exNoNoise v) exSymPsd h).1⟩

/-- Kilometres to metres. -/
example (v : Variant) (y : ℝ) : ∃ kf' e r r' g g',
    (exKf v).measurementUpdate someChol (fun _ _ => none) exX (exZ y) (some 3) = .ok (kf', e, r, g) ∧
    (exKf v).measurementUpdate someChol (fun _ _ => none) exX
      ((exZ y).scale ((1000 : ℝ) • 1)) (some 3) = .ok (kf', e, r', g') ∧ r'.ratio = r.ratio := by
  obtain ⟨⟨kf', e, r, g⟩, h⟩ := exOk v y (some 3)
  obtain ⟨r', g', h1, h2, -⟩ := units_invariance someChol_spec _ _ _ _ _ _ _ _ (by decide)
    ((1000 : ℝ) • (1 : Matrix (Fin 1) (Fin 1) ℝ)) (by simp) exSymPsd (exNoNoise v) exSymPsd h
  exact ⟨kf', e, r, r', g, g', h, h1, h2⟩

example (v : Variant) : ∃ kf' e r g,
    (exKf v).measurementUpdate someChol (fun _ _ => none) exX (exZ 2) (some 0) = .ok (kf', e, r, g) ∧
    r.rejected = true := by
  obtain ⟨⟨kf', e, r, g⟩, h⟩ := exOk v 2 (some 0)
  exact ⟨kf', e, r, g, h, (force_reject_partial someChol_spec _ _ _ _ _ _ _ exSymPsd (exNoNoise v)
    exSymPsd (by
      intro hh
      have := congrFun hh 0
      simp [exZ] at this) h).1⟩

theorem exTime (v : Variant) : (exKf v).timeUpdate (fun _ _ => none) exX =
    .ok ((exKf v).store 0 (exE v), exE v) := by
  unfold KF.timeUpdate
  have := exPredict v
  simp only [exX] at this ⊢
  rw [this]; rfl

example (v : Variant) (y : ℝ) (w : Fin 1 → ℝ) : ∃ kf' e r g,
    (exKf v).measurementUpdate someChol (fun _ _ => none) exX (exZ y) none = .ok (kf', e, r, g) ∧
    cost (exE v).covar (exE v).dev (exZ y) e.dev ≤ cost (exE v).covar (exE v).dev (exZ y) w := by
  obtain ⟨⟨kf', e, r, g⟩, h⟩ := exOk v y none
  exact ⟨kf', e, r, g, h, (update_minimises_cost someChol_spec _ _ _ _ _ _ _ _ _ _ exSymPsd
    (exNoNoise v) PosDef.one h (no_threshold_no_rejection _ _ _ _ _ _ _ h) (exTime v) PosDef.one w).1⟩

/-- Two measurements one after the other, and both at once. -/
example (y1 y2 : ℝ) (kf1 kf2 kf3 : KF Unit Unit 1 3) (e1 e2 e3 : Est Unit 1) (r1 r2 : Resid 1)
    (r3 : Resid 2) (g1 g2 : Option (Matrix (Fin 1) (Fin 1) ℝ))
    (g3 : Option (Matrix (Fin 1) (Fin 2) ℝ))
    (h1 : (exKf .deviationTracking).measurementUpdate someChol (fun _ _ => none) exX (exZ y1) none =
      .ok (kf1, e1, r1, g1))
    (h2 : kf1.measurementUpdate someChol (fun _ _ => none) exX (exZ y2) none = .ok (kf2, e2, r2, g2))
    (h3 : (exKf .deviationTracking).measurementUpdate someChol (fun _ _ => none) exX
      ((exZ y1).stack (exZ y2)) none = .ok (kf3, e3, r3, g3)) :
    e2.covar = e3.covar ∧ e2.dev = e3.dev :=
  sequential_eq_joint someChol_spec (exKf .deviationTracking) kf1 kf2 kf3 _ exX exX (exZ y1) (exZ y2)
    none none none _ e1 e2 e3 r1 r2 r3 g1 g2 g3 rfl exSymPsd (exNoNoise _) PosDef.one PosDef.one
    (exTime _) PosDef.one rfl rfl h1 (no_threshold_no_rejection _ _ _ _ _ _ _ h1) h2
    (no_threshold_no_rejection _ _ _ _ _ _ _ h2) h3 (no_threshold_no_rejection _ _ _ _ _ _ _ h3)

/-! Process noise -/

theorem exGamma : ∃ G, gamma 6 3 (toSec 10) = .ok G := by
  unfold gamma
  rw [if_pos (by decide)]
  exact ⟨_, rfl⟩

/-- The noise of `exKf6` starts at 5 and is used at 10: it is active. -/
example : ∃ P, exKf6.predict (fun _ _ => none) ⟨(), 10, some 1⟩ 1 = .ok (P, 0) ∧
    ∃ C, P = 1 * exKf6.prev.covar * 1ᵀ + C ∧ SymPsd C := by
  obtain ⟨G, hG⟩ := exGamma
  have h : ∃ P, exKf6.predict (fun _ _ => none) ⟨(), 10, some 1⟩ 1 = .ok (P, 0) := by
    simp [exKf6, KF.predict, sncLoop, Noise.propagate, Noise.toDiag, Noise.applies, Res.bind, hG]
  obtain ⟨P, hP⟩ := h
  refine ⟨P, hP, ?_⟩
  rcases process_noise_window _ _ _ _ _ hP with ⟨-, -, hu⟩ | ⟨q, C, hq, -, -, h1, h2⟩
  · simp [exKf6] at hu
  · refine ⟨C, h1, h2 ?_⟩
    simp only [exKf6, List.getElem?_cons_zero, Option.some.injEq] at hq
    subst hq
    intro i
    simp

/-- A noise that decays from epoch 0. -/
noncomputable def exDecay : Noise Unit 3 :=
  ⟨none, none, 100, some 0, fun _ => 2, some fun _ => 1, none⟩

example (i : Fin 6) : ∃ C, exDecay.propagate 6 (fun _ (_ : Unit) => none) () 10 10 = .ok (some C) ∧
    C i i = weight (toSec 10) i.val *
      (2 * Real.exp (-(1 * (((10 - 0 : Int) : ℝ) / 1000000000)))) * weight (toSec 10) i.val := by
  obtain ⟨G, hG⟩ := exGamma
  have h : ∃ C, exDecay.propagate 6 (fun _ (_ : Unit) => none) () 10 10 = .ok (some C) := by
    simp [exDecay, Noise.propagate, Noise.toDiag, Noise.applies, Res.bind, hG]
  obtain ⟨C, hC⟩ := h
  refine ⟨C, hC, ?_⟩
  have := process_noise_value exDecay () 10 10 C rfl
    (fun _ => 2 * Real.exp (-(1 * (((10 - 0 : Int) : ℝ) / 1000000000))))
    (Or.inr ⟨fun _ => 1, 0, rfl, rfl, fun _ => rfl⟩) hC i i
  rw [this, if_pos rfl]

example : ∃ kf' e, exKf6.timeUpdate (fun _ _ => none) ⟨(), 10, some 1⟩ = .ok (kf', e) ∧
    kf'.prev = e ∧ (∀ P u, kf'.predict (fun _ _ => none) ⟨(), 1000, some 1⟩ 1 = .ok (P, u) →
      P = 1 * e.covar * 1ᵀ) := by
  obtain ⟨G, hG⟩ := exGamma
  have h : ∃ P, exKf6.predict (fun _ _ => none) ⟨(), 10, some 1⟩ 1 = .ok (P, 0) := by
    simp [exKf6, KF.predict, sncLoop, Noise.propagate, Noise.toDiag, Noise.applies, Res.bind, hG]
  obtain ⟨P, hP⟩ := h
  have ht : ∃ out, exKf6.timeUpdate (fun _ _ => none) ⟨(), 10, some 1⟩ = .ok out := by
    unfold KF.timeUpdate
    simp only [hP, Res.bind]
    exact ⟨_, rfl⟩
  obtain ⟨⟨kf', e⟩, ht⟩ := ht
  exact ⟨kf', e, ht, (noises_after_update (chol := someChol) _ _ _ _ (Or.inl ht)).2.1, fun P u hp =>
    noise_disabled_after_gap _ _ _ ⟨(), 1000, some 1⟩ _ _ _ _ ht (by simp [exKf6]) hp⟩

/-- Exchange of two axes. -/
noncomputable def exRot : Matrix (Fin 3) (Fin 3) ℝ := !![0, 1, 0; 1, 0, 0; 0, 0, 1]

theorem exRot_orth : exRotᵀ * exRot = 1 := by
  ext i j
  fin_cases i <;> fin_cases j <;> simp [exRot, Matrix.mul_apply, Fin.sum_univ_three]

example (d : Fin 3 → ℝ) : ∃ d', rotDiag exRot d = .ok d' ∧
    (∀ i, d' i = (exRot * diagonal d * exRotᵀ) i i) ∧ ∑ i, d' i = ∑ i, d i := by
  have h : ∃ d', rotDiag exRot d = .ok d' := by
    unfold rotDiag
    rw [if_pos (Or.inl rfl)]
    exact ⟨_, rfl⟩
  obtain ⟨d', h⟩ := h
  exact ⟨d', h, rotDiag3 _ _ _ h, local_frame_noise_partial _ exRot_orth _ _ h⟩

example (ops : List (Op Unit 6)) :
    ((exKf6.initNoises).andWithNoise exDecay).run someChol (fun _ _ => none) ops ≠ .panic :=
  updates_do_not_panic_partial _
    (initialised_andWithNoise _ _ (initialised_initNoises exKf6)) (by decide) ops

end Verif.Kalman
