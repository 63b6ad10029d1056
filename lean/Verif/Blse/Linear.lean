import Verif.Blse.Exact
import Mathlib.Analysis.SpecialFunctions.Trigonometric.Basic
/-!
C245: the batch estimator from a wrong guess, on a linear problem with exact data.
-/
namespace Verif.Blse
open Verif.Kalman Verif.Process Matrix

variable {T K : Type} [DecidableEq K] {s : Nat}

/-- A linear problem: the value of type `k` seen by the tracker `t` is `row t k ⬝ᵥ x` with the variance `R t k`, the devices
compute it and its partials for the types of the arc, and corrections are added to the state. -/
structure LinearSight (cfg : BCfg T K (Fin s → ℝ) s) (arc : List (Meas T K)) (row : T → K → Fin s → ℝ) (R : T → K → ℝ) : Prop where
  known : ∀ z ∈ arc, ∃ dev, cfg.devices z.tracker = some dev
  partials : ∀ z ∈ arc, ∀ dev, cfg.devices z.tracker = some dev → ∀ k v y, (k, v) ∈ z.data → dev.hTilde z k y = .ok (row z.tracker k)
  sight : ∀ z ∈ arc, ∀ dev, cfg.devices z.tracker = some dev → ∀ y, ∃ comp, dev.measure y = .ok (some comp) ∧
    ∀ k v, (k, v) ∈ z.data → look comp k = some (row z.tracker k ⬝ᵥ y.orbit)
  variance : ∀ z ∈ arc, ∀ dev, cfg.devices z.tracker = some dev → ∀ k v, (k, v) ∈ z.data →
    dev.variance k z.epoch = .ok (R z.tracker k)
  plus : ∀ y dx, cfg.plus y dx = { y with orbit := y.orbit + dx }

/-- The information of the arc on a state that does not move, `Σ H^T W H`. -/
noncomputable def arcInfo (arc : List (Meas T K)) (row : T → K → Fin s → ℝ) (R : T → K → ℝ) : Matrix (Fin s) (Fin s) ℝ :=
  (arc.map fun z => (z.data.map fun e => (R z.tracker e.1)⁻¹ • vecMulVec (row z.tracker e.1) (row z.tracker e.1)).sum).sum

/-- The arc is in strictly increasing order after `t`, without rejected measurement. -/
def Ordered (t : Int) (arc : List (Meas T K)) : Prop :=
  (∀ z ∈ arc, z.rejected = false ∧ t < z.epoch) ∧ arc.Pairwise fun z z' => z.epoch < z'.epoch

theorem fresh_ordered : ∀ (arc : List (Meas T K)) (t : Int), Ordered t arc → fresh t arc = arc
  | [], _, _ => rfl
  | z :: l, t, ⟨h1, h2⟩ => by
    obtain ⟨h3, h4⟩ := List.pairwise_cons.1 h2
    rw [fresh, if_pos (h1 z (by simp)), fresh_ordered l z.epoch ⟨fun y hy => ⟨(h1 y (by simp [hy])).1, h3 y hy⟩, h4⟩]

theorem flat_sum (g : Meas T K → K → Matrix (Fin s) (Fin s) ℝ) : ∀ arc : List (Meas T K),
    ((arc.flatMap fun z => z.data.map fun e => (z, e.1)).map fun p => g p.1 p.2).sum =
      (arc.map fun z => (z.data.map fun e => g z e.1).sum).sum
  | [] => rfl
  | z :: l => by
    rw [List.flatMap_cons, List.map_append, List.sum_append, flat_sum g l, List.map_map, List.map_cons, List.sum_cons]
    rfl

theorem normal_of_info {us : List (Use T K (Fin s → ℝ) s)} {e : Fin s → ℝ} (h : ∀ u ∈ us, u.res = u.h ⬝ᵥ e) :
    normalSum us = infoSum us *ᵥ e := by
  induction us with
  | nil => simp [normalSum, infoSum]
  | cons u l ih =>
    have h1 := ih fun v hv => h v (List.mem_cons_of_mem _ hv)
    have h2 := h u (by simp)
    have e1 : normalSum (u :: l) = (u.R⁻¹ * u.res) • u.h + normalSum l := by simp [normalSum]
    have e2 : infoSum (u :: l) = u.R⁻¹ • vecMulVec u.h u.h + infoSum l := by simp [infoSum]
    rw [e1, e2, add_mulVec, h1, h2, smul_mulVec]
    congr 1
    ext i
    simp only [Pi.smul_apply, smul_eq_mul, vecMulVec_mulVec, MulOpposite.smul_eq_mul_unop]
    simp
    ring

/-- The sums of one iteration on a state that does not move: the information is that of the arc and the normal matrix is the
information times the error. -/
theorem gather_static {cfg : BCfg T K (Fin s → ℝ) s} {arc : List (Meas T K)} {row : T → K → Fin s → ℝ} {R : T → K → ℝ}
    (hl : LinearSight cfg arc row R) {lo : Int} (hadv : Arrives cfg.adv lo)
    (hrest : ∀ p d p', cfg.adv p d = .ok p' → p'.state.orbit = p.state.orbit ∧ p'.state.stm = p.state.stm)
    (hprec : cfg.precision = 1) {x : Fin s → ℝ} (hx : ∀ z ∈ arc, ∀ k v, (k, some v) ∈ z.data → v = row z.tracker k ⬝ᵥ x)
    {fuel : Nat} {est : Nominal (Fin s → ℝ) s} (ho : Ordered est.epoch arc) {st : BSt (Fin s → ℝ) s}
    (h : gather cfg fuel arc (startAt cfg est) = some (.ok st)) :
    ∃ us : List (Use T K (Fin s → ℝ) s), Sums.init.Extends st.sums us ∧ (∀ u ∈ us, 0 < u.R) ∧
      infoSum us = arcInfo arc row R ∧ normalSum us = arcInfo arc row R *ᵥ (x - est.orbit) := by
  obtain ⟨us, h1, h2, h3⟩ := gather_uses hadv
    (Inv := fun y M => y.orbit = est.orbit ∧ y.stm = some 1 ∧ M = 1)
    (by
      rintro p d p' S M ⟨i1, i2, i3⟩ hp hM
      obtain ⟨r1, r2⟩ := hrest p d p' hp
      rw [r2, i2] at hM
      cases hM
      exact ⟨r1.trans i1, r2.trans i2, by rw [i3, Matrix.one_mul]⟩)
    fuel arc _ _ (startAt_epoch cfg est) ⟨rfl, rfl, rfl⟩ h
  have hfr : fresh (startAt cfg est).epoch arc = arc := fresh_ordered arc _ ho
  rw [hfr] at h2 h3
  have hmap := h3 hprec fun z hz => by
    obtain ⟨dev, hd⟩ := hl.known z hz
    refine ⟨dev, hd, fun y hy => ?_⟩
    obtain ⟨comp, hc, -⟩ := hl.sight z hz dev hd y
    rw [hc] at hy
    cases hy
  have hu : ∀ u ∈ us, u.h = row u.z.tracker u.k ∧ u.R = R u.z.tracker u.k ∧ u.res = u.h ⬝ᵥ (x - est.orbit) := by
    intro u hu
    obtain ⟨v, hz, -, i1, i2, i3⟩ := h2 u hu
    obtain ⟨dev, d1, d2, d3, d4⟩ := v.device
    have e1 := hl.partials u.z hz dev d1 u.k _ u.x v.value
    rw [d2] at e1
    have e4 := hl.variance u.z hz dev d1 u.k _ v.value
    rw [d4] at e4
    obtain ⟨comp, c1, c2⟩ := hl.sight u.z hz dev d1 u.x
    rw [d3] at c1
    simp only [Res.ok.injEq, Option.some.injEq] at e1 e4 c1
    have hh : u.h = row u.z.tracker u.k := by rw [Use.h, i3, vecMul_one, e1]
    refine ⟨hh, e4, ?_⟩
    rw [Use.res, c1, c2 _ _ v.value, hh, hx u.z hz _ _ v.value, i1, dotProduct_sub]
    rfl
  have hinfo : infoSum us = arcInfo arc row R := by
    have e : infoSum us = ((us.map fun u => (u.z, u.k)).map fun p =>
        (R p.1.tracker p.2)⁻¹ • vecMulVec (row p.1.tracker p.2) (row p.1.tracker p.2)).sum := by
      rw [List.map_map, infoSum]
      congr 1
      refine List.map_congr_left fun u hm => ?_
      obtain ⟨a, b, -⟩ := hu u hm
      simp only [Function.comp, a, b]
    rw [e, hmap]
    exact flat_sum (fun z k => (R z.tracker k)⁻¹ • vecMulVec (row z.tracker k) (row z.tracker k)) arc
  exact ⟨us, h1, fun u hm => (h2 u hm).1.noise, hinfo, by rw [normal_of_info fun u hm => (hu u hm).2.2, hinfo]⟩

/-- C245, the part which holds: a state that does not move. After `n` iterations of the normal equations the error is the
error of the guess divided by `(1 + Σ H^T W H)ⁿ`: the identity to which the information is added slows down what should
take one iteration. If convergence is reported, the information times the error is below the tolerance; otherwise all the
iterations were used. Missing: states that move, see `rotating_batch_false`. -/
theorem static_batch_partial {cfg : BCfg T K (Fin s → ℝ) s} {arc : List (Meas T K)} {row : T → K → Fin s → ℝ} {R : T → K → ℝ}
    (hs : cfg.solver = .normalEquations) (hc : CholOk cfg.chol) (hud : UduOk cfg.udu)
    (hl : LinearSight cfg arc row R) {lo : Int} (hadv : Arrives cfg.adv lo)
    (hrest : ∀ p d p', cfg.adv p d = .ok p' → p'.state.orbit = p.state.orbit ∧ p'.state.stm = p.state.stm)
    (hprec : cfg.precision = 1) {x : Fin s → ℝ} (hx : ∀ z ∈ arc, ∀ k v, (k, some v) ∈ z.data → v = row z.tracker k ⬝ᵥ x)
    {fuel : Nat} {guess : Nominal (Fin s → ℝ) s} (ho : Ordered guess.epoch arc) {it : It (Fin s → ℝ) s}
    (h : estimate cfg fuel guess arc = some (.ok it)) :
    (1 + arcInfo arc row R) ^ it.iter *ᵥ (x - it.est.orbit) = x - guess.orbit ∧ it.est.epoch = guess.epoch ∧
    (it.converged = true → positionNorm (arcInfo arc row R *ᵥ (x - it.est.orbit)) < cfg.tolerance) ∧
    (it.converged = false → it.iter = cfg.maxIterations) := by
  have key : ∀ (n : Nat) (it0 it' : It (Fin s → ℝ) s), it0.converged = false → it0.est.epoch = guess.epoch →
      iterate cfg fuel arc n it0 = some (.ok it') →
      ∃ m, it'.iter = it0.iter + m ∧ (1 + arcInfo arc row R) ^ m *ᵥ (x - it'.est.orbit) = x - it0.est.orbit ∧
        it'.est.epoch = guess.epoch ∧
        (it'.converged = true → positionNorm (arcInfo arc row R *ᵥ (x - it'.est.orbit)) < cfg.tolerance) ∧
        (it'.converged = false → m = n) := by
    intro n
    induction n with
    | zero =>
      intro it0 it' hcv he h
      cases h
      exact ⟨0, rfl, by simp, he, fun h => absurd (hcv.symm.trans h) (by simp), fun _ => rfl⟩
    | succ n ih =>
      intro it0 it' hcv he h
      unfold iterate at h
      split at h
      · cases h
      · cases h
      · cases h
      · rename_i st hg
        obtain ⟨us, h1, hv, hi, hn⟩ := gather_static hl hadv hrest hprec hx (by rw [he]; exact ho) hg
        obtain ⟨it1, b, dx, g1, g2, g3, _, _, _, _, _, _, g10, g11, g12⟩ :=
          normal_step hc hud (numMsr arc) h1 hv { it0 with iter := it0.iter + 1 }
        have hstep : stepOf cfg (numMsr arc) st.sums { it0 with iter := it0.iter + 1 } = .ok (it1, b) := by
          unfold stepOf; rw [hs]; exact g1
        rw [hstep] at h
        simp only at g10 g12 g2
        rw [hl.plus] at g2
        rw [hi, hn] at g3
        have e1 : (1 + arcInfo arc row R) *ᵥ (x - it1.est.orbit) = x - it0.est.orbit := by
          rw [g2]
          show (1 + arcInfo arc row R) *ᵥ (x - (it0.est.orbit + dx)) = _
          rw [← sub_sub, mulVec_sub, g3, add_mulVec, one_mulVec]
          abel
        have e2 : arcInfo arc row R *ᵥ (x - it1.est.orbit) = dx := by
          have : x - it1.est.orbit + arcInfo arc row R *ᵥ (x - it1.est.orbit) = x - it0.est.orbit := by
            rw [← e1, add_mulVec, one_mulVec]
          have e3 : x - it1.est.orbit = x - it0.est.orbit - dx := by
            rw [g2]
            show x - (it0.est.orbit + dx) = _
            abel
          have e4 : arcInfo arc row R *ᵥ (x - it1.est.orbit) = x - it0.est.orbit - (x - it1.est.orbit) :=
            eq_sub_of_add_eq' this
          rw [e4, e3]
          abel
        have hep : it1.est.epoch = guess.epoch := by rw [g2]; exact he
        cases b with
        | true =>
          injection h with h
          injection h with h
          subst h
          exact ⟨1, g10, by rw [pow_one]; exact e1, hep, fun _ => by rw [e2]; exact g11.1 rfl,
            fun hc' => by rw [g12] at hc'; simp at hc'⟩
        | false =>
          have hcv1 : it1.converged = false := by rw [g12, hcv]; rfl
          obtain ⟨m, k1, k2, k3, k4, k5⟩ := ih it1 it' hcv1 hep h
          refine ⟨m + 1, by omega, ?_, k3, k4, fun h => by rw [k5 h]⟩
          rw [pow_succ', ← mulVec_mulVec, k2, e1]
  unfold estimate at h
  split at h
  · cases h
  · obtain ⟨m, k1, k2, k3, k4, k5⟩ := key _ _ it rfl rfl h
    have hm : it.iter = m := by rw [k1]; exact Nat.zero_add m
    rw [hm]
    exact ⟨k2, k3, k4, k5⟩

/-- The error therefore decreases by the factor `1 + σ` in each iteration, where `σ` is a lower bound of the information. -/
theorem static_error_bound {S : Matrix (Fin s) (Fin s) ℝ} {σ : ℝ} (hσ : 0 ≤ σ) (hS : ∀ v, σ * (v ⬝ᵥ v) ≤ v ⬝ᵥ (S *ᵥ v)) :
    ∀ (n : Nat) (e e0 : Fin s → ℝ), (1 + S) ^ n *ᵥ e = e0 → ((1 + σ) ^ n) ^ 2 * (e ⬝ᵥ e) ≤ e0 ⬝ᵥ e0
  | 0, e, e0, h => by
    rw [pow_zero, one_mulVec] at h
    rw [h]
    simp
  | n + 1, e, e0, h => by
    rw [pow_succ, ← mulVec_mulVec] at h
    have h1 := static_error_bound hσ hS n _ e0 h
    have h2 : (1 + S) *ᵥ e = e + S *ᵥ e := by rw [add_mulVec, one_mulVec]
    have h3 : (1 + σ) ^ 2 * (e ⬝ᵥ e) ≤ ((1 + S) *ᵥ e) ⬝ᵥ ((1 + S) *ᵥ e) := by
      have h4 : 0 ≤ (S *ᵥ e - σ • e) ⬝ᵥ (S *ᵥ e - σ • e) := Finset.sum_nonneg fun i _ => mul_self_nonneg _
      have h5 := hS e
      rw [h2]
      simp only [add_dotProduct, dotProduct_add, sub_dotProduct, dotProduct_sub, smul_dotProduct, dotProduct_smul,
        smul_eq_mul] at h4 ⊢
      rw [dotProduct_comm (S *ᵥ e) e] at *
      nlinarith
    have h6 := mul_le_mul_of_nonneg_left h3 (show 0 ≤ ((1 + σ) ^ n) ^ 2 by positivity)
    calc ((1 + σ) ^ (n + 1)) ^ 2 * (e ⬝ᵥ e) = ((1 + σ) ^ n) ^ 2 * ((1 + σ) ^ 2 * (e ⬝ᵥ e)) := by ring
      _ ≤ _ := h6
      _ ≤ _ := h1

/-! ### Concrete cases -/

/-- A state of one number at rest, measured twice. -/
noncomputable def restCfg : BCfg Unit Unit (Fin 1 → ℝ) 1 where
  propStep := 1
  devices := fun _ => some ⟨fun _ _ _ => .ok ![1], fun x => .ok (some [((), x.orbit 0)]), fun _ _ => .ok 1⟩
  solver := .normalEquations
  tolerance := 1 / 10
  maxIterations := 1
  maxStep := 1
  precision := 1
  lambdaInit := 1
  lambdaDecrease := 10
  lambdaIncrease := 10
  lambdaMin := 0
  lambdaMax := 1000
  diagScaling := true
  adv := fun p d => .ok ⟨⟨p.state.orbit, p.state.epoch + d, p.state.stm⟩, p.step⟩
  plus := fun x dx => { x with orbit := x.orbit + dx }
  chol := fun _ => some 1
  udu := fun S => some (1, fun i => S i i)

noncomputable def restData : List (Meas Unit Unit) := [⟨(), 1, [((), some 3)], false⟩, ⟨(), 2, [((), some 3)], false⟩]

theorem restCfg_sight : LinearSight restCfg restData (fun _ _ => ![1]) (fun _ _ => 1) where
  known _ _ := ⟨_, rfl⟩
  partials _ _ dev hd _ _ _ _ := by cases hd; rfl
  sight _ _ dev hd y := by
    cases hd
    exact ⟨_, rfl, fun k v _ => by simp [look, vecHead]⟩
  variance _ _ dev hd _ _ _ := by cases hd; rfl
  plus _ _ := rfl

/-- The hypotheses are met: from the guess 0, one iteration leaves a third of the error 3. -/
example : ∃ it, estimate restCfg 5 ⟨![0], 0, none⟩ restData = some (.ok it) ∧
    (1 + arcInfo restData (fun _ _ => ![1]) (fun _ _ => 1) : Matrix (Fin 1) (Fin 1) ℝ) ^ it.iter *ᵥ (![3] - it.est.orbit) =
      ![3] - ![0] := by
  have hr : ∃ it, estimate restCfg 5 ⟨![0], 0, none⟩ restData = some (.ok it) := by
    unfold estimate
    rw [if_neg (by decide)]
    show ∃ it, iterate _ 5 _ 1 (initIt _ _) = _
    unfold iterate
    have hg : ∃ st, gather restCfg 5 restData (startAt restCfg (initIt restCfg ⟨![0], 0, none⟩).est) = some (.ok st) := by
      refine ⟨_, by
        simp [gather, gatherOne, restCfg, restData, startAt, nextStep, atMsr, useAll, useValue, Res.bind, look,
          Sums.init, Sums.add, initIt]
        rfl⟩
    obtain ⟨st, h1⟩ := hg
    rw [h1]
    have hs : ∀ it0, ∃ it1 b, stepOf restCfg (numMsr restData) st.sums it0 = .ok (it1, b) := fun it0 => ⟨_, _, rfl⟩
    obtain ⟨it1, b, k1⟩ := hs { initIt restCfg ⟨![0], 0, none⟩ with iter := (initIt restCfg ⟨![0], 0, none⟩).iter + 1 }
    simp only [k1]
    cases b <;> exact ⟨_, rfl⟩
  obtain ⟨it, h⟩ := hr
  refine ⟨it, h, (static_batch_partial (lo := 1) rfl (fun _ _ => ⟨1, rfl⟩) ?_ restCfg_sight ⟨?_, ?_⟩ ?_ rfl (x := ![3]) ?_ ?_ h).1⟩
  · intro S _
    refine ⟨1, _, rfl, ?_⟩
    ext i j
    have : i = j := Subsingleton.elim i j
    subst this
    simp
  · rintro p d p' h; cases h; rfl
  · rintro p d p' h hp; cases h; exact hp
  · rintro p d p' h; cases h; exact ⟨rfl, rfl⟩
  · intro z hz k v hv
    simp only [restData, List.mem_cons, List.not_mem_nil, or_false] at hz
    rcases hz with rfl | rfl <;>
      simpa only [List.mem_singleton, Prod.mk.injEq, Option.some.injEq, true_and, cons_dotProduct, vecHead, vecTail,
        cons_val_zero, one_mul, dotProduct_of_isEmpty, add_zero] using hv
  · simp [Ordered, restData]

/-! ### Two measurements of a coordinate that turns -/

/-- The transition of a plane that turns by a quarter of a turn per nanosecond. -/
noncomputable def quarterTurn (t t' : Int) : Matrix (Fin 2) (Fin 2) ℝ :=
  !![Real.cos (((t' - t : Int) : ℝ) * (Real.pi / 2)), -Real.sin (((t' - t : Int) : ℝ) * (Real.pi / 2));
    Real.sin (((t' - t : Int) : ℝ) * (Real.pi / 2)), Real.cos (((t' - t : Int) : ℝ) * (Real.pi / 2))]

theorem quarterTurn_refl (t : Int) : quarterTurn t t = 1 := by
  ext i j
  fin_cases i <;> fin_cases j <;> simp [quarterTurn]

theorem quarterTurn_comp (a b c : Int) : quarterTurn b c * quarterTurn a b = quarterTurn a c := by
  have e : (((c - a : Int) : ℝ)) * (Real.pi / 2) = ((c - b : Int) : ℝ) * (Real.pi / 2) + ((b - a : Int) : ℝ) * (Real.pi / 2) := by
    push_cast; ring
  rw [quarterTurn, quarterTurn, quarterTurn, e, Real.cos_add, Real.sin_add]
  ext i j
  fin_cases i <;> fin_cases j <;> simp [Matrix.mul_apply, Fin.sum_univ_two] <;> ring

theorem quarterTurn_one (t : Int) : quarterTurn t (t + 1) = !![0, -1; 1, 0] := by
  rw [quarterTurn]
  simp

/-- The device sees the first coordinate. -/
noncomputable def turnDev : BDev Unit Unit (Fin 2 → ℝ) 2 where
  hTilde := fun _ _ _ => .ok ![1, 0]
  measure := fun x => .ok (some [((), x.orbit 0)])
  variance := fun _ _ => .ok 1

/-- The state turns, with its transition matrix, as the propagator integrates it. -/
noncomputable def turnCfg : BCfg Unit Unit (Fin 2 → ℝ) 2 where
  propStep := 1
  devices := fun _ => some turnDev
  solver := .normalEquations
  tolerance := 1 / 10
  maxIterations := 10
  maxStep := 1
  precision := 1
  lambdaInit := 1
  lambdaDecrease := 10
  lambdaIncrease := 10
  lambdaMin := 0
  lambdaMax := 1000
  diagScaling := true
  adv := fun p d => .ok ⟨⟨quarterTurn p.state.epoch (p.state.epoch + d) *ᵥ p.state.orbit, p.state.epoch + d,
    p.state.stm.map fun M => quarterTurn p.state.epoch (p.state.epoch + d) * M⟩, p.step⟩
  plus := fun x dx => { x with orbit := x.orbit + dx }
  chol := fun _ => some 1
  udu := fun _ => none

/-- The values which the motion from `(1, 0)` has at the times 1 and 2. -/
noncomputable def turnData : List (Meas Unit Unit) := [⟨(), 1, [((), some 0)], false⟩, ⟨(), 2, [((), some (-1))], false⟩]

theorem turn_at_one (y : Fin 2 → ℝ) : (quarterTurn 0 1 *ᵥ y) 0 = -y 1 := by
  have := quarterTurn_one 0
  rw [show (0 : Int) + 1 = 1 from rfl] at this
  rw [this]
  simp [mulVec, dotProduct, Fin.sum_univ_two]

theorem turn_at_two (y : Fin 2 → ℝ) : (quarterTurn 0 2 *ᵥ y) 0 = -y 0 := by
  have h1 := quarterTurn_one 0
  have h2 := quarterTurn_one 1
  rw [show (0 : Int) + 1 = 1 from rfl] at h1
  rw [show (1 : Int) + 1 = 2 from rfl] at h2
  rw [← quarterTurn_comp 0 1 2, h1, h2]
  simp [mulVec, dotProduct, Fin.sum_univ_two, Matrix.mul_apply]

/-- C245, refuted. The state turns by a quarter of a turn per nanosecond, the partials and transition matrices are exact, and
the data are those of the motion from `(1, 0)`, which they determine. From the guess `(0, -1)` the estimator returns that
guess itself, as converged: it multiplies matrices which already are transitions from the initial epoch, so that the
rows of the second measurement are those of a third quarter of a turn. -/
theorem rotating_batch_false :
    Flow turnCfg.adv quarterTurn ∧
    (∀ p d p', turnCfg.adv p d = .ok p' → p'.state.orbit = quarterTurn p.state.epoch p'.state.epoch *ᵥ p.state.orbit) ∧
    (∀ y : Fin 2 → ℝ, (∀ z ∈ turnData, ∀ k v, (k, some v) ∈ z.data → v = (quarterTurn 0 z.epoch *ᵥ y) 0) ↔ y = ![1, 0]) ∧
    ∃ it, estimate turnCfg 5 ⟨![0, -1], 0, none⟩ turnData = some (.ok it) ∧ it.converged = true ∧ it.est.orbit = ![0, -1] := by
  refine ⟨⟨quarterTurn_refl, fun a b c => quarterTurn_comp a b c, ?_⟩, ?_, ?_, ?_⟩
  · rintro p d p' h
    cases h
    exact ⟨rfl, fun M hM => by simp [hM]⟩
  · rintro p d p' h
    cases h
    rfl
  · intro y
    constructor
    · intro h
      have h1 := h _ (List.mem_cons_self ..) () 0 (by simp)
      have h2 := h _ (List.mem_cons_of_mem _ (List.mem_cons_self ..)) () (-1) (by simp)
      simp only at h1 h2
      rw [turn_at_one] at h1
      rw [turn_at_two] at h2
      ext i
      fin_cases i
      · show y 0 = 1; linarith
      · show y 1 = 0; linarith
    · rintro rfl z hz k v hv
      simp only [turnData, List.mem_cons, List.not_mem_nil, or_false] at hz
      rcases hz with rfl | rfl
      · simp only [List.mem_singleton, Prod.mk.injEq, Option.some.injEq, true_and] at hv
        rw [turn_at_one, hv]; simp
      · simp only [List.mem_singleton, Prod.mk.injEq, Option.some.injEq, true_and] at hv
        rw [turn_at_two, hv]; simp
  · have h1 := quarterTurn_one 0
    have h2 := quarterTurn_one 1
    rw [show (0 : Int) + 1 = 1 from rfl] at h1
    rw [show (1 : Int) + 1 = 2 from rfl] at h2
    have hg : ∃ st, gather turnCfg 5 turnData (startAt turnCfg ⟨![0, -1], 0, none⟩) = some (.ok st) ∧ st.sums.normal = 0 := by
      refine ⟨_, by
        simp [gather, gatherOne, turnCfg, turnData, turnDev, startAt, nextStep, atMsr, useAll, useValue, Res.bind, look,
          Sums.init, Sums.add, h1, h2]
        rfl, ?_⟩
      ext i
      fin_cases i <;> simp [vecMul, mulVec, dotProduct, Fin.sum_univ_two, Matrix.mul_apply, vecHead, vecTail]
    obtain ⟨st, g1, g2⟩ := hg
    have hstep : ∀ it0, ∃ it1, stepOf turnCfg (numMsr turnData) st.sums it0 = .ok (it1, true) ∧ it1.converged = true ∧
        it1.est.orbit = it0.est.orbit := by
      intro it0
      have hsolv : turnCfg.solver = .normalEquations := rfl
      have hchol : ∀ S, turnCfg.chol S = some 1 := fun _ => rfl
      have htol : (0 : ℝ) < turnCfg.tolerance := by norm_num [turnCfg]
      simp only [stepOf, hsolv, stepNormal, hchol, accept, g2, mulVec_zero, posNorm_zero, htol, if_true]
      refine ⟨_, rfl, rfl, ?_⟩
      simp [turnCfg]
    obtain ⟨it1, k1, k2, k3⟩ := hstep { initIt turnCfg ⟨![0, -1], 0, none⟩ with iter := 1 }
    refine ⟨it1, ?_, k2, k3⟩
    unfold estimate
    rw [if_neg (by decide)]
    show iterate _ 5 _ (9 + 1) (initIt _ _) = _
    unfold iterate
    rw [show gather turnCfg 5 turnData (startAt turnCfg (initIt turnCfg ⟨![0, -1], 0, none⟩).est) = some (.ok st) from g1]
    simp only
    rw [show ({ initIt turnCfg ⟨![0, -1], 0, none⟩ with iter := (initIt turnCfg ⟨![0, -1], 0, none⟩).iter + 1 } : It (Fin 2 → ℝ) 2) =
      { initIt turnCfg ⟨![0, -1], 0, none⟩ with iter := 1 } from rfl, k1]

end Verif.Blse
