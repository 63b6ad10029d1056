import Verif.Process.Trace
import Verif.Process.Short
import Verif.Traj.Theorems
/-!
C225: the navigation trajectory built from a solution, `ODSolution::to_traj`
(nyx-core/src/od/process/solution/mod.rs:157-174).
-/
namespace Verif.Process
open Verif.Kalman Verif.Util Matrix
open Verif.Traj (TS finalize at_ Sorted SearchOk linSearch at_stored linSearch_ok)

variable {X E T K F Ω : Type} {s a m : Nat}

/-- `to_traj`: `none` is the error `NoStateData` of a solution without estimates. `state` is `est.state()`.
od/process/solution/mod.rs:157-174. -/
def toTraj (state : E → TS X) (estimates : List E) : Option (List (TS X)) :=
  if estimates.isEmpty then none else some (finalize (estimates.map state))

/-- `est.state()`: the nominal state plus the deviation; only the epoch and the orbit are kept, the state
transition matrix is left out. od/estimate/mod.rs:54-56. -/
def estState (plus : Nominal Ω s → (Fin s → ℝ) → Nominal Ω s) (e : Est Ω s) : TS Ω :=
  ⟨(plus e.nominal e.dev).epoch, (plus e.nominal e.dev).orbit⟩

/-! ### Removing the repeated epochs of a chronological list -/

theorem dedupBy_strict (key : E → Int) (l : List E) (h : l.Pairwise fun a b => key a ≤ key b) :
    (dedupBy key l).Pairwise fun a b => key a < key b := by
  fun_induction dedupBy key l with
  | case1 => exact .nil
  | case2 => exact List.pairwise_singleton _ _
  | case3 a b l hk ih =>
    exact ih (h.sublist (List.Sublist.cons_cons a (List.sublist_cons_self b l)))
  | case4 a b l hk ih =>
    have h2 := List.pairwise_cons.1 h
    refine List.pairwise_cons.2 ⟨fun c hc => ?_, ih h2.2⟩
    have hc' := (dedupBy_sublist key (b :: l)).mem hc
    have hb := h2.1 b (by simp)
    rcases List.mem_cons.1 hc' with rfl | hc'
    · omega
    · have := (List.pairwise_cons.1 h2.2).1 c hc'
      omega

theorem dedupBy_first (key : E → Int) (l : List E) : ∀ (pre post : List E) (x : E), l = pre ++ x :: post →
    (∀ y ∈ pre, key y ≠ key x) → x ∈ dedupBy key l := by
  fun_induction dedupBy key l with
  | case1 => intro pre post x h; simp at h
  | case2 a =>
    intro pre post x h _
    cases pre with
    | nil => simp at h; simp [h.1]
    | cons p pre => simp at h
  | case3 a b l hk ih =>
    intro pre post x h hp
    cases pre with
    | nil =>
      simp only [List.nil_append, List.cons.injEq] at h
      exact ih [] l x (by simp [h.1]) (by simp)
    | cons p pre =>
      simp only [List.cons_append, List.cons.injEq] at h
      cases pre with
      | nil =>
        simp only [List.nil_append, List.cons.injEq] at h
        exact absurd (by rw [← h.1, ← h.2.1]; exact hk) (hp p (by simp))
      | cons q pre =>
        simp only [List.cons_append, List.cons.injEq] at h
        refine ih (p :: pre) post x (by simp [h.1, h.2.2]) fun y hy => hp y ?_
        rcases List.mem_cons.1 hy with rfl | hy
        · simp
        · simp [hy]
  | case4 a b l hk ih =>
    intro pre post x h hp
    cases pre with
    | nil => simp at h; simp [h.1]
    | cons p pre =>
      simp only [List.cons_append, List.cons.injEq] at h
      exact List.mem_cons_of_mem _ (ih pre post x h.2 fun y hy => hp y (List.mem_cons_of_mem _ hy))

/-! ### C225 -/

/-- The search of `at` keeps the contract of `binary_search_by` on this trajectory. -/
def Searches (search : List Int → Int → Except Nat Nat) : Prop :=
  ∀ (l : List Int) (e : Int), l.Pairwise (· < ·) → SearchOk l e (search l e)

/-- Two different estimates have different epochs. -/
def NoRepeat (state : E → TS X) (estimates : List E) : Prop :=
  (estimates.map fun e => (state e).epoch).Nodup

/-- **C225 (partial).** A navigation trajectory is refused exactly for a solution without estimates. For
estimates in chronological order the trajectory has strictly increasing epochs, exactly those of the
estimates, and only estimated states; at the epoch of an estimate that is the *first* of its epoch, `at`
returns the estimated state of that one. Hence it passes through every estimate if no epoch is repeated.
Missing: passing through the last estimate of each epoch, refuted below. -/
theorem to_traj_partial {Er : Type} (search : List Int → Int → Except Nat Nat) (hsearch : Searches search)
    (interp : TS X → Int → List (TS X) → Except Er (TS X)) (state : E → TS X) (estimates : List E) :
    (toTraj state estimates = none ↔ estimates = []) ∧
    ∀ l, toTraj state estimates = some l →
      estimates.Pairwise (fun a b => (state a).epoch ≤ (state b).epoch) →
      Sorted l ∧ (∀ t, t ∈ l.map TS.epoch ↔ ∃ e ∈ estimates, (state e).epoch = t) ∧
      (∀ x ∈ l, ∃ e ∈ estimates, state e = x) ∧
      (∀ pre e post, estimates = pre ++ e :: post → (∀ y ∈ pre, (state y).epoch < (state e).epoch) →
        at_ search interp l (state e).epoch = .ok (state e)) ∧
      (NoRepeat state estimates → ∀ e ∈ estimates, at_ search interp l (state e).epoch = .ok (state e)) := by
  constructor
  · unfold toTraj
    cases estimates <;> simp
  · intro l hl hc
    have hne : estimates.isEmpty = false := by
      cases estimates with
      | nil => simp [toTraj] at hl
      | cons => rfl
    have hl' : l = finalize (estimates.map state) := by
      simp only [toTraj, hne] at hl
      simpa using hl.symm
    have hcm : (estimates.map state).Pairwise fun a b => a.epoch ≤ b.epoch := List.pairwise_map.2 hc
    have hst := dedupBy_strict TS.epoch _ hcm
    have hd : l = dedupBy TS.epoch (estimates.map state) := by
      rw [hl']
      exact sortBy_of_sorted _ (hst.imp fun h => le_of_lt h)
    have hsort : Sorted l := by rw [hd]; exact hst
    have hat : ∀ x ∈ l, at_ search interp l x.epoch = .ok x := fun x hx =>
      at_stored search interp l x hsort hx (hsearch _ _ (List.pairwise_map.2 hsort))
    have hfirst : ∀ pre e post, estimates = pre ++ e :: post →
        (∀ y ∈ pre, (state y).epoch < (state e).epoch) →
        at_ search interp l (state e).epoch = .ok (state e) := by
      intro pre e post h hp
      refine hat _ ?_
      rw [hd]
      refine dedupBy_first TS.epoch _ (pre.map state) (post.map state) _ (by simp [h]) ?_
      intro y hy
      obtain ⟨z, hz, rfl⟩ := List.mem_map.1 hy
      have := hp z hz
      omega
    refine ⟨hsort, fun t => ?_, fun x hx => ?_, hfirst, fun hn e he => ?_⟩
    · rw [hd, dedupBy_keys]
      simp
    · rw [hd] at hx
      simpa using (dedupBy_sublist _ _).mem hx
    · obtain ⟨pre, post, h⟩ := List.append_of_mem he
      refine hfirst pre e post h fun y hy => ?_
      have h1 := hc
      have h2 := hn
      unfold NoRepeat at h2
      rw [h, List.pairwise_append] at h1
      rw [h, List.map_append, List.nodup_append] at h2
      have h3 := h1.2.2 y hy e (by simp)
      have h4 := h2.2.2 _ (List.mem_map.2 ⟨y, hy, rfl⟩) _ (List.mem_map.2 ⟨e, by simp, rfl⟩)
      omega

example : Searches linSearch ∧
    toTraj (fun e : Int × Nat => ⟨e.1, e.2⟩) [(10, 1), (10, 2), (20, 3)] = some [⟨10, 1⟩, ⟨20, 3⟩] ∧
    [((10 : Int), 1), (10, 2), (20, 3)].Pairwise (fun a b => a.1 ≤ b.1) :=
  ⟨fun l e h => linSearch_ok l e h, by
    simp [toTraj, finalize, dedupBy, sortBy, List.mergeSort, List.MergeSort.Internal.splitInTwo, List.merge],
    by decide⟩

/-! ### A process of two measurements of the same state at the same time -/

/-- One scalar measurement of a scalar state with variance `p`, noise 1. -/
theorem scalar_update (kf : KF Unit ℝ 1 3) (p : ℝ) (hp : 0 < p) (hn : kf.noises = [])
    (hc : kf.prev.covar = diagonal fun _ => p) (hv : kf.variant = .referenceUpdate) (x : Nominal ℝ 1)
    (hx : x.stm = some 1) (y c : Fin 1 → ℝ) :
    ∃ kf' e r g, kf.measurementUpdate someChol (fun _ _ => none) x ⟨y, c, 1, 1⟩ none = .ok (kf', e, r, g) ∧
      r.rejected = false ∧ e.nominal = x ∧ (e.dev = fun _ => p / (p + 1) * (y 0 - c 0)) ∧
      (kf'.prev.covar = diagonal fun _ => p / (p + 1)) ∧ kf'.noises = [] ∧ kf'.variant = .referenceUpdate := by
  obtain ⟨prev, noises, variant, used⟩ := kf
  simp only at hn hc hv
  subst hn hv
  have hS : ((1 : Matrix (Fin 1) (Fin 1) ℝ) * ((diagonal fun _ => p) * (1 : Matrix (Fin 1) (Fin 1) ℝ)ᵀ) + 1) =
      diagonal fun _ => p + 1 := by
    ext i j
    fin_cases i; fin_cases j
    simp
  have hpd : (diagonal fun _ : Fin 1 => p + 1).PosDef := posDef_diagonal_iff.2 fun _ => by linarith
  obtain ⟨L, hL⟩ := someChol_spec.1 1 _ hpd
  have hLL := (someChol_spec.2 1 _ L (isSymm_diagonal _) hL).2.1
  have hinv : (diagonal fun _ : Fin 1 => p + 1)⁻¹ = diagonal fun _ => (p + 1)⁻¹ := by
    rw [inv_eq_right_inv]
    rw [diagonal_mul_diagonal, ← diagonal_one]
    congr 1
    funext _
    exact mul_inv_cancel₀ (by linarith)
  have hpr : (⟨prev, [], .referenceUpdate, used⟩ : KF Unit ℝ 1 3).predict (fun _ _ => none) x 1 =
      .ok (diagonal fun _ => p, used) := by
    simp [KF.predict, sncLoop, Res.bind, hc]
  have hg : gainOf someChol (diagonal fun _ => p) (1 : Matrix (Fin 1) (Fin 1) ℝ)
      (diagonal fun _ => p + 1) = .ok (diagonal fun _ => p / (p + 1)) := by
    simp only [gainOf, hL, hLL, hinv]
    congr 1
    ext i j
    fin_cases i; fin_cases j
    simp [Matrix.mul_apply, div_eq_mul_inv, mul_comm]
  obtain ⟨⟨kf', e, r, g⟩, hu⟩ : ∃ o, (⟨prev, [], .referenceUpdate, used⟩ : KF Unit ℝ 1 3).measurementUpdate someChol
      (fun _ _ => none) x ⟨y, c, 1, 1⟩ none = .ok o := by
    simp only [KF.measurementUpdate, hx, hpr, Res.bind_ok, hS, factorOf, hL, rejects, hg]
    exact ⟨_, rfl⟩
  refine ⟨kf', e, r, g, hu, ?_⟩
  obtain ⟨stm, pu, L', h1, h2, _, _, _, _, _, _, _, hrej, hcase⟩ := measurementUpdate_ok hu
  rw [hx] at h1
  cases h1
  rw [hpr] at h2
  cases h2
  rcases hcase with ⟨hr, _⟩ | ⟨hr, K, _, hK, he, _, hk⟩
  · obtain ⟨n, hn, _⟩ := hrej.1 hr
    cases hn
  · simp only [hS] at hK
    rw [hg] at hK
    cases hK
    subst he hk
    refine ⟨hr, rfl, ?_, ?_, rfl, rfl⟩
    · funext i
      fin_cases i
      simp [devPost, Matrix.mulVec, dotProduct]
    · ext i j
      fin_cases i; fin_cases j
      simp [KF.store, joseph, Matrix.mul_apply]
      field_simp
      ring

/-- Two types of measurement of the scalar state, both the value of the last state of the trajectory. -/
noncomputable def exNavDev : Dev Nat Nat ℝ 1 1 where
  types := [0, 1]
  hTilde _ _ _ := .ok 1
  covar _ _ := .ok 1
  bias _ _ := .ok 0
  measure _ traj := .ok (traj.getLast?.map fun x => [(0, x.orbit), (1, x.orbit)])

/-- A constant scalar state, tracked with reference updates. -/
noncomputable def exNav : Cfg Nat Nat Unit ℝ 1 3 1 where
  maxStep := 10
  precision := 2
  sigmaReject := none
  variant := .referenceUpdate
  noises := []
  fixed := false
  propStep := 5
  devices t := if t = 1 then some exNavDev else none
  adv p d := .ok (⟨⟨p.state.orbit, p.state.epoch + d, p.state.stm⟩, p.step⟩,
    [⟨p.state.orbit, p.state.epoch + d, p.state.stm⟩])
  plus x d := { x with orbit := x.orbit + d 0 }
  chol := someChol
  dcm _ _ := none

/-- One measurement of both types, one from an unknown tracker. -/
noncomputable def exNavArc : PArc Nat Nat where
  measurements := [⟨1, 5, [(0, some 2), (1, some 2)], false⟩, ⟨7, 9, [], false⟩]
  moduli := none
  forceReject := false

noncomputable def exNavEst : Est ℝ 1 := ⟨⟨0, 0, none⟩, 0, diagonal fun _ => 1, 1, 1, false⟩

theorem exNav_window (ty : Nat) (hty : ty = 0 ∨ ty = 1) (kf : KF Unit ℝ 1 3) (p : ℝ) (hp : 0 < p) (hn : kf.noises = [])
    (hc : kf.prev.covar = diagonal fun _ => p) (hv : kf.variant = .referenceUpdate) (v : ℝ)
    (sol : List (Entry Nat Nat ℝ 1 1)) :
    ∃ kf' e r g, oneWindow exNav exNavArc ⟨1, 5, [(0, some 2), (1, some 2)], false⟩ exNavDev [ty]
        ⟨⟨⟨v, 5, some 1⟩, 10⟩, 5, kf, [⟨v, 5, some 1⟩], sol⟩ =
      .ok ⟨⟨⟨v + p / (p + 1) * (2 - v), 5, some 1⟩, 10⟩, 5, kf', [⟨v + p / (p + 1) * (2 - v), 5, some 1⟩],
        sol ++ [.msr e r g 1 [ty]]⟩ ∧
      estState exNav.plus e = ⟨5, v + p / (p + 1) * (2 - v)⟩ ∧
      kf'.prev.covar = (diagonal fun _ => p / (p + 1)) ∧ kf'.noises = [] ∧ kf'.variant = .referenceUpdate := by
  obtain ⟨kf', e, r, g, hu, hr, he, hd, hk, hn', hv'⟩ :=
    scalar_update kf p hp hn hc hv ⟨v, 5, some 1⟩ rfl (fun _ => 2) (fun _ => v)
  refine ⟨kf', e, r, g, ?_, ?_, hk, hn', hv'⟩
  · have h0 : observation 1 [(0, some (2 : ℝ)), (1, some 2)] [ty] = some fun _ => 2 := by
      unfold observation
      rcases hty with rfl | rfl <;>
      · rw [if_pos (by rfl)]
        congr 1
        funext i
        fin_cases i
        rfl
    have h1 : obsOf 1 [(0, v), (1, v)] [ty] - 0 = fun _ => v := by
      rw [sub_zero]
      funext i
      fin_cases i
      rcases hty with rfl | rfl <;> rfl
    have ha : (⟨1, 5, [(0, some 2), (1, some 2)], false⟩ : Meas Nat Nat).anyAvailable [ty] = true := by
      rcases hty with rfl | rfl <;> rfl
    unfold oneWindow
    rw [if_pos ha]
    have h2 : exNavDev.measure 5 [⟨v, 5, some 1⟩] = .ok (some [(0, v), (1, v)]) := rfl
    have h3 : exNavDev.hTilde ⟨1, 5, [(0, some 2), (1, some 2)], false⟩ [ty] ⟨v, 5, some 1⟩ = .ok 1 := rfl
    have h4 : exNavDev.covar [ty] 5 = .ok 1 := rfl
    have h5 : exNavDev.bias [ty] 5 = .ok 0 := rfl
    have h6 : threshold exNav exNavArc = none := rfl
    have h7 : resolve exNavArc.moduli [ty] (fun _ => v) (fun _ : Fin 1 => (2 : ℝ)) = fun _ => 2 := rfl
    have h8 : kf.measurementUpdate exNav.chol exNav.dcm ⟨v, 5, some 1⟩ ⟨fun _ => 2, fun _ => v, 1, 1⟩ none =
      .ok (kf', e, r, g) := hu
    simp only [h0, h2, h3, h4, h5, h6, h1, h7, h8, Res.bind_ok, hr]
    have h9 : applyUpdate exNav ⟨⟨v, 5, some 1⟩, 10⟩ [⟨v, 5, some 1⟩] e false =
        (⟨⟨v + p / (p + 1) * (2 - v), 5, some 1⟩, 10⟩, [⟨v + p / (p + 1) * (2 - v), 5, some 1⟩]) := by
      simp [applyUpdate, exNav, he, hd, resetStm]
    rw [h9]
  · simp [estState, exNav, he, hd]

/-- The run of the example: two estimates at the epoch 5. -/
theorem exNav_runs : ∃ e₁ r₁ g₁ e₂ r₂ g₂, processArc exNav 5 exNavEst exNavArc =
      some (.ok [.msr e₁ r₁ g₁ 1 [0], .msr e₂ r₂ g₂ 1 [1]]) ∧
    estState exNav.plus e₁ = ⟨5, 1⟩ ∧ estState exNav.plus e₂ = ⟨5, 4 / 3⟩ := by
  obtain ⟨k₁, e₁, r₁, g₁, w₁, s₁, c₁, n₁, v₁⟩ := exNav_window 0 (Or.inl rfl) ⟨exNavEst, [], .referenceUpdate, 0⟩ 1
    one_pos rfl rfl rfl 0 []
  obtain ⟨k₂, e₂, r₂, g₂, w₂, s₂, _, _, _⟩ := exNav_window 1 (Or.inr rfl) k₁ (1 / (1 + 1)) (by norm_num) n₁ c₁ v₁
    (0 + 1 / (1 + 1) * (2 - 0)) [.msr e₁ r₁ g₁ 1 [0]]
  have h2 : advanceTo exNav exNavArc ⟨1, 5, [(0, some 2), (1, some 2)], false⟩ 5 (start exNav exNavEst) =
      some (allWindows exNav exNavArc ⟨1, 5, [(0, some 2), (1, some 2)], false⟩ exNavDev [[0], [1]]
        ⟨⟨⟨0, 5, some 1⟩, 10⟩, 5, ⟨exNavEst, [], .referenceUpdate, 0⟩, [⟨0, 5, some 1⟩], []⟩) := rfl
  rw [allWindows, w₁, Res.bind_ok, allWindows] at h2
  simp only [List.nil_append] at h2
  rw [w₂, Res.bind_ok, allWindows] at h2
  refine ⟨e₁, r₁, g₁, e₂, r₂, g₂, ?_, ?_, ?_⟩
  · unfold processArc
    rw [if_neg (by simp [exNavArc, exNav]), show exNavArc.measurements =
      [⟨1, 5, [(0, some 2), (1, some 2)], false⟩, ⟨7, 9, [], false⟩] from rfl, processAll, h2]
    rfl
  · rw [s₁]; norm_num
  · rw [s₂]; norm_num

/-- **C225 refuted.** A scalar state is measured twice at the same epoch, as a range and a Doppler of a station
are by the filter of scalar measurements. The last estimate at that epoch, with both measurements, is 4/3; the
navigation trajectory evaluated there is the estimate with only the first measurement, 1. -/
theorem to_traj_keeps_first : ∃ sol l, processArc exNav 5 exNavEst exNavArc = some (.ok sol) ∧
    toTraj (estState exNav.plus) (sol.map Entry.est) = some l ∧
    (∃ e, sol.getLast? = some e ∧ estState exNav.plus e.est = ⟨5, 4 / 3⟩) ∧
    ∀ {Er : Type} (search : List Int → Int → Except Nat Nat) (_ : Searches search)
      (interp : TS ℝ → Int → List (TS ℝ) → Except Er (TS ℝ)), at_ search interp l 5 = .ok ⟨5, 1⟩ := by
  obtain ⟨e₁, r₁, g₁, e₂, r₂, g₂, h, s₁, s₂⟩ := exNav_runs
  refine ⟨_, _, h, rfl, ⟨_, rfl, s₂⟩, fun search hs interp => ?_⟩
  have := ((to_traj_partial search hs interp (estState exNav.plus) [e₁, e₂]).2 _ rfl (by simp [s₁, s₂])).2.2.2.1
    [] e₁ [e₂] rfl (by simp)
  rw [s₁] at this
  exact this

end Verif.Process
