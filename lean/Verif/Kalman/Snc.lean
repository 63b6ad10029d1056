import Verif.Kalman.Units
/-!
Theorems on the process noise: C33 (validity window, selection, positive semi-definite), C83 (noise in
a local frame), C84 (decaying noise).
-/
namespace Verif.Kalman
open Matrix
set_option linter.unusedSectionVars false

variable {F Ω : Type} {s a m : Nat} {chol : Chol}
variable {dcm : F → Ω → Option (Matrix (Fin 3) (Fin 3) ℝ)}

/-! ### Specification -/

/-- The noise is in its validity window: started, used recently enough, and the step is not longer
than the disable time. -/
def Active (q : Noise F a) (epoch dt : Int) : Prop :=
  (∀ st, q.startTime = some st → st ≤ epoch) ∧
  (∀ p, q.prevEpoch = some p → epoch - p ≤ q.disableTime) ∧ dt ≤ q.disableTime

theorem applies_iff (q : Noise F a) (epoch : Int) : q.applies epoch = true ↔
    (∀ st, q.startTime = some st → st ≤ epoch) ∧
    (∀ p, q.prevEpoch = some p → epoch - p ≤ q.disableTime) := by
  unfold Noise.applies
  cases q.startTime <;> cases q.prevEpoch <;> simp

theorem getElem_zipIdx_reverse {l : List (Noise F a)} {pre post : List (Noise F a × Nat)}
    {q : Noise F a} {i : Nat} (h : l.zipIdx.reverse = pre ++ (q, i) :: post) :
    l[i]? = some q ∧ ∀ j q', i < j → l[j]? = some q' → (q', j) ∈ pre := by
  have h' : l.zipIdx = post.reverse ++ (q, i) :: pre.reverse := by
    have := congrArg List.reverse h
    rw [List.reverse_reverse] at this
    rw [this]; simp
  have hlen : post.length = i := by
    have h1 : l.zipIdx[post.length]? = some (q, i) := by
      rw [h', ← List.length_reverse (as := post)]
      simp
    rw [List.getElem?_zipIdx] at h1
    cases hl : l[post.length]? with
    | none => rw [hl] at h1; simp at h1
    | some v =>
      rw [hl] at h1
      simp only [Nat.zero_add, Option.map_some, Option.some.injEq, Prod.mk.injEq] at h1
      exact h1.2
  constructor
  · have h1 : l.zipIdx[i]? = some (q, i) := by
      rw [h', ← hlen, ← List.length_reverse (as := post)]
      simp
    rw [List.getElem?_zipIdx] at h1
    cases hl : l[i]? with
    | none => rw [hl] at h1; simp at h1
    | some v =>
      rw [hl] at h1
      simp only [Nat.zero_add, Option.map_some, Option.some.injEq, Prod.mk.injEq] at h1
      rw [h1.1]
  · intro j q' hij hj
    have h1 : l.zipIdx[j]? = some (q', j) := by
      rw [List.getElem?_zipIdx, hj]; simp
    rw [h', List.getElem?_append_right (by simp; omega)] at h1
    have : j - post.reverse.length = (j - i - 1) + 1 := by simp; omega
    rw [this, List.getElem?_cons_succ] at h1
    have := List.mem_of_getElem? h1
    simpa using this

/-- **C33.** The predicted covariance of every update is the mapped covariance, plus the contribution
of at most one process noise: if none is in its window, nothing is added; otherwise the one used (the
reported index) is in its window, it is the last such one in the list, and its contribution is
symmetric PSD when its diagonal is non negative. -/
theorem process_noise_window (kf : KF F Ω s a) (x : Nominal Ω s) (stm P : Matrix (Fin s) (Fin s) ℝ)
    (u : Nat) (h : kf.predict dcm x stm = .ok (P, u)) :
    ((∀ q ∈ kf.noises, ¬ Active q x.epoch (x.epoch - kf.prev.nominal.epoch)) ∧
      P = stm * kf.prev.covar * stmᵀ ∧ u = kf.prevUsedSnc) ∨
    (∃ q C, kf.noises[u]? = some q ∧ Active q x.epoch (x.epoch - kf.prev.nominal.epoch) ∧
      (∀ j q', u < j → kf.noises[j]? = some q' →
        ¬ Active q' x.epoch (x.epoch - kf.prev.nominal.epoch)) ∧
      P = stm * kf.prev.covar * stmᵀ + C ∧ ((∀ i, 0 ≤ q.diag i) → SymPsd C)) := by
  have hnone : ∀ q : Noise F a, q.propagate s dcm x.orbit x.epoch (x.epoch - kf.prev.nominal.epoch)
      = .ok none → ¬ Active q x.epoch (x.epoch - kf.prev.nominal.epoch) := by
    intro q hq ha
    rcases propagate_none hq with h1 | h1
    · have := (applies_iff q x.epoch).2 ⟨ha.1, ha.2.1⟩
      rw [h1] at this; cases this
    · exact absurd ha.2.2 (not_le.2 h1)
  unfold KF.predict at h
  obtain ⟨o, h1, h2⟩ := Res.bind_eq_ok.1 h
  rcases o with _ | ⟨i, C⟩
  · left
    injection h2 with h2
    injection h2 with h2 h3
    refine ⟨fun q hq => hnone q ?_, h2.symm, h3.symm⟩
    obtain ⟨i, hi, rfl⟩ := List.mem_iff_getElem.1 hq
    exact sncLoop_none h1 (kf.noises[i], i) (by
      rw [List.mem_reverse]
      refine List.mem_iff_getElem?.2 ⟨i, ?_⟩
      rw [List.getElem?_zipIdx, List.getElem?_eq_getElem hi]; simp)
  · right
    injection h2 with h2
    injection h2 with h2 h3
    subst h3
    obtain ⟨pre, q, post, k1, k2, k3⟩ := sncLoop_some h1
    obtain ⟨g1, g2⟩ := getElem_zipIdx_reverse k1
    obtain ⟨p1, p2, G, d, _, p4, p5⟩ := propagate_some k2
    have := (applies_iff q x.epoch).1 p1
    refine ⟨q, C, g1, ⟨this.1, this.2, p2⟩, fun j q' hj hq' => ?_, h2.symm, fun hd => ?_⟩
    · exact hnone q' (k3 _ (g2 j q' hj hq'))
    · rw [symPsd_iff, p4]
      exact gamma_psd (p5 hd) G

/-! ### The contribution in closed form -/

/-- Weight of the acceleration noise on component `i` of the state: `dt^2/2` on the position, `dt` on
the velocity, nothing on other components. -/
noncomputable def weight (dt : ℝ) (i : Nat) : ℝ := if i < 3 then dt ^ 2 / 2 else if i < 6 then dt else 0

theorem gamma3 {dt : ℝ} {G : Matrix (Fin s) (Fin 3) ℝ} (h : gamma s 3 dt = .ok G) :
    6 ≤ s ∧ ∀ r c, G r c = if r.val % 3 = c.val then weight dt r.val else 0 := by
  have hw : gammaWrites 3 =
      [(0, 0, true), (3, 0, false), (1, 1, true), (4, 1, false), (2, 2, true), (5, 2, false)] := by
    decide
  unfold gamma at h
  split at h
  · rename_i hall
    injection h with h
    rw [hw] at hall h
    simp only [List.all_cons, List.all_nil, Bool.and_true, Bool.and_eq_true, decide_eq_true_eq] at hall
    refine ⟨by omega, fun r c => ?_⟩
    rw [← h]
    simp only [List.foldl_cons, List.foldl_nil, gammaWrite, of_apply, if_true, Matrix.zero_apply]
    have hc := c.isLt
    obtain ⟨c, hc⟩ := c
    simp only
    by_cases h6 : r.val < 6
    · unfold weight
      have : r.val = 0 ∨ r.val = 1 ∨ r.val = 2 ∨ r.val = 3 ∨ r.val = 4 ∨ r.val = 5 := by omega
      have hc' : c = 0 ∨ c = 1 ∨ c = 2 := by omega
      rcases this with e | e | e | e | e | e <;> rcases hc' with rfl | rfl | rfl <;> simp [e]
    · have hz : weight dt r.val = 0 := by
        unfold weight
        rw [if_neg (by omega), if_neg h6]
      rw [if_neg (by omega), if_neg (by omega), if_neg (by omega), if_neg (by omega),
        if_neg (by omega), if_neg (by omega), hz]
      simp
  · cases h

/-- **C33, value.** Three dimensional noise without local frame, with or without decay since its initial
epoch: entry `(i, j)` of the
contribution is the noise of axis `i mod 3` weighted by `dt^2/2` per position and `dt` per velocity
component, and zero between different axes and for other components. -/
theorem process_noise_value (q : Noise F 3) (o : Ω) (epoch dt : Int)
    (C : Matrix (Fin s) (Fin s) ℝ) (hf : q.localFrame = none) (c : Fin 3 → ℝ)
    (hd : (q.decay = none ∧ ∀ k, c k = q.diag k) ∨
      ∃ d e0, q.decay = some d ∧ q.initEpoch = some e0 ∧
        ∀ k, c k = q.diag k * Real.exp (-(d k * (((epoch - e0 : Int) : ℝ) / 1000000000))))
    (h : q.propagate s dcm o epoch dt = .ok (some C)) (i j : Fin s) :
    C i j = if i.val % 3 = j.val % 3 then
      weight (toSec dt) i.val * c ⟨i.val % 3, Nat.mod_lt _ (by omega)⟩ * weight (toSec dt) j.val
      else 0 := by
  have hD : q.toDiag epoch = .ok (some c) ∨ q.toDiag epoch = .ok none := by
    unfold Noise.toDiag
    split
    · left
      rcases hd with ⟨hd, hc⟩ | ⟨d, e0, hd, he, hc⟩
      · rw [hd]
        simp only [Res.ok.injEq, Option.some.injEq]
        funext k; exact (hc k).symm
      · rw [hd, he]
        simp only [Res.ok.injEq, Option.some.injEq]
        funext k
        rw [hc k]
        simp only [toSec, neg_mul]
    · exact Or.inr rfl
  unfold Noise.propagate at h
  rw [hf] at h
  rcases hD with hD | hD
  rotate_left
  · rw [hD] at h; simp [Res.bind] at h
  · rw [hD] at h
    simp only [Res.bind] at h
    split at h
    · cases h
    · split at h
      · rename_i G hG
        injection h with h
        injection h with h
        obtain ⟨_, hg⟩ := gamma3 hG
        rw [← h, Matrix.mul_apply]
        simp only [mul_diagonal, transpose_apply, hg]
        by_cases hij : i.val % 3 = j.val % 3
        · rw [if_pos hij, Finset.sum_eq_single (⟨i.val % 3, Nat.mod_lt _ (by omega)⟩ : Fin 3)]
          · simp [hij]
          · intro b _ hb
            rw [if_neg (fun hh => hb (Fin.ext hh.symm))]
            simp
          · simp
        · rw [if_neg hij]
          refine Finset.sum_eq_zero fun b _ => ?_
          by_cases hb : i.val % 3 = b.val
          · rw [if_neg (fun hh => hij (hb.trans hh.symm) : ¬ j.val % 3 = b.val)]; simp
          · rw [if_neg hb]; simp
      · cases h
      · cases h

/-- **C33 (memory).** Every successful update, accepted or rejected, stores its epoch as the previous epoch
of every process noise and changes nothing else in them; the estimate of the update becomes the previous
estimate. -/
theorem noises_after_update (kf kf' : KF F Ω s a) (x : Nominal Ω s) (e : Est Ω s)
    (h : kf.timeUpdate dcm x = .ok (kf', e) ∨
      ∃ (m : Nat) (z : MsrIn s m) (t : Option ℝ) (r : Resid m) (g : Option (Matrix (Fin s) (Fin m) ℝ)),
        kf.measurementUpdate chol dcm x z t = .ok (kf', e, r, g)) :
    e.nominal = x ∧ kf'.prev = e ∧ kf'.noises.length = kf.noises.length ∧
      ∀ (i : Nat) (q : Noise F a), kf.noises[i]? = some q → ∃ q' : Noise F a, kf'.noises[i]? = some q' ∧ q'.prevEpoch = some x.epoch ∧
        q'.startTime = q.startTime ∧ q'.disableTime = q.disableTime ∧ q'.diag = q.diag ∧
        q'.decay = q.decay ∧ q'.initEpoch = q.initEpoch ∧ q'.localFrame = q.localFrame := by
  have key : ∀ u, e.nominal = x → kf' = kf.store u e → e.nominal = x ∧ kf'.prev = e ∧
      kf'.noises.length = kf.noises.length ∧
      ∀ (i : Nat) (q : Noise F a), kf.noises[i]? = some q → ∃ q' : Noise F a, kf'.noises[i]? = some q' ∧ q'.prevEpoch = some x.epoch ∧
        q'.startTime = q.startTime ∧ q'.disableTime = q.disableTime ∧ q'.diag = q.diag ∧
        q'.decay = q.decay ∧ q'.initEpoch = q.initEpoch ∧ q'.localFrame = q.localFrame := by
    rintro u he rfl
    refine ⟨he, rfl, by simp [KF.store], fun i q hq => ?_⟩
    refine ⟨{ q with prevEpoch := some e.nominal.epoch }, ?_, by rw [← he], rfl, rfl, rfl, rfl, rfl, rfl⟩
    simp [KF.store, hq]
  have htime : kf.timeUpdate dcm x = .ok (kf', e) → ∃ u, e.nominal = x ∧ kf' = kf.store u e := by
    intro h
    obtain ⟨stm, pu, _, _, h3, h4⟩ := timeUpdate_ok h
    exact ⟨_, by rw [h4], h3⟩
  rcases h with h | ⟨m, z, t, r, g, h⟩
  · obtain ⟨u, h1, h2⟩ := htime h
    exact key u h1 h2
  · obtain ⟨stm, pu, L, _, _, _, _, _, _, _, _, _, _, h6⟩ := measurementUpdate_ok h
    rcases h6 with ⟨_, _, _, h6⟩ | ⟨_, K, _, _, h7, _, h8⟩
    · obtain ⟨u, h1, h2⟩ := htime h6
      exact key u h1 h2
    · exact key pu.2 (by rw [h7]) h8

/-- **C33 (gap).** After an update, if the next one comes later than the disable time of every noise, no
process noise is added. -/
theorem noise_disabled_after_gap (kf kf' : KF F Ω s a) (x y : Nominal Ω s) (e : Est Ω s)
    (stm P : Matrix (Fin s) (Fin s) ℝ) (u : Nat) (h : kf.timeUpdate dcm x = .ok (kf', e))
    (hgap : ∀ q ∈ kf.noises, q.disableTime < y.epoch - x.epoch)
    (hp : kf'.predict dcm y stm = .ok (P, u)) : P = stm * e.covar * stmᵀ := by
  obtain ⟨h1, h2, h3, h4⟩ := noises_after_update (chol := fun _ _ => none) kf kf' x e (Or.inl h)
  rcases process_noise_window kf' y stm P u hp with ⟨_, h6, _⟩ | ⟨q, C, hq, ha, _⟩
  · rw [h6, h2]
  · exfalso
    have hlt : u < kf.noises.length := by
      rw [← h3]
      exact (List.getElem?_eq_some_iff.1 hq).1
    obtain ⟨q', k1, k2, _, k4, _⟩ := h4 u _ (List.getElem?_eq_getElem hlt)
    rw [hq] at k1
    have : q = q' := Option.some.inj k1
    subst this
    have := ha.2.1 _ k2
    rw [k4] at this
    have := hgap _ (List.getElem_mem hlt)
    omega

/-- The hypotheses of the two theorems are met by a filter with an active noise, after a long gap. -/
example : ∃ (kf : KF Unit Unit 6 3) (kf' : KF Unit Unit 6 3) (e : Est Unit 6),
    kf.timeUpdate (fun _ _ => none) ⟨(), 10, some 1⟩ = .ok (kf', e) ∧ kf.noises ≠ [] ∧
      (∀ q ∈ kf.noises, q.disableTime < 1000 - 10) ∧
      ∃ P u, kf'.predict (fun _ _ => none) ⟨(), 1000, some 1⟩ 1 = .ok (P, u) := by
  have hg : ∃ G, gamma 6 3 (toSec 10) = .ok G := by
    unfold gamma
    rw [if_pos (by decide)]
    exact ⟨_, rfl⟩
  obtain ⟨G, hG⟩ := hg
  let q : Noise Unit 3 := ⟨none, none, 100, none, fun _ => 1, none, none⟩
  let e0 : Est Unit 6 := ⟨⟨(), 0, some 1⟩, 0, 1, 1, 1, false⟩
  let kf : KF Unit Unit 6 3 := ⟨e0, [q], .referenceUpdate, 0⟩
  have h1 : ∃ P, kf.predict (fun _ _ => none) ⟨(), 10, some 1⟩ 1 = .ok (P, 0) := by
    simp [kf, q, e0, KF.predict, sncLoop, Noise.propagate, Noise.toDiag, Noise.applies, Res.bind, hG]
  obtain ⟨P, hP⟩ := h1
  refine ⟨kf, kf.store 0 ⟨⟨(), 10, some 1⟩, 0, P, P, 1, true⟩, ⟨⟨(), 10, some 1⟩, 0, P, P, 1, true⟩,
    ?_, by simp [kf], ?_, 1 * P * 1ᵀ, 0, ?_⟩
  · unfold KF.timeUpdate
    simp only [hP, Res.bind]
    simp [kf]
  · simp [kf, q]
  · simp [kf, q, e0, KF.predict, KF.store, sncLoop, Noise.propagate, Noise.toDiag, Noise.applies, Res.bind]

/-- Six dimensional noise on a nine dimensional state (a spacecraft): the index of the second block is
out of bounds, the update panics. -/
theorem noise6_panics (dt : ℝ) : gamma 9 6 dt = .panic := by
  unfold gamma
  rw [if_neg]
  decide

/-! ### C83 -/

/-- The true rotation of a diagonal noise, of which the code keeps the diagonal. -/
theorem rotDiag3 (R : Matrix (Fin 3) (Fin 3) ℝ) (d d' : Fin 3 → ℝ) (h : rotDiag R d = .ok d')
    (i : Fin 3) : d' i = (R * diagonal d * Rᵀ) i i := by
  unfold rotDiag at h
  rw [if_pos (Or.inl rfl)] at h
  injection h with h
  rw [← h, Matrix.mul_apply]
  refine Finset.sum_congr rfl fun k _ => ?_
  rw [mul_diagonal, transpose_apply]
  have hi := i.isLt
  have hk := k.isLt
  have h1 : (⟨i.val % 3, Nat.mod_lt _ (by omega)⟩ : Fin 3) = i := Fin.ext (Nat.mod_eq_of_lt hi)
  have h2 : at_ d (3 * (i.val / 3) + k.val) = d k := by
    unfold at_
    rw [Nat.div_eq_of_lt hi]
    simp
  rw [h1, h2]

/-- The state rotation of size six is block triangular with the rotation rate `D` below the diagonal,
and its counterpart is made of the transposed blocks: the diagonal of the product does not depend on
`D`. This justifies the simplification in `rotDiag`. -/
theorem stateDcm_diag (R D : Matrix (Fin 3) (Fin 3) ℝ) (d1 d2 : Fin 3 → ℝ) (i : Fin 3) :
    (fromBlocks R 0 D R * diagonal (Sum.elim d1 d2) * fromBlocks Rᵀ 0 Dᵀ Rᵀ) (.inl i) (.inl i) =
      ∑ k, R i k * d1 k * R i k ∧
    (fromBlocks R 0 D R * diagonal (Sum.elim d1 d2) * fromBlocks Rᵀ 0 Dᵀ Rᵀ) (.inr i) (.inr i) =
      ∑ k, R i k * d2 k * R i k := by
  constructor
  · rw [Matrix.mul_apply, Fintype.sum_sum_type]
    simp [mul_diagonal]
  · rw [Matrix.mul_apply, Fintype.sum_sum_type]
    simp [mul_diagonal]

/-- **C83, partial.** The total noise (trace) is preserved by the change to the state frame for a
rotation matrix. What is missing: the correlations between axes, see `local_frame_noise_not_rotated`. -/
theorem local_frame_noise_partial (R : Matrix (Fin 3) (Fin 3) ℝ) (hR : Rᵀ * R = 1) (d d' : Fin 3 → ℝ)
    (h : rotDiag R d = .ok d') : ∑ i, d' i = ∑ i, d i := by
  have : ∑ i, d' i = (R * diagonal d * Rᵀ).trace := by
    rw [trace]
    exact Finset.sum_congr rfl fun i _ => rotDiag3 R d d' h i
  rw [this, trace_mul_comm, ← Matrix.mul_assoc, hR, Matrix.one_mul, trace_diagonal]

/-- **C83 is false of the code.** There are a rotation matrix and a noise whose diagonal kept by the
code is not the rotated noise. -/
theorem local_frame_noise_not_rotated :
    ∃ (R : Matrix (Fin 3) (Fin 3) ℝ) (d d' : Fin 3 → ℝ), Rᵀ * R = 1 ∧ rotDiag R d = .ok d' ∧
      diagonal d' ≠ R * diagonal d * Rᵀ := by
  refine ⟨!![3/5, 4/5, 0; -4/5, 3/5, 0; 0, 0, 1], ![1, 0, 0], _, ?_, if_pos (Or.inl rfl), ?_⟩
  · ext i j
    fin_cases i <;> fin_cases j <;> simp [Matrix.mul_apply, Fin.sum_univ_three] <;> norm_num
  · intro h
    have := congrFun (congrFun h 0) 1
    rw [diagonal_apply_ne _ (by decide), Matrix.mul_apply] at this
    simp only [mul_diagonal, Fin.sum_univ_three, transpose_apply] at this
    simp at this

/-! ### C84 -/

/-- The noises have an initial epoch. -/
def Initialised (kf : KF F Ω s a) : Prop := ∀ q ∈ kf.noises, q.initEpoch ≠ none

theorem initialised_andWithNoise (kf : KF F Ω s a) (q : Noise F a) (h : Initialised kf) :
    Initialised (kf.andWithNoise q) := by
  intro p hp
  unfold KF.andWithNoise at hp
  rcases List.mem_append.1 hp with hp | hp
  · exact h p hp
  · rw [List.mem_singleton] at hp
    rw [hp]; simp

theorem initialised_initNoises (kf : KF F Ω s a) : Initialised kf.initNoises := by
  intro p hp
  unfold KF.initNoises at hp
  obtain ⟨q, _, rfl⟩ := List.mem_map.1 hp
  simp

theorem initialised_store (kf : KF F Ω s a) (h : Initialised kf) (u : Nat) (e : Est Ω s) :
    Initialised (kf.store u e) := by
  intro p hp
  obtain ⟨q, h1, rfl⟩ := List.mem_map.1 hp
  exact h q h1

theorem propagate_no_panic (q : Noise F 3) (h : q.initEpoch ≠ none) (hs : 6 ≤ s) (o : Ω)
    (epoch dt : Int) : q.propagate s dcm o epoch dt ≠ .panic := by
  intro hp
  unfold Noise.propagate at hp
  have h1 : ∀ r, q.toDiag epoch = r → r ≠ .panic := by
    intro r hr hr'
    subst hr'
    unfold Noise.toDiag at hr
    split at hr
    · split at hr
      · cases hr
      · split at hr
        · exact h ‹_›
        · cases hr
    · cases hr
  cases hd : q.toDiag epoch with
  | panic => exact h1 _ hd rfl
  | err => rw [hd] at hp; cases hp
  | ok o' =>
    rw [hd] at hp
    cases o' with
    | none => cases hp
    | some d =>
      rw [Res.bind_ok] at hp
      simp only at hp
      have hg : ∃ G, gamma s 3 (toSec dt) = .ok G := by
        unfold gamma
        rw [if_pos]
        · exact ⟨_, rfl⟩
        · have hw : gammaWrites 3 =
            [(0, 0, true), (3, 0, false), (1, 1, true), (4, 1, false), (2, 2, true),
              (5, 2, false)] := by decide
          rw [hw]
          simp only [List.all_cons, List.all_nil, Bool.and_true, Bool.and_eq_true,
            decide_eq_true_eq]
          omega
      obtain ⟨G, hG⟩ := hg
      rw [hG] at hp
      cases hl : q.localFrame with
      | none =>
        rw [hl] at hp
        simp only at hp
        rw [Res.bind_ok] at hp
        split at hp <;> cases hp
      | some f =>
        rw [hl] at hp
        simp only at hp
        cases hR : dcm f o with
        | none => rw [hR] at hp; cases hp
        | some R =>
          rw [hR] at hp
          simp only [rotDiag, true_or, if_true] at hp
          rw [Res.bind_ok] at hp
          split at hp <;> cases hp

/-- **C84, partial.** With three dimensional noises on a state of at least six components, if all
noises have been given an initial epoch (by the filter's constructors or by `process_arc`), no update
of the filter panics, and the property is kept. What is missing: `predict_until` and
`set_process_noise` do not set the initial epoch, see `decay_without_init_panics`. -/
theorem updates_do_not_panic_partial (kf : KF F Ω s 3) (h : Initialised kf) (hs : 6 ≤ s)
    (ops : List (Op Ω s)) : kf.run chol dcm ops ≠ .panic := by
  have hsnc : ∀ (x : Nominal Ω s) (dt : Int) (l : List (Noise F 3 × Nat)),
      (∀ p ∈ l, p.1.initEpoch ≠ none) → sncLoop dcm x dt l ≠ .panic := by
    intro x dt l
    induction l with
    | nil => intro _ hc; cases hc
    | cons p rest ih =>
      obtain ⟨q, j⟩ := p
      intro hl hc
      rw [sncLoop] at hc
      cases hp : q.propagate s dcm x.orbit x.epoch dt with
      | panic => exact propagate_no_panic q (hl (q, j) (List.mem_cons_self ..)) hs _ _ _ hp
      | err => rw [hp] at hc; cases hc
      | ok o =>
        rw [hp, Res.bind_ok] at hc
        cases o with
        | some C => cases hc
        | none => exact ih (fun p hp => hl p (List.mem_cons_of_mem _ hp)) hc
  have hpred : ∀ (kf : KF F Ω s 3) (x : Nominal Ω s) (stm : Matrix (Fin s) (Fin s) ℝ),
      Initialised kf → kf.predict dcm x stm ≠ .panic := by
    intro kf x stm hi hc
    unfold KF.predict at hc
    cases hp : sncLoop dcm x (x.epoch - kf.prev.nominal.epoch) kf.noises.zipIdx.reverse with
    | panic =>
      refine hsnc _ _ _ (fun p hp => ?_) hp
      rw [List.mem_reverse] at hp
      obtain ⟨q, i⟩ := p
      have := List.mem_zipIdx' hp
      exact hi q (by rw [this.2]; exact List.getElem_mem _)
    | err => rw [hp] at hc; cases hc
    | ok o =>
      rw [hp, Res.bind_ok] at hc
      rcases o with _ | ⟨i, C⟩ <;> cases hc
  have htime : ∀ (kf : KF F Ω s 3) (x : Nominal Ω s), Initialised kf →
      kf.timeUpdate dcm x ≠ .panic := by
    intro kf x hi hc
    unfold KF.timeUpdate at hc
    split at hc
    · cases hc
    · rename_i stm _
      cases hp : kf.predict dcm x stm with
      | panic => exact hpred _ _ _ hi hp
      | err => rw [hp] at hc; cases hc
      | ok o => rw [hp] at hc; cases hc
  induction ops generalizing kf with
  | nil => intro hc; cases hc
  | cons o rest ih =>
    intro hc
    cases o with
    | time x =>
      rw [KF.run] at hc
      cases hp : kf.timeUpdate dcm x with
      | panic => exact htime _ _ h hp
      | err => rw [hp] at hc; cases hc
      | ok r =>
        rw [hp, Res.bind_ok] at hc
        obtain ⟨_, _, _, _, h3, _⟩ := timeUpdate_ok (kf' := r.1) (e := r.2) hp
        exact ih r.1 (by rw [h3]; exact initialised_store _ h _ _) hc
    | msr x m z t =>
      rw [KF.run] at hc
      cases hp : kf.measurementUpdate chol dcm x z t with
      | panic =>
        unfold KF.measurementUpdate at hp
        split at hp
        · cases hp
        · rename_i stm _
          cases hp1 : kf.predict dcm x stm with
          | panic => exact hpred _ _ _ h hp1
          | err => rw [hp1] at hp; cases hp
          | ok pu =>
            rw [hp1, Res.bind_ok] at hp
            simp only at hp
            split at hp
            · cases hp
            · split at hp
              · cases hp2 : KF.timeUpdate dcm { kf with prevUsedSnc := pu.2 } x with
                | panic => exact htime { kf with prevUsedSnc := pu.2 } _ h hp2
                | err => rw [hp2] at hp; cases hp
                | ok r => rw [hp2] at hp; cases hp
              · rename_i L _ _
                cases hp2 : gainOf chol pu.1 z.H (z.H * (pu.1 * z.Hᵀ) + z.R) with
                | panic =>
                  unfold gainOf at hp2
                  split at hp2
                  · cases hp2
                  · split at hp2 <;> cases hp2
                | err => rw [hp2] at hp; cases hp
                | ok r => rw [hp2] at hp; cases hp
      | err => rw [hp] at hc; cases hc
      | ok r =>
        rw [hp, Res.bind_ok] at hc
        obtain ⟨kf', e, rr, g⟩ := r
        obtain ⟨_, _, _, _, _, _, _, _, _, _, _, _, _, hcase⟩ := measurementUpdate_ok hp
        refine ih kf' ?_ hc
        rcases hcase with ⟨_, _, _, h3⟩ | ⟨_, _, _, _, _, _, h3⟩
        · obtain ⟨_, _, _, _, h4, _⟩ := timeUpdate_ok h3
          rw [h4]; exact initialised_store _ h _ _
        · rw [h3]; exact initialised_store _ h _ _

/-- A decaying noise as built by `with_decay`. od/snc.rs:147-162. -/
def Noise.withDecay (values decay : Fin a → ℝ) (disable : Int) (frame : Option F) : Noise F a :=
  { startTime := none, localFrame := frame, disableTime := disable, initEpoch := none,
    diag := values, decay := some decay, prevEpoch := none }

/-- **C84 is false of the code.** A filter whose last noise is a decaying noise as built by
`with_decay`, set by `set_process_noise` or used in `predict_until` (which both leave the initial
epoch unset), panics on its first update. -/
theorem decay_without_init_panics (kf : KF F Ω s a) (x : Nominal Ω s)
    (stm : Matrix (Fin s) (Fin s) ℝ) (hs : x.stm = some stm) (values decay : Fin a → ℝ)
    (disable : Int) (frame : Option F) :
    (kf.setNoise (Noise.withDecay values decay disable frame)).timeUpdate dcm x = .panic := by
  unfold KF.timeUpdate
  rw [hs]
  simp [KF.predict, KF.setNoise, sncLoop, Noise.propagate, Noise.toDiag, Noise.applies,
    Noise.withDecay, Res.bind]

/-- A filter on six components with one noise. -/
noncomputable def exKf6 : KF Unit Unit 6 3 where
  prev := { nominal := ⟨(), 0, some 1⟩, dev := 0, covar := 1, covarBar := 1, stm := 1, predicted := false }
  noises := [⟨some 5, none, 100, none, fun _ => 1, none, some 0⟩]
  variant := .referenceUpdate
  prevUsedSnc := 7

/-- The hypothesis of `process_noise_window` is met with an active noise. -/
example : ∃ P, exKf6.predict (fun _ _ => none) ⟨(), 10, some 1⟩ 1 = .ok (P, 0) := by
  have hg : ∃ G, gamma 6 3 (toSec 10) = .ok G := by
    unfold gamma
    rw [if_pos (by decide)]
    exact ⟨_, rfl⟩
  obtain ⟨G, hG⟩ := hg
  simp [exKf6, KF.predict, sncLoop, Noise.propagate, Noise.toDiag, Noise.applies, Res.bind, hG]

example (dcm : Unit → Unit → Option (Matrix (Fin 3) (Fin 3) ℝ)) := decay_without_init_panics (dcm := dcm) exKf6 ⟨(), 10, some 1⟩ 1 rfl (fun _ => 1) (fun _ => 2) 100 none

end Verif.Kalman
