import Verif.Process.Chain
import Verif.Process.Resume
/-!
C249: deviation tracking and reference updates on linear problems.
-/
namespace Verif.Variants
open Matrix Verif.Kalman Verif.Process

variable {T K F Ω : Type} [DecidableEq K] {s a m : Nat}

/-! ### Specification -/

/-- Two results: both errors, both panics, or values in a relation. -/
inductive Both {α β : Type} (R : α → β → Prop) : Res α → Res β → Prop
  | ok {x y} : R x y → Both R (.ok x) (.ok y)
  | err : Both R .err .err
  | panic : Both R .panic .panic

/-- A linear problem. `act` moves an orbit by a deviation. The propagator moves by its transition matrix what is moved at its start, and ends
with the state at which it arrives; the sensitivity does not depend on the orbit, and the computed observation at the last state of the
trajectory moves by the sensitivity, for the types that are measured; the local frames do not depend on the orbit. -/
structure Linear (cfg : Cfg T K F Ω s a m) (act : Ω → (Fin s → ℝ) → Ω) : Prop where
  zero : ∀ o, act o 0 = o
  add : ∀ o d d', act (act o d) d' = act o (d + d')
  plus_orbit : ∀ x d, (cfg.plus x d).orbit = act x.orbit d
  plus_epoch : ∀ x d, (cfg.plus x d).epoch = x.epoch
  adv_last : ∀ p t p' l, cfg.adv p t = .ok (p', l) → ∃ y, l.getLast? = some y ∧ y.orbit = p'.state.orbit ∧ y.epoch = p'.state.epoch
  adv_move : ∀ p q t Φ d, p.state.stm = some Φ → q.state.stm = some Φ → q.state.epoch = p.state.epoch → q.step = p.step →
    q.state.orbit = act p.state.orbit (Φ *ᵥ d) →
    Both (fun x y => y.1.state.epoch = x.1.state.epoch ∧ y.1.step = x.1.step ∧ ∃ Φ', x.1.state.stm = some Φ' ∧ y.1.state.stm = some Φ' ∧
      y.1.state.orbit = act x.1.state.orbit (Φ' *ᵥ d)) (cfg.adv p t) (cfg.adv q t)
  hTilde : ∀ tr dev z types x y, cfg.devices tr = some dev → x.epoch = y.epoch → dev.hTilde z types x = dev.hTilde z types y
  measure : ∀ tr dev z types x H t l l' y y' d, cfg.devices tr = some dev → types ∈ windows m dev.types →
    (∀ k ∈ types, (look z.data k).isSome) →
    dev.hTilde z types x = .ok H → x.epoch = t → l.getLast? = some y → l'.getLast? = some y' → y.epoch = t → y'.epoch = t →
    y'.orbit = act y.orbit d →
    Both (fun o o' => (o = none ∧ o' = none) ∨ ∃ c c', o = some c ∧ o' = some c' ∧ obsOf m c' types = obsOf m c types + H *ᵥ d)
      (dev.measure t l) (dev.measure t l')
  dcm : ∀ f o o', cfg.dcm f o = cfg.dcm f o'

/-- Two estimates of the same state: the same epoch, covariances and transition; the nominal states moved by the deviations are the same. -/
def SameEst (act : Ω → (Fin s → ℝ) → Ω) (e e' : Est Ω s) : Prop :=
  e'.nominal.epoch = e.nominal.epoch ∧ e'.covar = e.covar ∧ e'.covarBar = e.covarBar ∧ e'.stm = e.stm ∧
    act e'.nominal.orbit e'.dev = act e.nominal.orbit e.dev

/-- Two entries of solutions: estimates of the same state; the same gain, of the same tracker and types, neither rejected. What deviation tracking
reports as the postfit residual is the prefit residual of the reference update. -/
def SameEntry (act : Ω → (Fin s → ℝ) → Ω) : Entry T K Ω s m → Entry T K Ω s m → Prop
  | .time e, .time e' => SameEst act e e'
  | .msr e r g tr ty, .msr e' r' g' tr' ty' => SameEst act e e' ∧ g' = g ∧ tr' = tr ∧ ty' = ty ∧ r.rejected = false ∧ r'.rejected = false ∧
      r.epoch = r'.epoch ∧ r.postfit = some r'.prefit
  | _, _ => False

/-- A configuration with the given variant. -/
def withVariant (cfg : Cfg T K F Ω s a m) (v : Variant) : Cfg T K F Ω s a m := { cfg with variant := v }

/-! ### Lemmas -/

theorem Both.bind {α β γ δ : Type} {R : α → β → Prop} {S : γ → δ → Prop} {x : Res α} {y : Res β} {f : α → Res γ} {g : β → Res δ}
    (h : Both R x y) (hf : ∀ u v, R u v → Both S (f u) (g v)) : Both S (x.bind f) (y.bind g) := by
  cases h with
  | ok h => exact hf _ _ h
  | err => exact .err
  | panic => exact .panic

theorem Both.refl {α : Type} {R : α → α → Prop} (x : Res α) (h : ∀ u, x = .ok u → R u u) : Both R x x := by
  cases x with
  | ok u => exact .ok (h u rfl)
  | err => exact .err
  | panic => exact .panic

theorem snc_same {dcm : F → Ω → Option (Matrix (Fin 3) (Fin 3) ℝ)} (hd : ∀ f o o', dcm f o = dcm f o') {x y : Nominal Ω s}
    (hxy : y.epoch = x.epoch) (dt : Int) (l : List (Noise F a × Nat)) : sncLoop dcm x dt l = sncLoop dcm y dt l := by
  induction l with
  | nil => rfl
  | cons p l ih =>
    obtain ⟨q, i⟩ := p
    have hq : q.propagate s dcm x.orbit x.epoch dt = q.propagate s dcm y.orbit y.epoch dt := by
      unfold Noise.propagate
      rw [hxy]
      congr 1
      funext o
      cases o with
      | none => rfl
      | some d =>
        simp only
        cases q.localFrame with
        | none => rfl
        | some f => simp only [hd f x.orbit y.orbit]
    rw [sncLoop, sncLoop, hq]
    congr 1
    funext o
    cases o with
    | none => exact ih
    | some C => rfl

/-- Two filters, one of each variant, with the same covariance. -/
structure KRel (k k' : KF F Ω s a) : Prop where
  vT : k.variant = .deviationTracking
  vR : k'.variant = .referenceUpdate
  noises : k'.noises = k.noises
  used : k'.prevUsedSnc = k.prevUsedSnc
  covar : k'.prev.covar = k.prev.covar
  epoch : k'.prev.nominal.epoch = k.prev.nominal.epoch

theorem predict_same {dcm : F → Ω → Option (Matrix (Fin 3) (Fin 3) ℝ)} (hd : ∀ f o o', dcm f o = dcm f o') {x y : Nominal Ω s}
    (hxy : y.epoch = x.epoch) {k k' : KF F Ω s a} (hk : KRel k k') (Φ : Matrix (Fin s) (Fin s) ℝ) : k'.predict dcm y Φ = k.predict dcm x Φ := by
  unfold KF.predict
  rw [hk.noises, hk.epoch, hk.covar, hk.used, hxy, snc_same hd hxy]

/-- Two states of the process. -/
structure PRel (act : Ω → (Fin s → ℝ) → Ω) (st st' : PSt T K F Ω s a m) : Prop where
  epoch : st'.epoch = st.epoch
  step : st'.inst.step = st.inst.step
  instEpoch : st'.inst.state.epoch = st.inst.state.epoch
  stm : ∃ Φ, st.inst.state.stm = some Φ ∧ st'.inst.state.stm = some Φ ∧ st'.inst.state.orbit = act st.inst.state.orbit (Φ *ᵥ st.kf.prev.dev)
  kf : KRel st.kf st'.kf
  sol : List.Forall₂ (SameEntry act) st.sol st'.sol

/-- The last state of the trajectory is where the propagator is. -/
def Seen (st : PSt T K F Ω s a m) : Prop :=
  st.epoch = st.inst.state.epoch ∧ ∃ y, st.traj.getLast? = some y ∧ y.orbit = st.inst.state.orbit ∧ y.epoch = st.inst.state.epoch

theorem snoc₂ {α β : Type} {R : α → β → Prop} {l : List α} {l' : List β} {x : α} {y : β} (h : List.Forall₂ R l l') (hxy : R x y) :
    List.Forall₂ R (l ++ [x]) (l' ++ [y]) := by
  induction h with
  | nil => exact .cons hxy .nil
  | cons h1 _ ih => exact .cons h1 ih

section
variable {cfg : Cfg T K F Ω s a m} {act : Ω → (Fin s → ℝ) → Ω}

theorem timeUp_rel (hL : Linear cfg act) {st st' : PSt T K F Ω s a m} (h : PRel act st st') :
    Both (PRel act) (timeUp (withVariant cfg .deviationTracking) st.inst.state st)
      (timeUp (withVariant cfg .referenceUpdate) st'.inst.state st') := by
  obtain ⟨Φ, h1, h2, h3⟩ := h.stm
  unfold timeUp KF.timeUpdate
  rw [h1, h2]
  have hp : st'.kf.predict cfg.dcm st'.inst.state Φ = st.kf.predict cfg.dcm st.inst.state Φ := predict_same hL.dcm h.instEpoch h.kf Φ
  show Both _ (((st.kf.predict cfg.dcm st.inst.state Φ).bind _).bind _) (((st'.kf.predict cfg.dcm st'.inst.state Φ).bind _).bind _)
  rw [hp]
  cases hpu : st.kf.predict cfg.dcm st.inst.state Φ with
  | err => exact .err
  | panic => exact .panic
  | ok pu =>
    refine .ok ⟨h.epoch, h.step, h.instEpoch, ⟨1, rfl, rfl, ?_⟩, ⟨h.kf.vT, h.kf.vR, ?_, rfl, rfl, h.instEpoch⟩, snoc₂ h.sol ⟨h.instEpoch, rfl, rfl, rfl, ?_⟩⟩
    · show st'.inst.state.orbit = act st.inst.state.orbit (1 *ᵥ (if st.kf.variant = .deviationTracking then Φ *ᵥ st.kf.prev.dev else 0))
      rw [if_pos h.kf.vT, one_mulVec, h3]
    · show List.map _ st'.kf.noises = List.map _ st.kf.noises
      rw [h.kf.noises]
      show List.map (fun q : Noise F a => { q with prevEpoch := some st'.inst.state.epoch }) _ =
        List.map (fun q : Noise F a => { q with prevEpoch := some st.inst.state.epoch }) _
      rw [h.instEpoch]
    · show act st'.inst.state.orbit (if st'.kf.variant = .deviationTracking then Φ *ᵥ st'.kf.prev.dev else 0) =
        act st.inst.state.orbit (if st.kf.variant = .deviationTracking then Φ *ᵥ st.kf.prev.dev else 0)
      rw [if_pos h.kf.vT, if_neg (by rw [h.kf.vR]; decide), hL.zero, h3]

/-- One measurement. -/
theorem msr_rel (chol : Chol) {dcm : F → Ω → Option (Matrix (Fin 3) (Fin 3) ℝ)} (hdcm : ∀ f o o', dcm f o = dcm f o')
    (hz : ∀ o, act o 0 = o) (hadd : ∀ o d d', act (act o d) d' = act o (d + d'))
    {k k' : KF F Ω s a} (hk : KRel k k') {x x' : Nominal Ω s} (hxx : x'.epoch = x.epoch) {Φ : Matrix (Fin s) (Fin s) ℝ} (h1 : x.stm = some Φ)
    (h2 : x'.stm = some Φ) (h3 : x'.orbit = act x.orbit (Φ *ᵥ k.prev.dev)) (real c c' : Fin m → ℝ) (R : Matrix (Fin m) (Fin m) ℝ)
    (H : Matrix (Fin m) (Fin s) ℝ) (hc : c' = c + H *ᵥ (Φ *ᵥ k.prev.dev)) :
    Both (fun u u' => KRel u.1 u'.1 ∧ u.1.prev = u.2.1 ∧ SameEst act u.2.1 u'.2.1 ∧ u'.2.2.2 = u.2.2.2 ∧ u.2.2.1.rejected = false ∧
        u'.2.2.1.rejected = false ∧ u.2.2.1.epoch = u'.2.2.1.epoch ∧ u.2.2.1.postfit = some u'.2.2.1.prefit ∧ u.2.1.nominal = x ∧ u'.2.1.nominal = x')
      (k.measurementUpdate chol dcm x ⟨real, c, R, H⟩ none) (k'.measurementUpdate chol dcm x' ⟨real, c', R, H⟩ none) := by
  unfold KF.measurementUpdate
  rw [h1, h2]
  simp only
  rw [predict_same hdcm hxx hk Φ]
  cases hpu : k.predict dcm x Φ with
  | err => exact .err
  | panic => exact .panic
  | ok pu =>
    simp only [Res.bind_ok]
    cases hL : factorOf chol (H * (pu.1 * Hᵀ) + R) R with
    | none => exact .err
    | some L =>
      simp only [rejects, Bool.false_eq_true, if_false]
      cases hg : gainOf chol pu.1 H (H * (pu.1 * Hᵀ) + R) with
      | err => exact .err
      | panic => exact .panic
      | ok G =>
        have hy : real - c' = (real - c) - H *ᵥ (Φ *ᵥ k.prev.dev) := by rw [hc]; abel
        refine .ok ⟨⟨hk.vT, hk.vR, ?_, rfl, rfl, hxx⟩, rfl, ⟨hxx, rfl, rfl, rfl, ?_⟩, rfl, rfl, rfl, hxx.symm, ?_, rfl, rfl⟩
        · show List.map _ k'.noises = List.map _ k.noises
          rw [hk.noises]
          show List.map (fun q : Noise F a => { q with prevEpoch := some x'.epoch }) _ =
            List.map (fun q : Noise F a => { q with prevEpoch := some x.epoch }) _
          rw [hxx]
        · show act x'.orbit (devPost k'.variant Φ k'.prev.dev G H (real - c')).1 = act x.orbit (devPost k.variant Φ k.prev.dev G H (real - c)).1
          rw [hk.vT, hk.vR, h3, hadd, hy]
          rfl
        · show some (devPost k.variant Φ k.prev.dev G H (real - c)).2 = some (real - c')
          rw [hk.vT, hy]
          rfl

theorem window_rel (hL : Linear cfg act) (hs : cfg.sigmaReject = none) {arc : PArc T K} (hf : arc.forceReject = false) (hm : arc.moduli = none)
    {z : Meas T K} {dev : Dev T K Ω s m} (hdev : cfg.devices z.tracker = some dev) {types : List K} (hwin : types ∈ windows m dev.types)
    (hty : ∀ k ∈ types, (look z.data k).isSome) {st st' : PSt T K F Ω s a m} (h : PRel act st st') (hS : Seen st) (hS' : Seen st') :
    Both (fun u u' => PRel act u u' ∧ Seen u ∧ Seen u') (oneWindow (withVariant cfg .deviationTracking) arc z dev types st)
      (oneWindow (withVariant cfg .referenceUpdate) arc z dev types st') := by
  obtain ⟨Φ, h1, h2, h3⟩ := h.stm
  obtain ⟨s1, y, s2, s3, s4⟩ := hS
  obtain ⟨s1', y', s2', s3', s4'⟩ := hS'
  unfold oneWindow
  split
  · cases hreal : observation m z.data types with
    | none => exact .err
    | some real =>
      simp only
      rw [hL.hTilde _ _ _ _ _ st.inst.state hdev h.instEpoch, h.epoch]
      cases hH : dev.hTilde z types st.inst.state with
      | err => exact .err
      | panic => exact .panic
      | ok H =>
        simp only [Res.bind_ok]
        refine Both.bind (Both.refl (R := fun u v => u = v) _ fun _ _ => rfl) ?_
        rintro R _ rfl
        refine Both.bind (hL.measure _ _ z types _ H st.epoch st.traj st'.traj y y' (Φ *ᵥ st.kf.prev.dev) hdev hwin hty hH s1.symm s2 s2'
          (by rw [s4, s1]) (by rw [s4', ← s1', h.epoch]) (by rw [s3', h3, s3])) ?_
        rintro o o' (⟨rfl, rfl⟩ | ⟨c, c', rfl, rfl, hc⟩)
        · exact .ok ⟨h, ⟨s1, y, s2, s3, s4⟩, ⟨s1', y', s2', s3', s4'⟩⟩
        · simp only
          refine Both.bind (Both.refl (R := fun u v => u = v) _ fun _ _ => rfl) ?_
          rintro b _ rfl
          have ht : ∀ v, threshold (withVariant cfg v) arc = none := fun v => by simp [threshold, hf, withVariant, hs]
          simp only [hm, resolve, ht]
          refine Both.bind (msr_rel (act := act) cfg.chol hL.dcm hL.zero hL.add h.kf h.instEpoch h1 h2 h3 real (obsOf m c types - b) (obsOf m c' types - b) R H
            (by rw [hc]; abel)) ?_
          rintro ⟨k, e, r, g⟩ ⟨k', e', r', g'⟩ ⟨a1, a2, a3, a4, a5, a6, a7, a8, a9, a10⟩
          simp only at a1 a2 a3 a4 a5 a6 a7 a8 a9 a10
          have u1 : applyUpdate (withVariant cfg .deviationTracking) st.inst st.traj e r.rejected = (resetStm st.inst, st.traj) := by
            unfold applyUpdate
            rw [if_neg]
            rintro ⟨hv, -⟩
            cases hv
          have u2 : applyUpdate (withVariant cfg .referenceUpdate) st'.inst st'.traj e' r'.rejected =
              (resetStm { st'.inst with state := cfg.plus e'.nominal e'.dev }, st'.traj.dropLast ++ [cfg.plus e'.nominal e'.dev]) := by
            unfold applyUpdate
            rw [if_pos ⟨rfl, a6⟩]
            rfl
          simp only [u1, u2]
          have hst : act e'.nominal.orbit e'.dev = act st.inst.state.orbit e.dev := by rw [a3.2.2.2.2, a9]
          refine .ok ⟨⟨rfl, h.step, ?_, ⟨1, rfl, rfl, ?_⟩, a1, snoc₂ h.sol ⟨a3, a4, rfl, rfl, a5, a6, a7, a8⟩⟩, ⟨s1, y, s2, s3, s4⟩, ⟨?_, ?_⟩⟩
          · show (cfg.plus e'.nominal e'.dev).epoch = st.inst.state.epoch
            rw [hL.plus_epoch, a10, h.instEpoch]
          · show (cfg.plus e'.nominal e'.dev).orbit = act st.inst.state.orbit (1 *ᵥ k.prev.dev)
            rw [hL.plus_orbit, hst, one_mulVec, a2]
          · show st.epoch = (cfg.plus e'.nominal e'.dev).epoch
            rw [hL.plus_epoch, a10, ← s1', h.epoch]
          · exact ⟨cfg.plus e'.nominal e'.dev, by simp, rfl, rfl⟩
  · exact .ok ⟨h, ⟨s1, y, s2, s3, s4⟩, ⟨s1', y', s2', s3', s4'⟩⟩

theorem windows_rel (hL : Linear cfg act) (hs : cfg.sigmaReject = none) {arc : PArc T K} (hf : arc.forceReject = false) (hm : arc.moduli = none)
    {z : Meas T K} {dev : Dev T K Ω s m} (hdev : cfg.devices z.tracker = some dev) : ∀ (ws : List (List K)), (∀ w ∈ ws, w ∈ windows m dev.types) → (∀ w ∈ ws, ∀ k ∈ w, (look z.data k).isSome) →
    ∀ {st st' : PSt T K F Ω s a m}, PRel act st st' → Seen st → Seen st' →
    Both (PRel act) (allWindows (withVariant cfg .deviationTracking) arc z dev ws st) (allWindows (withVariant cfg .referenceUpdate) arc z dev ws st') := by
  intro ws
  induction ws with
  | nil => intro _ _ st st' h _ _; exact .ok h
  | cons w ws ih =>
    intro hin hw st st' h hS hS'
    rw [allWindows, allWindows]
    refine Both.bind (window_rel hL hs hf hm hdev (hin w (by simp)) (hw w (by simp)) h hS hS') ?_
    rintro u v ⟨h1, h2, h3⟩
    exact ih (fun w' hw' => hin w' (by simp [hw'])) (fun w' hw' => hw w' (by simp [hw'])) h1 h2 h3

/-- Both results, of loops that may not end. -/
inductive BothO {α β : Type} (R : α → β → Prop) : Option (Res α) → Option (Res β) → Prop
  | none : BothO R none none
  | some {x y} : Both R x y → BothO R (some x) (some y)

theorem advance_rel (hL : Linear cfg act) (hs : cfg.sigmaReject = none) (hprec : cfg.precision ≤ 1) {arc : PArc T K} (hf : arc.forceReject = false)
    (hm : arc.moduli = none) {z : Meas T K} (hz : z.rejected = false → ∀ dev, cfg.devices z.tracker = some dev → ∀ k ∈ dev.types, (look z.data k).isSome) :
    ∀ (n : Nat) {st st' : PSt T K F Ω s a m}, PRel act st st' →
    BothO (PRel act) (advanceTo (withVariant cfg .deviationTracking) arc z n st) (advanceTo (withVariant cfg .referenceUpdate) arc z n st') := by
  intro n
  induction n with
  | zero => intro st st' _; exact .none
  | succ n ih =>
    intro st st' h
    obtain ⟨Φ, h1, h2, h3⟩ := h.stm
    have hstep : nextStep (withVariant cfg .referenceUpdate) z st' = nextStep (withVariant cfg .deviationTracking) z st := by
      unfold nextStep
      rw [h.epoch, h.step]
      rfl
    have hadv := hL.adv_move st.inst st'.inst (nextStep (withVariant cfg .deviationTracking) z st) Φ st.kf.prev.dev h1 h2 h.instEpoch h.step h3
    rw [advanceTo, advanceTo, hstep]
    show BothO _ (match cfg.adv st.inst _ with | .err => _ | .panic => _ | .ok (p, states) => _) (match cfg.adv st'.inst _ with | .err => _ | .panic => _ | .ok (p, states) => _)
    generalize hr : cfg.adv st.inst (nextStep (withVariant cfg .deviationTracking) z st) = r at hadv
    generalize hr' : cfg.adv st'.inst (nextStep (withVariant cfg .deviationTracking) z st) = r' at hadv
    have e1 : (withVariant cfg .deviationTracking).adv st.inst (nextStep (withVariant cfg .deviationTracking) z st) = r := hr
    have e2 : (withVariant cfg .referenceUpdate).adv st'.inst (nextStep (withVariant cfg .deviationTracking) z st) = r' := hr'
    simp only [e1, e2]
    cases hadv with
    | err => exact .some .err
    | panic => exact .some .panic
    | @ok x y hxy =>
      obtain ⟨p, l⟩ := x
      obtain ⟨p', l'⟩ := y
      obtain ⟨q1, q2, Φ', q3, q4, q5⟩ := hxy
      simp only at q1 q2 q3 q4 q5 ⊢
      obtain ⟨y, y1, y2, y3⟩ := hL.adv_last _ _ _ _ hr
      obtain ⟨y', y1', y2', y3'⟩ := hL.adv_last _ _ _ _ hr'
      have lastOf : ∀ (A l : List (Nominal Ω s)) (w : Nominal Ω s), l.getLast? = some w → (A ++ l).getLast? = some w := by
        intro A l w hl
        rw [List.getLast?_append, hl]
        rfl
      set s1 : PSt T K F Ω s a m := { st with inst := p, epoch := p.state.epoch, traj := truncate st.epoch st.traj ++ l } with hs1
      set s1' : PSt T K F Ω s a m := { st' with inst := p', epoch := p'.state.epoch, traj := truncate st'.epoch st'.traj ++ l' } with hs1'
      have hrel : PRel act s1 s1' := ⟨q1, q2, q1, ⟨Φ', q3, q4, q5⟩, h.kf, h.sol⟩
      have hSeen : Seen s1 := ⟨rfl, y, lastOf _ _ _ y1, y2, y3⟩
      have hSeen' : Seen s1' := ⟨rfl, y', lastOf _ _ _ y1', y2', y3'⟩
      rw [q1]
      by_cases hc : |p.state.epoch - z.epoch| < cfg.precision
      · rw [if_pos (show |p.state.epoch - z.epoch| < (withVariant cfg .deviationTracking).precision from hc),
          if_pos (show |p.state.epoch - z.epoch| < (withVariant cfg .referenceUpdate).precision from hc)]
        refine .some ?_
        have hpz : p.state.epoch = z.epoch := by
          have : |p.state.epoch - z.epoch| < 1 := lt_of_lt_of_le hc hprec
          have := Int.abs_lt_one_iff.1 this
          omega
        have c1 : setEpoch s1.inst z.epoch = s1.inst := by
          show setEpoch p z.epoch = p
          rw [setEpoch, ← hpz]
        have c2 : setEpoch s1'.inst z.epoch = s1'.inst := by
          show setEpoch p' z.epoch = p'
          rw [setEpoch, ← hpz, ← q1]
        unfold atMeasurement
        simp only [c1, c2]
        split
        · exact timeUp_rel hL hrel
        · rename_i hzr
          show Both _ (match cfg.devices z.tracker with | none => _ | some dev => _) (match cfg.devices z.tracker with | none => _ | some dev => _)
          cases hd : cfg.devices z.tracker with
          | none => exact .ok hrel
          | some dev =>
            refine windows_rel hL hs hf hm hd _ (fun _ h => h) ?_ hrel hSeen hSeen'
            intro w hw k hk
            refine hz (by simpa using hzr) dev hd k ?_
            obtain ⟨i, _, rfl⟩ := List.mem_map.1 ((List.takeWhile_sublist _).subset hw)
            exact List.mem_of_mem_drop (List.mem_of_mem_take hk)
      · rw [if_neg (show ¬ |p.state.epoch - z.epoch| < (withVariant cfg .deviationTracking).precision from hc),
          if_neg (show ¬ |p.state.epoch - z.epoch| < (withVariant cfg .referenceUpdate).precision from hc)]
        have ht := timeUp_rel hL hrel
        generalize hu : timeUp (withVariant cfg .deviationTracking) s1.inst.state s1 = u at ht
        generalize hu' : timeUp (withVariant cfg .referenceUpdate) s1'.inst.state s1' = u' at ht
        have f1 : timeUp (withVariant cfg .deviationTracking) p.state s1 = u := hu
        have f2 : timeUp (withVariant cfg .referenceUpdate) p'.state s1' = u' := hu'
        cases ht with
        | err => exact .some .err
        | panic => exact .some .panic
        | ok ht => exact ih ht

theorem all_rel (hL : Linear cfg act) (hs : cfg.sigmaReject = none) (hprec : cfg.precision ≤ 1) {arc : PArc T K} (hf : arc.forceReject = false)
    (hm : arc.moduli = none) (fuel : Nat) : ∀ (zs : List (Meas T K)), (∀ z ∈ zs, z.rejected = false → ∀ dev, cfg.devices z.tracker = some dev →
      ∀ k ∈ dev.types, (look z.data k).isSome) → ∀ {st st' : PSt T K F Ω s a m}, PRel act st st' →
    BothO (PRel act) (processAll (withVariant cfg .deviationTracking) arc fuel zs st) (processAll (withVariant cfg .referenceUpdate) arc fuel zs st') := by
  intro zs
  induction zs with
  | nil => intro _ st st' h; exact .some (.ok h)
  | cons z zs ih =>
    intro hz st st' h
    have ha := advance_rel hL hs hprec hf hm (hz z (by simp)) fuel h
    rw [processAll, processAll]
    generalize advanceTo (withVariant cfg .deviationTracking) arc z fuel st = u at ha
    generalize advanceTo (withVariant cfg .referenceUpdate) arc z fuel st' = u' at ha
    cases ha with
    | none => exact .none
    | some hb =>
      cases hb with
      | err => exact .some .err
      | panic => exact .some .panic
      | ok hb => exact ih (fun z' hz' => hz z' (by simp [hz'])) hb

end

/-! ### C249 -/

/-- **C249 (partial).** On a linear problem whose measurements are reached exactly, without a rejection threshold and without a modulus, with all
the types of the trackers measured and an initial estimate without deviation, deviation tracking and reference updates fail or panic together,
and otherwise their solutions have the same entries: the same epochs, covariances, gains and estimated states. -/
theorem variants_agree_partial (cfg : Cfg T K F Ω s a m) (act : Ω → (Fin s → ℝ) → Ω) (hL : Linear cfg act) (hs : cfg.sigmaReject = none)
    (hprec : cfg.precision ≤ 1) (arc : PArc T K) (hf : arc.forceReject = false) (hm : arc.moduli = none)
    (hz : ∀ z ∈ arc.measurements, z.rejected = false → ∀ dev, cfg.devices z.tracker = some dev → ∀ k ∈ dev.types, (look z.data k).isSome)
    (fuel : Nat) (e0 : Est Ω s) (h0 : e0.dev = 0) :
    BothO (List.Forall₂ (SameEntry act)) (processArc (withVariant cfg .deviationTracking) fuel e0 arc)
      (processArc (withVariant cfg .referenceUpdate) fuel e0 arc) := by
  unfold processArc
  by_cases hc : arc.measurements.length < 2 ∨ cfg.maxStep ≤ 0
  · rw [if_pos (show _ ∨ (withVariant cfg .deviationTracking).maxStep ≤ 0 from hc), if_pos (show _ ∨ (withVariant cfg .referenceUpdate).maxStep ≤ 0 from hc)]
    exact .some .err
  · rw [if_neg (show ¬(_ ∨ (withVariant cfg .deviationTracking).maxStep ≤ 0) from hc), if_neg (show ¬(_ ∨ (withVariant cfg .referenceUpdate).maxStep ≤ 0) from hc)]
    have ha := all_rel hL hs hprec hf hm fuel arc.measurements hz (st := start (withVariant cfg .deviationTracking) e0)
      (st' := start (withVariant cfg .referenceUpdate) e0)
      ⟨rfl, rfl, rfl, ⟨1, rfl, rfl, by
        show e0.nominal.orbit = act e0.nominal.orbit (1 *ᵥ e0.dev)
        rw [h0, mulVec_zero, hL.zero]⟩, ⟨rfl, rfl, rfl, rfl, rfl, rfl⟩, .nil⟩
    generalize processAll (withVariant cfg .deviationTracking) arc fuel arc.measurements (start (withVariant cfg .deviationTracking) e0) = u at ha
    generalize processAll (withVariant cfg .referenceUpdate) arc fuel arc.measurements (start (withVariant cfg .referenceUpdate) e0) = u' at ha
    cases ha with
    | none => exact .none
    | some hb =>
      cases hb with
      | err => exact .some .err
      | panic => exact .some .panic
      | ok hb => exact .some (.ok hb.sol)

/-! ### A scalar state at rest -/

/-- The scalar state at rest of `exNav`, with epochs reached exactly and a threshold. -/
noncomputable def exVar (t : Option ℝ) : Cfg Nat Nat Unit ℝ 1 3 1 := { exNav with precision := 1, sigmaReject := t }

theorem exVar_linear (t : Option ℝ) : Linear (exVar t) fun o d => o + d 0 where
  zero o := by simp
  add o d d' := by simp [add_assoc]
  plus_orbit x d := rfl
  plus_epoch x d := rfl
  adv_last p t p' l h := by
    simp only [exVar, exNav, Res.ok.injEq, Prod.mk.injEq] at h
    obtain ⟨rfl, rfl⟩ := h
    exact ⟨_, rfl, rfl, rfl⟩
  adv_move p q t Φ d h1 h2 h3 h4 h5 := by
    refine .ok ⟨?_, h4, Φ, h1, h2, h5⟩
    show q.state.epoch + t = p.state.epoch + t
    rw [h3]
  hTilde tr dev z types x y h _ := by
    simp only [exVar, exNav] at h
    split at h
    · cases h; rfl
    · cases h
  measure tr dev z types x H t l l' y y' d h hwin hty hH _ hl hl' _ _ ho := by
    simp only [exVar, exNav] at h
    split at h
    · cases h
      cases hH
      refine .ok (Or.inr ⟨_, _, by rw [hl]; rfl, by rw [hl']; rfl, ?_⟩)
      rw [one_mulVec]
      have hw : types = [0] ∨ types = [1] := by
        have : windows 1 exNavDev.types = [[0], [1]] := by decide
        rw [this] at hwin
        simpa using hwin
      funext i
      rw [Subsingleton.elim i 0]
      rcases hw with rfl | rfl <;> exact ho
    · cases h
  dcm f o o' := rfl

/-- One update of the scalar state. -/
theorem scalar_any (kf : KF Unit ℝ 1 3) (p d : ℝ) (hp : 0 < p) (hn : kf.noises = []) (hc : kf.prev.covar = diagonal fun _ => p)
    (hd : kf.prev.dev = fun _ => d) (x : Nominal ℝ 1) (hx : x.stm = some 1) (y c : Fin 1 → ℝ) (t : Option ℝ) :
    ∃ kf' e r g, kf.measurementUpdate someChol (fun _ _ => none) x ⟨y, c, 1, 1⟩ t = .ok (kf', e, r, g) ∧
      kf'.prev = e ∧ kf'.noises = [] ∧ e.nominal = x ∧ 0 ≤ r.ratio ∧ r.ratio ^ 2 = (y 0 - c 0) ^ 2 / (p + 1) ∧
      (r.rejected = true ↔ ∃ n, t = some n ∧ n < r.ratio) ∧
      (r.rejected = true → kf.variant = .deviationTracking → e.dev = fun _ => d) ∧
      (r.rejected = false → (e.covar = diagonal fun _ => p / (p + 1)) ∧
        (kf.variant = .referenceUpdate → e.dev = fun _ => p / (p + 1) * (y 0 - c 0)) ∧
        (kf.variant = .deviationTracking → e.dev = fun _ => d + p / (p + 1) * (y 0 - c 0 - d))) := by
  obtain ⟨prev, noises, variant, used⟩ := kf
  simp only at hn hc hd
  subst hn
  have hS : ((1 : Matrix (Fin 1) (Fin 1) ℝ) * ((diagonal fun _ => p) * (1 : Matrix (Fin 1) (Fin 1) ℝ)ᵀ) + 1) =
      diagonal fun _ => p + 1 := by
    ext i j
    fin_cases i; fin_cases j
    simp
  have hpd : (diagonal fun _ : Fin 1 => p + 1).PosDef := posDef_diagonal_iff.2 fun _ => by linarith
  obtain ⟨L, hL⟩ := someChol_spec.1 1 _ hpd
  have hLL := (someChol_spec.2 1 _ L (isSymm_diagonal _) hL).2.1
  have hinv : (diagonal fun _ : Fin 1 => p + 1)⁻¹ = diagonal fun _ => (p + 1)⁻¹ := by
    rw [inv_eq_right_inv]
    rw [diagonal_mul_diagonal, ← diagonal_one]
    congr 1
    funext _
    exact mul_inv_cancel₀ (by linarith)
  have hpr : (⟨prev, [], variant, used⟩ : KF Unit ℝ 1 3).predict (fun _ _ => none) x 1 =
      .ok (diagonal fun _ => p, used) := by
    simp [KF.predict, sncLoop, Res.bind, hc]
  have hg : gainOf someChol (diagonal fun _ => p) (1 : Matrix (Fin 1) (Fin 1) ℝ)
      (diagonal fun _ => p + 1) = .ok (diagonal fun _ => p / (p + 1)) := by
    simp only [gainOf, hL, hLL, hinv]
    congr 1
    ext i j
    fin_cases i; fin_cases j
    simp [Matrix.mul_apply, div_eq_mul_inv, mul_comm]
  have hpr2 : ∀ u, (⟨prev, [], variant, u⟩ : KF Unit ℝ 1 3).predict (fun _ _ => none) x 1 =
      .ok (diagonal fun _ => p, u) := fun u => by
    simp [KF.predict, sncLoop, Res.bind, hc]
  obtain ⟨⟨kf', e, r, g⟩, hu⟩ : ∃ o, (⟨prev, [], variant, used⟩ : KF Unit ℝ 1 3).measurementUpdate someChol
      (fun _ _ => none) x ⟨y, c, 1, 1⟩ t = .ok o := by
    simp only [KF.measurementUpdate, hx, hpr, Res.bind_ok, hS, factorOf, hL, hg]
    split
    · simp only [KF.timeUpdate, hx, hpr2, Res.bind_ok]
      exact ⟨_, rfl⟩
    · exact ⟨_, rfl⟩
  refine ⟨kf', e, r, g, hu, (msrUpdate_nominal hu).2, (msrUpdate_cov rfl hu).2.2.1, (msrUpdate_nominal hu).1, ?_⟩
  obtain ⟨stm, pu, L', h1, h2, hL', _, _, _, _, hw, hra, hrej, hcase⟩ := measurementUpdate_ok hu
  rw [hx] at h1
  cases h1
  rw [hpr] at h2
  cases h2
  simp only [hS] at hL'
  have hLe : L' = L := by
    rcases hL' with h | ⟨h, _⟩
    · rw [hL] at h; exact (Option.some.inj h).symm
    · rw [hL] at h; cases h
  subst hLe
  refine ⟨?_, ?_, hrej, ?_, ?_⟩
  · rw [hra]; exact Real.sqrt_nonneg _
  · have h3 := ratioOf_sq r.whitened one_pos
    rw [← hra, hw, whitened_dot hLL, hinv] at h3
    simp only [Nat.cast_one, mul_one] at h3
    rw [h3]
    simp [dotProduct, mulVec_diagonal]
    ring
  · intro hr hv
    simp only at hv
    subst hv
    rcases hcase with ⟨_, _, _, ht⟩ | ⟨hr', _⟩
    · rw [(timeUpdate_cov rfl ht).2.2.1 rfl]
      obtain ⟨stm, pu, h1, _, _, h4⟩ := timeUpdate_ok ht
      rw [hx] at h1
      cases h1
      rw [h4]
      show (1 : Matrix (Fin 1) (Fin 1) ℝ) *ᵥ prev.dev = _
      rw [one_mulVec, hd]
    · rw [hr] at hr'; cases hr'
  · intro hr
    rcases hcase with ⟨hr', _⟩ | ⟨_, K, _, hK, he, _, hk⟩
    · rw [hr] at hr'; cases hr'
    simp only [hS] at hK
    rw [hg] at hK
    cases hK
    subst he
    refine ⟨?_, ?_, ?_⟩
    · ext i j
      fin_cases i; fin_cases j
      simp [joseph, Matrix.mul_apply]
      field_simp
      ring
    · rintro rfl
      funext i
      fin_cases i
      simp [devPost, Matrix.mulVec, dotProduct]
    · rintro rfl
      funext i
      fin_cases i
      simp [devPost, Matrix.mulVec, dotProduct, hd]

/-- One window of the measurement. -/
theorem exVar_window (t : Option ℝ) (v : Variant) (ty : Nat) (hty : ty = 0 ∨ ty = 1) (kf : KF Unit ℝ 1 3) (p d : ℝ) (hp : 0 < p)
    (hn : kf.noises = []) (hc : kf.prev.covar = diagonal fun _ => p) (hd : kf.prev.dev = fun _ => d) (o : ℝ)
    (sol : List (Entry Nat Nat ℝ 1 1)) :
    ∃ kf' e r g, oneWindow (withVariant (exVar t) v) exNavArc ⟨1, 5, [(0, some 2), (1, some 2)], false⟩ exNavDev [ty]
        ⟨⟨⟨o, 5, some 1⟩, 10⟩, 5, kf, [⟨o, 5, some 1⟩], sol⟩ =
      .ok ⟨(applyUpdate (withVariant (exVar t) v) ⟨⟨o, 5, some 1⟩, 10⟩ [⟨o, 5, some 1⟩] e r.rejected).1, 5, kf',
        (applyUpdate (withVariant (exVar t) v) ⟨⟨o, 5, some 1⟩, 10⟩ [⟨o, 5, some 1⟩] e r.rejected).2, sol ++ [.msr e r g 1 [ty]]⟩ ∧
      kf'.prev = e ∧ kf'.noises = [] ∧ kf'.variant = kf.variant ∧ e.nominal = ⟨o, 5, some 1⟩ ∧ 0 ≤ r.ratio ∧ r.ratio ^ 2 = (2 - o) ^ 2 / (p + 1) ∧
      (r.rejected = true ↔ ∃ n, t = some n ∧ n < r.ratio) ∧
      (r.rejected = true → kf.variant = .deviationTracking → e.dev = fun _ => d) ∧
      (r.rejected = false → (e.covar = diagonal fun _ => p / (p + 1)) ∧
        (kf.variant = .referenceUpdate → e.dev = fun _ => p / (p + 1) * (2 - o)) ∧
        (kf.variant = .deviationTracking → e.dev = fun _ => d + p / (p + 1) * (2 - o - d))) := by
  obtain ⟨kf', e, r, g, hu, hrest⟩ := scalar_any kf p d hp hn hc hd ⟨o, 5, some 1⟩ rfl (fun _ => 2) (fun _ => o) t
  refine ⟨kf', e, r, g, ?_, hrest.1, hrest.2.1, (msrUpdate_cov hn hu).2.2.2.1, hrest.2.2⟩
  have h0 : observation 1 [(0, some (2 : ℝ)), (1, some 2)] [ty] = some fun _ => 2 := by
    unfold observation
    rcases hty with rfl | rfl <;>
    · rw [if_pos (by rfl)]
      congr 1
      funext i
      fin_cases i
      rfl
  have h1 : obsOf 1 [(0, o), (1, o)] [ty] - 0 = fun _ => o := by
    rw [sub_zero]
    funext i
    fin_cases i
    rcases hty with rfl | rfl <;> rfl
  have ha : (⟨1, 5, [(0, some 2), (1, some 2)], false⟩ : Meas Nat Nat).anyAvailable [ty] = true := by
    rcases hty with rfl | rfl <;> rfl
  unfold oneWindow
  rw [if_pos ha]
  have h2 : exNavDev.measure 5 [⟨o, 5, some 1⟩] = .ok (some [(0, o), (1, o)]) := rfl
  have h3 : exNavDev.hTilde ⟨1, 5, [(0, some 2), (1, some 2)], false⟩ [ty] ⟨o, 5, some 1⟩ = .ok 1 := rfl
  have h4 : exNavDev.covar [ty] 5 = .ok 1 := rfl
  have h5 : exNavDev.bias [ty] 5 = .ok 0 := rfl
  have h6 : threshold (withVariant (exVar t) v) exNavArc = t := rfl
  have h7 : resolve exNavArc.moduli [ty] (fun _ => o) (fun _ : Fin 1 => (2 : ℝ)) = fun _ => 2 := rfl
  have h8 : kf.measurementUpdate (withVariant (exVar t) v).chol (withVariant (exVar t) v).dcm ⟨o, 5, some 1⟩ ⟨fun _ => 2, fun _ => o, 1, 1⟩ t =
    .ok (kf', e, r, g) := hu
  simp only [h0, h2, h3, h4, h5, h6, h1, h7, h8, Res.bind_ok]

theorem two_windows {cfg : Cfg Nat Nat Unit ℝ 1 3 1} {arc : PArc Nat Nat} {z : Meas Nat Nat} {dev : Dev Nat Nat ℝ 1 1} {w w' : List Nat}
    {st st₁ st₂ : PSt Nat Nat Unit ℝ 1 3 1} (h : oneWindow cfg arc z dev w st = .ok st₁) (h' : oneWindow cfg arc z dev w' st₁ = .ok st₂) :
    allWindows cfg arc z dev [w, w'] st = .ok st₂ := by
  rw [allWindows, h, Res.bind_ok, allWindows, h', Res.bind_ok, allWindows]

/-- The run of the example from its two windows. -/
theorem exVar_run (t : Option ℝ) (v : Variant) {st : PSt Nat Nat Unit ℝ 1 3 1}
    (h : allWindows (withVariant (exVar t) v) exNavArc ⟨1, 5, [(0, some 2), (1, some 2)], false⟩ exNavDev [[0], [1]]
        ⟨⟨⟨0, 5, some 1⟩, 10⟩, 5, ⟨exNavEst, [], v, 0⟩, [⟨0, 5, some 1⟩], []⟩ = .ok st)
    (hst : st.inst.state.epoch = 5 ∧ st.epoch = 5 ∧ st.inst.step = 10) :
    processArc (withVariant (exVar t) v) 5 exNavEst exNavArc = some (.ok st.sol) := by
  obtain ⟨⟨⟨o, ep, stm⟩, step⟩, t', kf, traj, sol⟩ := st
  obtain ⟨rfl, rfl, rfl⟩ := hst
  have h2 : advanceTo (withVariant (exVar t) v) exNavArc ⟨1, 5, [(0, some 2), (1, some 2)], false⟩ 5 (start (withVariant (exVar t) v) exNavEst) =
      some (allWindows (withVariant (exVar t) v) exNavArc ⟨1, 5, [(0, some 2), (1, some 2)], false⟩ exNavDev [[0], [1]]
        ⟨⟨⟨0, 5, some 1⟩, 10⟩, 5, ⟨exNavEst, [], v, 0⟩, [⟨0, 5, some 1⟩], []⟩) := rfl
  rw [h] at h2
  unfold processArc
  rw [if_neg (by simp [exNavArc, exVar, exNav, withVariant]), show exNavArc.measurements =
    [⟨1, 5, [(0, some 2), (1, some 2)], false⟩, ⟨7, 9, [], false⟩] from rfl, processAll, h2]
  rfl

/-- **C249 (refuted).** The state at rest is measured twice with the value 2 and a threshold of 3/2 sigmas. The innovation of the second measurement
is the same for both variants, and acceptable. The reference update accepts it and ends with the estimate 4/3. Deviation tracking compares with the
threshold the distance to its nominal state, without the deviation already estimated, rejects the measurement and stays at 1. -/
theorem variants_threshold_false : ∃ e₁ r₁ g₁ e₂ r₂ g₂ e₁' r₁' g₁' e₂' r₂' g₂',
    processArc (withVariant (exVar (some (3 / 2))) .deviationTracking) 5 exNavEst exNavArc = some (.ok [.msr e₁ r₁ g₁ 1 [0], .msr e₂ r₂ g₂ 1 [1]]) ∧
    processArc (withVariant (exVar (some (3 / 2))) .referenceUpdate) 5 exNavEst exNavArc = some (.ok [.msr e₁' r₁' g₁' 1 [0], .msr e₂' r₂' g₂' 1 [1]]) ∧
    estState exNav.plus e₁ = ⟨5, 1⟩ ∧ estState exNav.plus e₁' = ⟨5, 1⟩ ∧ r₁.rejected = false ∧ r₁'.rejected = false ∧
    r₂.rejected = true ∧ r₂'.rejected = false ∧ estState exNav.plus e₂ = ⟨5, 1⟩ ∧ estState exNav.plus e₂' = ⟨5, 4 / 3⟩ := by
  have small : ∀ {x q : ℝ}, 0 ≤ x → x ^ 2 = q → q < 9 / 4 → ¬ ∃ n, some (3 / 2 : ℝ) = some n ∧ n < x := by
    rintro x q hx hq hlt ⟨n, hn, hnx⟩
    cases hn
    nlinarith
  obtain ⟨k₁, e₁, r₁, g₁, w₁, a1, a2, a3, a4, a5, a6, a7, a8, a9⟩ := exVar_window (some (3 / 2)) .deviationTracking 0 (Or.inl rfl)
    ⟨exNavEst, [], .deviationTracking, 0⟩ 1 0 one_pos rfl rfl rfl 0 []
  obtain ⟨k₁', e₁', r₁', g₁', w₁', b1, b2, b3, b4, b5, b6, b7, b8, b9⟩ := exVar_window (some (3 / 2)) .referenceUpdate 0 (Or.inl rfl)
    ⟨exNavEst, [], .referenceUpdate, 0⟩ 1 0 one_pos rfl rfl rfl 0 []
  have ra : r₁.rejected = false := by
    rw [← Bool.not_eq_true, a7]
    exact small a5 a6 (by norm_num)
  have rb : r₁'.rejected = false := by
    rw [← Bool.not_eq_true, b7]
    exact small b5 b6 (by norm_num)
  obtain ⟨c1, -, c3⟩ := a9 ra
  obtain ⟨d1, d2, -⟩ := b9 rb
  have c3' := c3 rfl
  have d2' := d2 rfl
  have ua : applyUpdate (withVariant (exVar (some (3 / 2))) .deviationTracking) ⟨⟨0, 5, some 1⟩, 10⟩ [⟨0, 5, some 1⟩] e₁ r₁.rejected =
      (⟨⟨0, 5, some 1⟩, 10⟩, [⟨0, 5, some 1⟩]) := by
    simp [applyUpdate, withVariant, resetStm]
  have ub : applyUpdate (withVariant (exVar (some (3 / 2))) .referenceUpdate) ⟨⟨0, 5, some 1⟩, 10⟩ [⟨0, 5, some 1⟩] e₁' r₁'.rejected =
      (⟨⟨1, 5, some 1⟩, 10⟩, [⟨1, 5, some 1⟩]) := by
    rw [rb]
    simp [applyUpdate, withVariant, exVar, exNav, b4, d2', resetStm]
    norm_num
  rw [ua] at w₁
  rw [ub] at w₁'
  obtain ⟨k₂, e₂, r₂, g₂, w₂, A1, A2, A3, A4, A5, A6, A7, A8, A9⟩ := exVar_window (some (3 / 2)) .deviationTracking 1 (Or.inr rfl)
    k₁ (1 / (1 + 1)) 1 (by norm_num) a2 (by rw [a1, c1]) (by rw [a1, c3']; norm_num) 0 [.msr e₁ r₁ g₁ 1 [0]]
  obtain ⟨k₂', e₂', r₂', g₂', w₂', B1, B2, B3, B4, B5, B6, B7, B8, B9⟩ := exVar_window (some (3 / 2)) .referenceUpdate 1 (Or.inr rfl)
    k₁' (1 / (1 + 1)) 1 (by norm_num) b2 (by rw [b1, d1]) (by rw [b1, d2']; norm_num) 1 [.msr e₁' r₁' g₁' 1 [0]]
  have rA : r₂.rejected = true := by
    rw [A7]
    refine ⟨3 / 2, rfl, ?_⟩
    norm_num at A6
    nlinarith
  have rB : r₂'.rejected = false := by
    rw [← Bool.not_eq_true, B7]
    exact small B5 B6 (by norm_num)
  have eA := A8 rA (by rw [a3])
  have eB := (B9 rB).2.1 (by rw [b3])
  have all := two_windows w₁ w₂
  have all' := two_windows w₁' w₂'
  refine ⟨e₁, r₁, g₁, e₂, r₂, g₂, e₁', r₁', g₁', e₂', r₂', g₂', exVar_run _ _ all ?_, exVar_run _ _ all' ?_, ?_, ?_, ra, rb, rA, rB, ?_, ?_⟩
  · simp [applyUpdate, withVariant, resetStm]
  · rw [rB]
    simp [applyUpdate, withVariant, exVar, exNav, B4, resetStm]
  · simp [estState, exNav, a4, c3']
    norm_num
  · simp [estState, exNav, b4, d2']
    norm_num
  · simp [estState, exNav, A4, eA]
  · simp [estState, exNav, B4, eB]
    norm_num

/-- The state at rest without a threshold meets the hypotheses, and both runs succeed, with two measurements. -/
example : ∃ e₁ r₁ g₁ e₂ r₂ g₂, processArc (withVariant (exVar none) .referenceUpdate) 5 exNavEst exNavArc =
      some (.ok [.msr e₁ r₁ g₁ 1 [0], .msr e₂ r₂ g₂ 1 [1]]) ∧
    ∃ sol, processArc (withVariant (exVar none) .deviationTracking) 5 exNavEst exNavArc = some (.ok sol) ∧
      List.Forall₂ (SameEntry fun o d => o + d 0) sol [.msr e₁ r₁ g₁ 1 [0], .msr e₂ r₂ g₂ 1 [1]] := by
  obtain ⟨k₁', e₁', r₁', g₁', w₁', b1, b2, b3, b4, b5, b6, b7, b8, b9⟩ := exVar_window none .referenceUpdate 0 (Or.inl rfl)
    ⟨exNavEst, [], .referenceUpdate, 0⟩ 1 0 one_pos rfl rfl rfl 0 []
  have rb : r₁'.rejected = false := by
    rw [← Bool.not_eq_true, b7]
    simp
  obtain ⟨d1, d2, -⟩ := b9 rb
  have d2' := d2 rfl
  have ub : applyUpdate (withVariant (exVar none) .referenceUpdate) ⟨⟨0, 5, some 1⟩, 10⟩ [⟨0, 5, some 1⟩] e₁' r₁'.rejected =
      (⟨⟨1, 5, some 1⟩, 10⟩, [⟨1, 5, some 1⟩]) := by
    rw [rb]
    simp [applyUpdate, withVariant, exVar, exNav, b4, d2', resetStm]
    norm_num
  rw [ub] at w₁'
  obtain ⟨k₂', e₂', r₂', g₂', w₂', B1, B2, B3, B4, B5, B6, B7, B8, B9⟩ := exVar_window none .referenceUpdate 1 (Or.inr rfl)
    k₁' (1 / (1 + 1)) 1 (by norm_num) b2 (by rw [b1, d1]) (by rw [b1, d2']; norm_num) 1 [.msr e₁' r₁' g₁' 1 [0]]
  have rB : r₂'.rejected = false := by
    rw [← Bool.not_eq_true, B7]
    simp
  have all' := two_windows w₁' w₂'
  have hrun := exVar_run _ _ all' (by
    rw [rB]
    simp [applyUpdate, withVariant, exVar, exNav, B4, resetStm])
  refine ⟨e₁', r₁', g₁', e₂', r₂', g₂', hrun, ?_⟩
  have h := variants_agree_partial (exVar none) _ (exVar_linear none) rfl (le_refl _) exNavArc rfl rfl (by
    intro z hz _ dev hdev k hk
    simp only [exNavArc, List.mem_cons, List.not_mem_nil, or_false] at hz
    rcases hz with rfl | rfl
    · simp only [exVar, exNav, if_true, Option.some.injEq] at hdev
      subst hdev
      simp only [exNavDev, List.mem_cons, List.not_mem_nil, or_false] at hk
      rcases hk with rfl | rfl <;> rfl
    · simp [exVar, exNav] at hdev) 5 exNavEst rfl
  rw [hrun] at h
  generalize processArc (withVariant (exVar none) .deviationTracking) 5 exNavEst exNavArc = u at h
  cases h with
  | some h => cases h with
    | ok h => exact ⟨_, rfl, h⟩

/-- **C249 (refuted).** The deviation of an initial estimate is only used by deviation tracking: a time update from the estimate with nominal state
0 and deviation 1 gives 1 with deviation tracking, and 0 with reference updates. -/
theorem variants_deviation_false : ∃ e e', processArc (withVariant (exVar none) .deviationTracking) 5 { exNavEst with dev := fun _ => 1 }
      (exCutArc [⟨7, 20, [], false⟩, ⟨7, 20, [], false⟩]) = some (.ok [.time e]) ∧
    processArc (withVariant (exVar none) .referenceUpdate) 5 { exNavEst with dev := fun _ => 1 }
      (exCutArc [⟨7, 20, [], false⟩, ⟨7, 20, [], false⟩]) = some (.ok [.time e']) ∧
    estState exNav.plus e = ⟨10, 1⟩ ∧ estState exNav.plus e' = ⟨10, 0⟩ := by
  refine ⟨_, _, rfl, rfl, ?_, ?_⟩
  · refine congrArg (Verif.Traj.TS.mk 10) ?_
    show (0 : ℝ) + ((1 : Matrix (Fin 1) (Fin 1) ℝ) *ᵥ fun _ => 1) 0 = 1
    simp
  · refine congrArg (Verif.Traj.TS.mk 10) ?_
    show (0 : ℝ) + (0 : Fin 1 → ℝ) 0 = 0
    simp

end Verif.Variants
