import Verif.Process.ToTraj
/-!
C240: a filter started on the truth and given exact data stays on the truth.
-/
namespace Verif.Process
open Verif.Kalman Matrix

variable {T K F Ω : Type} [DecidableEq K] {s a m : Nat}

/-! ### Specification -/

/-- A state on the true orbit `x`, a function of the epoch. -/
def True' (x : Int → Ω) (y : Nominal Ω s) : Prop := y.orbit = x y.epoch

/-- The propagator integrates the true dynamics: from a true state it arrives at a true state after exactly the duration
asked for, through true states, the last of which is where it arrives. Its next step is a multiple of `g` if the one
before was: it is the same for the integrators of fixed step. -/
structure Follows (adv : PInst Ω s → Int → Res (PInst Ω s × List (Nominal Ω s))) (x : Int → Ω) (g : Int) : Prop where
  epoch : ∀ p d p' l, adv p d = .ok (p', l) → p'.state.epoch = p.state.epoch + d
  states : ∀ p d p' l, True' x p.state → adv p d = .ok (p', l) → True' x p'.state ∧ (∀ y ∈ l, True' x y) ∧
    ∃ y, l.getLast? = some y ∧ y.epoch = p'.state.epoch
  step : ∀ p d p' l, adv p d = .ok (p', l) → g ∣ p.step → g ∣ p'.step

/-- The value `v` measured is exactly `c`, or the remainder of `c` if the type has a modulus. -/
def ExactValue (moduli : Option (List (K × ℝ))) (t : K) (v c : ℝ) : Prop :=
  match moduli.bind fun ms => look ms t with
  | none => v = c
  | some md => 0 ≤ v ∧ v < md ∧ ∃ k : Int, v + k * md = c

/-- The data of the arc are exact: each measurement has all the types of its tracker, with the values which the tracker computes
from the true orbit, that is from any true states up to the epoch of the measurement. The trackers have no constant bias. -/
def ExactData (cfg : Cfg T K F Ω s a m) (arc : PArc T K) (x : Int → Ω) : Prop :=
  ∀ z ∈ arc.measurements, z.rejected = false → ∀ dev, cfg.devices z.tracker = some dev →
    (∀ types b, dev.bias types z.epoch = .ok b → b = 0) ∧
    ∀ traj comp, (∀ y ∈ traj, True' x y) → (∃ y, traj.getLast? = some y ∧ y.epoch = z.epoch) →
      dev.measure z.epoch traj = .ok (some comp) →
      ∀ t ∈ dev.types, ∃ v c, look z.data t = some (some v) ∧ look comp t = some c ∧ ExactValue arc.moduli t v c

/-- An entry of the solution on the truth: true state, no deviation; a measurement is accepted without residual. -/
def Entry.Exact (x : Int → Ω) : Entry T K Ω s m → Prop
  | .time e => True' x e.nominal ∧ e.dev = 0
  | .msr e r _ _ _ => True' x e.nominal ∧ e.dev = 0 ∧ r.rejected = false ∧ r.prefit = 0 ∧ r.postfit = some 0 ∧ r.ratio = 0

/-! ### Proof -/

theorem msr_exact {kf kf' : KF F Ω s a} {chol : Chol} {dcm : F → Ω → Option (Matrix (Fin 3) (Fin 3) ℝ)} {x : Nominal Ω s}
    {z : MsrIn s m} {t : Option ℝ} {e : Est Ω s} {r : Resid m} {g : Option (Matrix (Fin s) (Fin m) ℝ)}
    (hz : z.real = z.computed) (hd : kf.prev.dev = 0) (ht : ∀ n, t = some n → 0 ≤ n)
    (h : kf.measurementUpdate chol dcm x z t = .ok (kf', e, r, g)) :
    e.nominal = x ∧ e.dev = 0 ∧ kf'.prev.dev = 0 ∧ r.rejected = false ∧ r.prefit = 0 ∧ r.postfit = some 0 ∧ r.ratio = 0 := by
  obtain ⟨stm, pu, L, _, _, _, _, hp, _, _, hw, hr, hrej, hc⟩ := measurementUpdate_ok h
  have h0 : z.real - z.computed = 0 := by rw [hz, sub_self]
  have hratio : r.ratio = 0 := by
    rw [hr, hw, h0]; simp [ratioOf]
  rw [h0] at hp hc
  rcases hc with ⟨hx, _⟩ | ⟨hx, K', _, _, he, hpost, hk⟩
  · obtain ⟨n, hn, hlt⟩ := hrej.1 hx
    have := ht n hn
    rw [hratio] at hlt
    linarith
  · have hdp : devPost kf.variant stm kf.prev.dev K' z.H 0 = (0, 0) := by
      rw [hd]
      cases kf.variant <;> simp [devPost]
    rw [hdp] at he hpost
    subst he
    refine ⟨rfl, rfl, ?_, hx, hp, hpost, hratio⟩
    rw [hk]; rfl

theorem time_exact {kf kf' : KF F Ω s a} {dcm : F → Ω → Option (Matrix (Fin 3) (Fin 3) ℝ)} {x : Nominal Ω s} {e : Est Ω s}
    (hd : kf.prev.dev = 0) (h : kf.timeUpdate dcm x = .ok (kf', e)) : e.nominal = x ∧ e.dev = 0 ∧ kf'.prev.dev = 0 := by
  obtain ⟨stm, pu, _, _, hk, he⟩ := timeUpdate_ok h
  have : e.dev = 0 := by rw [he]; simp [hd]
  exact ⟨by rw [he], this, by rw [hk]; exact this⟩

/-- The row of a resolved exact observation is the computed one. -/
theorem resolve_exact (moduli : Option (List (K × ℝ))) (types : List K) (computed real : Fin m → ℝ)
    (h0 : ∀ i : Fin m, types[i.val]? = none → real i = computed i)
    (h : ∀ (i : Fin m) t, types[i.val]? = some t → ExactValue moduli t (real i) (computed i)) :
    resolve moduli types computed real = computed := by
  funext i
  cases ht : types[i.val]? with
  | none => cases moduli <;> simp [resolve, ht, h0 i ht]
  | some t =>
    have hv := h i t ht
    cases moduli with
    | none => simpa [resolve, ExactValue] using hv
    | some ms =>
      cases hl : look ms t with
      | none =>
        have : real i = computed i := by simpa [ExactValue, hl] using hv
        simp [resolve, ht, hl, this]
      | some md =>
        obtain ⟨hv0, hv1, k, hk⟩ : 0 ≤ real i ∧ real i < md ∧ ∃ k : Int, real i + k * md = computed i := by
          simpa [ExactValue, hl] using hv
        have hmd : 0 < md := lt_of_le_of_lt hv0 hv1
        have hfl : ⌊computed i / md⌋ = k := by
          rw [Int.floor_eq_iff, le_div_iff₀ hmd, div_lt_iff₀ hmd]
          constructor <;> nlinarith
        simp only [resolve, ht, hl, divEuclid, if_pos hmd, hfl, hk]

/-- What the loop preserves. -/
structure OnTruth (x : Int → Ω) (g t0 : Int) (st : PSt T K F Ω s a m) : Prop where
  epoch : st.inst.state.epoch = st.epoch
  grid : g ∣ st.epoch - t0
  step : g ∣ st.inst.step
  state : True' x st.inst.state
  traj : ∀ y ∈ st.traj, True' x y
  dev : st.kf.prev.dev = 0
  sol : ∀ e ∈ st.sol, e.Exact x

/-- The last state of the trajectory is at the current epoch. -/
def AtEnd (st : PSt T K F Ω s a m) : Prop := ∃ y, st.traj.getLast? = some y ∧ y.epoch = st.epoch

theorem observation_row {data : List (K × Option ℝ)} {types : List K} {real : Fin m → ℝ}
    (h : observation m data types = some real) (i : Fin m) :
    (types[i.val]? = none → real i = 0) ∧ ∀ t v, types[i.val]? = some t → look data t = some (some v) → real i = v := by
  unfold observation at h
  split at h
  · cases h
    exact ⟨fun h => by simp only [h], fun t v h h' => by simp only [h, h']⟩
  · cases h

theorem window_exact {cfg : Cfg T K F Ω s a m} {arc : PArc T K} {x : Int → Ω} {g t0 : Int} (hx : ExactData cfg arc x)
    (hplus : ∀ y, (cfg.plus y 0).orbit = y.orbit ∧ (cfg.plus y 0).epoch = y.epoch)
    (hs : ∀ n, cfg.sigmaReject = some n → 0 ≤ n) {z : Meas T K} (hz : z ∈ arc.measurements) (hzr : z.rejected = false)
    {dev : Dev T K Ω s m} (hd : cfg.devices z.tracker = some dev) {types : List K} (hty : ∀ t ∈ types, t ∈ dev.types)
    {st st' : PSt T K F Ω s a m} (h0 : OnTruth x g t0 st) (he : st.epoch = z.epoch) (hend : AtEnd st)
    (h : oneWindow cfg arc z dev types st = .ok st') : OnTruth x g t0 st' ∧ st'.epoch = z.epoch ∧ AtEnd st' := by
  rcases oneWindow_ok h with ⟨rfl, _⟩ | ⟨real, H, R, comp, b, kf', e, r, gn, _, hreal, _, _, hm, hb, hu, rfl⟩
  · exact ⟨h0, he, hend⟩
  · obtain ⟨hbias, hval⟩ := hx z hz hzr dev hd
    rw [he] at hb hm
    have hb0 := hbias _ _ hb
    subst hb0
    rw [sub_zero] at hu
    have hv := hval st.traj comp h0.traj (by obtain ⟨y, p, q⟩ := hend; exact ⟨y, p, q.trans he⟩) hm
    have hres : resolve arc.moduli types (obsOf m comp types) real = obsOf m comp types := by
      refine resolve_exact _ _ _ _ (fun i hi => ?_) fun i t hi => ?_
      · rw [(observation_row hreal i).1 hi]; simp [obsOf, hi]
      · obtain ⟨v, c, q1, q2, q3⟩ := hv t (hty t (List.mem_of_getElem? hi))
        rw [(observation_row hreal i).2 t v hi q1]
        simpa [obsOf, hi, q2] using q3
    rw [hres] at hu
    have ht : ∀ n, threshold cfg arc = some n → 0 ≤ n := by
      intro n hn
      unfold threshold at hn
      split at hn
      · cases hn; exact le_rfl
      · exact hs n hn
    obtain ⟨e1, e2, e3, e4, e5, e6, e7⟩ := msr_exact rfl h0.dev ht hu
    have hentry : True' x e.nominal := by rw [e1]; exact h0.state
    have hsol : ∀ en ∈ st.sol ++ [Entry.msr e r gn z.tracker types], en.Exact x := by
      intro en hen
      rcases List.mem_append.1 hen with hen | hen
      · exact h0.sol en hen
      · rw [List.mem_singleton.1 hen]
        exact ⟨hentry, e2, e4, e5, e6, e7⟩
    have hp := hplus e.nominal
    have htrue : True' x (cfg.plus e.nominal e.dev) := by
      rw [e2]; unfold True'; rw [hp.1, hp.2]; exact hentry
    have hep : (cfg.plus e.nominal e.dev).epoch = st.epoch := by rw [e2, hp.2, e1, h0.epoch]
    simp only [applyUpdate]
    split
    · refine ⟨⟨hep, h0.grid, h0.step, htrue, ?_, e3, hsol⟩, he, ⟨_, List.getLast?_concat, hep⟩⟩
      intro y hy
      rcases List.mem_append.1 hy with hy | hy
      · exact h0.traj y (List.mem_of_mem_dropLast hy)
      · rw [List.mem_singleton.1 hy]; exact htrue
    · exact ⟨⟨h0.epoch, h0.grid, h0.step, h0.state, h0.traj, e3, hsol⟩, he, hend⟩

theorem windows_types {types w : List K} (hw : w ∈ windows m types) : ∀ t ∈ w, t ∈ types := by
  intro t ht
  have := List.takeWhile_subset _ hw
  obtain ⟨n, _, rfl⟩ := List.mem_map.1 this
  exact List.drop_subset _ _ (List.take_subset _ _ ht)

theorem allWindows_exact {cfg : Cfg T K F Ω s a m} {arc : PArc T K} {x : Int → Ω} {g t0 : Int} (hx : ExactData cfg arc x)
    (hplus : ∀ y, (cfg.plus y 0).orbit = y.orbit ∧ (cfg.plus y 0).epoch = y.epoch)
    (hs : ∀ n, cfg.sigmaReject = some n → 0 ≤ n) {z : Meas T K} (hz : z ∈ arc.measurements) (hzr : z.rejected = false)
    {dev : Dev T K Ω s m} (hd : cfg.devices z.tracker = some dev) (ws : List (List K)) (hws : ∀ w ∈ ws, ∀ t ∈ w, t ∈ dev.types) :
    ∀ {st st' : PSt T K F Ω s a m}, OnTruth x g t0 st → st.epoch = z.epoch → AtEnd st →
      allWindows cfg arc z dev ws st = .ok st' → OnTruth x g t0 st' ∧ st'.epoch = z.epoch := by
  induction ws with
  | nil => intro st st' h0 he _ h; cases h; exact ⟨h0, he⟩
  | cons w ws ih =>
    intro st st' h0 he hend h
    obtain ⟨st1, h1, h2⟩ := Res.bind_eq_ok.1 h
    obtain ⟨a1, a2, a3⟩ := window_exact hx hplus hs hz hzr hd (hws w (by simp)) h0 he hend h1
    exact ih (fun w' hw' => hws w' (by simp [hw'])) a1 a2 a3 h2

theorem timeUp_exact {cfg : Cfg T K F Ω s a m} {x : Int → Ω} {g t0 : Int} {st st' : PSt T K F Ω s a m}
    (h0 : OnTruth x g t0 st) {y : Nominal Ω s} (hy : True' x y) (h : timeUp cfg y st = .ok st') : OnTruth x g t0 st' := by
  obtain ⟨kf', e, hk, rfl⟩ := timeUp_ok h
  obtain ⟨q1, q2, q3⟩ := time_exact h0.dev hk
  refine ⟨h0.epoch, h0.grid, h0.step, h0.state, h0.traj, q3, ?_⟩
  intro en hen
  rcases List.mem_append.1 hen with hen | hen
  · exact h0.sol en hen
  · rw [List.mem_singleton.1 hen]
    exact ⟨by rw [q1]; exact hy, q2⟩

theorem advanceTo_exact {cfg : Cfg T K F Ω s a m} {arc : PArc T K} {x : Int → Ω} {g t0 : Int} (hx : ExactData cfg arc x)
    (hf : Follows cfg.adv x g) (hplus : ∀ y, (cfg.plus y 0).orbit = y.orbit ∧ (cfg.plus y 0).epoch = y.epoch)
    (hs : ∀ n, cfg.sigmaReject = some n → 0 ≤ n) (hprec : cfg.precision ≤ g) (hmax : g ∣ cfg.maxStep)
    {z : Meas T K} (hz : z ∈ arc.measurements) (hgz : g ∣ z.epoch - t0) (n : Nat) :
    ∀ {st st' : PSt T K F Ω s a m}, OnTruth x g t0 st → advanceTo cfg arc z n st = some (.ok st') → OnTruth x g t0 st' := by
  induction n with
  | zero => intro st st' _ h; simp [advanceTo] at h
  | succ n ih =>
    intro st st' h0 h
    rw [advanceTo] at h
    cases hadv : cfg.adv st.inst (nextStep cfg z st) with
    | err => rw [hadv] at h; simp at h
    | panic => rw [hadv] at h; simp at h
    | ok pr =>
      obtain ⟨p, states⟩ := pr
      rw [hadv] at h
      simp only at h
      obtain ⟨b1, b2, yl, b3, b4⟩ := hf.states _ _ _ _ h0.state hadv
      have hstepd : g ∣ nextStep cfg z st := by
        have hdz : g ∣ z.epoch - st.epoch := by
          have := dvd_sub hgz h0.grid
          rwa [sub_sub_sub_cancel_right] at this
        have hmin : ∀ u v : Int, g ∣ u → g ∣ v → g ∣ min u v := fun u v hu hv => by
          rcases min_choice u v with h | h <;> rw [h] <;> assumption
        exact hmin _ _ (hmin _ _ hdz h0.step) hmax
      have hgrid : g ∣ p.state.epoch - t0 := by
        rw [hf.epoch _ _ _ _ hadv, h0.epoch, add_sub_right_comm]
        exact dvd_add h0.grid hstepd
      let st1 : PSt T K F Ω s a m :=
        { st with inst := p, epoch := p.state.epoch, traj := truncate st.epoch st.traj ++ states }
      have h1 : OnTruth x g t0 st1 := by
        refine ⟨rfl, hgrid, hf.step _ _ _ _ hadv h0.step, b1, ?_, h0.dev, h0.sol⟩
        intro y hy
        rcases List.mem_append.1 hy with hy | hy
        · exact h0.traj y (List.take_subset _ _ hy)
        · exact b2 y hy
      split at h
      · rename_i hc
        have hexact : p.state.epoch = z.epoch := by
          have hd : g ∣ p.state.epoch - z.epoch := by
            have := dvd_sub hgrid hgz
            rwa [sub_sub_sub_cancel_right] at this
          have := Int.eq_zero_of_abs_lt_dvd hd (lt_of_lt_of_le hc hprec)
          omega
        simp only [Option.some.injEq] at h
        unfold atMeasurement at h
        simp only at h
        have hset : setEpoch p z.epoch = p := by
          obtain ⟨⟨o, e, stm⟩, k⟩ := p
          simp only at hexact
          subst hexact
          rfl
        rw [hset] at h
        split at h
        · exact timeUp_exact h1 b1 h
        · rename_i hr
          split at h
          · cases h; exact h1
          · rename_i dev hd
            refine (allWindows_exact hx hplus hs hz (by simpa using hr) hd _ (fun w hw => windows_types hw) h1 hexact ?_ h).1
            refine ⟨yl, ?_, b4⟩
            have hne : states ≠ [] := by rintro rfl; simp at b3
            rw [List.getLast?_append_of_ne_nil _ hne]
            exact b3
      · split at h
        · rename_i st2 ht
          exact ih (timeUp_exact h1 b1 ht) h
        · simp at h
        · simp at h

/-- C240, the part which holds. The filter starts on the true orbit without deviation, the propagator follows the true dynamics, and the
data are exact. Then every estimate of the solution is on the true orbit without deviation, and every measurement it used is accepted, with zero
residuals, whatever the covariances, the process noises, the sensitivities, the variant and the ambiguities. The epochs of the
measurements, the maximum step and the step of the propagator are multiples of `g`, and the precision on epochs is at most `g`. Missing: measurements
which the process takes for a step nearby (`exact_data_early`), devices with a constant bias (C127) and measurements without all the types of
their device (C205). -/
theorem exact_data_partial (cfg : Cfg T K F Ω s a m) (arc : PArc T K) (x : Int → Ω) (g : Int) (hx : ExactData cfg arc x)
    (hf : Follows cfg.adv x g) (hplus : ∀ y, (cfg.plus y 0).orbit = y.orbit ∧ (cfg.plus y 0).epoch = y.epoch)
    (hs : ∀ n, cfg.sigmaReject = some n → 0 ≤ n) (hprec : cfg.precision ≤ g) (hmax : g ∣ cfg.maxStep) (hstep : g ∣ cfg.propStep)
    (e0 : Est Ω s) (h0 : e0.nominal.orbit = x e0.nominal.epoch) (hd : e0.dev = 0)
    (hz : ∀ z ∈ arc.measurements, g ∣ z.epoch - e0.nominal.epoch) (fuel : Nat) (sol : List (Entry T K Ω s m))
    (h : processArc cfg fuel e0 arc = some (.ok sol)) :
    ∀ en ∈ sol, en.est.nominal.orbit = x en.epoch ∧ en.est.dev = 0 ∧
      ∀ e r gn tr ty, en = .msr e r gn tr ty → r.rejected = false ∧ r.prefit = 0 ∧ r.postfit = some 0 ∧ r.ratio = 0 := by
  obtain ⟨st, hst, rfl⟩ := processArc_ok h
  have key : ∀ (zs : List (Meas T K)), (∀ z ∈ zs, z ∈ arc.measurements) → ∀ {st st' : PSt T K F Ω s a m},
      OnTruth x g e0.nominal.epoch st → processAll cfg arc fuel zs st = some (.ok st') → OnTruth x g e0.nominal.epoch st' := by
    intro zs
    induction zs with
    | nil =>
      intro _ st st' h0 h
      simp only [processAll, Option.some.injEq, Res.ok.injEq] at h
      subst h; exact h0
    | cons z zs ih =>
      intro hm st st' h0 h
      rw [processAll] at h
      split at h
      · cases h
      · rename_i st1 h1
        have hzm := hm z (by simp)
        exact ih (fun z' hz' => hm z' (by simp [hz'])) (advanceTo_exact hx hf hplus hs hprec hmax hzm (hz z hzm) fuel h0 h1) h
      · rename_i hne _
        simp only [Option.some.injEq] at h
        exact absurd h (hne _)
  have hstart : OnTruth x g e0.nominal.epoch (start cfg e0 : PSt T K F Ω s a m) := by
    refine ⟨rfl, ?_, ?_, h0, by simp [start], hd, by simp [start]⟩
    · simp [start]
    · simp only [start]
      split <;> assumption
  have hfin := key _ (fun _ h => h) hstart hst
  intro en hen
  have he := hfin.sol en hen
  cases en with
  | time e => exact ⟨he.1, he.2, by rintro _ _ _ _ _ ⟨⟩⟩
  | msr e r gn tr ty =>
    refine ⟨he.1, he.2.1, ?_⟩
    rintro _ _ _ _ _ ⟨⟩
    exact he.2.2

/-! ### A state which moves one unit per nanosecond -/

/-- One type of measurement of the scalar state: the value of the last state of the trajectory. -/
noncomputable def exMoveDev : Dev Nat Nat ℝ 1 1 where
  types := [0]
  hTilde _ _ _ := .ok 1
  covar _ _ := .ok 1
  bias _ _ := .ok 0
  measure _ traj := .ok (traj.getLast?.map fun x => [(0, x.orbit)])

/-- A scalar state of constant velocity, with steps of at most 10 and the precision `prec` on epochs. -/
noncomputable def exMove (prec : Int) : Cfg Nat Nat Unit ℝ 1 3 1 where
  maxStep := 10
  precision := prec
  sigmaReject := none
  variant := .referenceUpdate
  noises := []
  fixed := false
  propStep := 10
  devices t := if t = 1 then some exMoveDev else none
  adv p d := .ok (⟨⟨p.state.orbit + d, p.state.epoch + d, p.state.stm⟩, p.step⟩,
    [⟨p.state.orbit + d, p.state.epoch + d, p.state.stm⟩])
  plus x d := { x with orbit := x.orbit + d 0 }
  chol := someChol
  dcm _ _ := none

/-- The exact value 11 at the time 11, and a measurement of an unknown tracker. -/
noncomputable def exMoveArc : PArc Nat Nat where
  measurements := [⟨1, 11, [(0, some 11)], false⟩, ⟨7, 20, [], false⟩]
  moduli := none
  forceReject := false

theorem exMove_data (prec : Int) : ExactData (exMove prec) exMoveArc fun t => (t : ℝ) := by
  intro z hz hr dev hd
  simp only [exMoveArc, List.mem_cons, List.not_mem_nil, or_false] at hz
  rcases hz with rfl | rfl
  · simp only [exMove, if_true, Option.some.injEq] at hd
    subst hd
    refine ⟨fun _ b hb => by cases hb; rfl, ?_⟩
    rintro traj comp htr ⟨y, hy, he⟩ hm t ht
    simp only [exMoveDev, List.mem_singleton] at ht
    subst ht
    have hty := htr y (List.mem_of_getLast? hy)
    simp only [exMoveDev, hy, Option.map_some, Res.ok.injEq, Option.some.injEq] at hm
    subst hm
    refine ⟨11, y.orbit, rfl, rfl, ?_⟩
    unfold True' at hty
    rw [hty, he]
    simp [ExactValue, exMoveArc]
  · simp [exMove] at hd

theorem exMove_follows (prec : Int) : Follows (exMove prec).adv (fun t => (t : ℝ)) 1 where
  epoch p d p' l h := by simp only [exMove, Res.ok.injEq, Prod.mk.injEq] at h; rw [← h.1]
  states p d p' l hp h := by
    simp only [exMove, Res.ok.injEq, Prod.mk.injEq] at h
    unfold True' at hp
    rw [← h.1, ← h.2]
    refine ⟨?_, ?_, ⟨_, rfl, rfl⟩⟩
    · simp [True', hp]
    · intro y hy
      rw [List.mem_singleton.1 hy]
      simp [True', hp]
  step _ _ _ _ _ _ := one_dvd _

/-- The window of the measurement of 11 at the state `v`. -/
theorem exMove_window (prec : Int) (t : Int) (kf : KF Unit ℝ 1 3) (p : ℝ) (hp : 0 < p) (hn : kf.noises = [])
    (hc : kf.prev.covar = diagonal fun _ => p) (hv : kf.variant = .referenceUpdate) (v : ℝ) (pre : List (Nominal ℝ 1))
    (sol : List (Entry Nat Nat ℝ 1 1)) :
    ∃ kf' e r g, oneWindow (exMove prec) exMoveArc ⟨1, 11, [(0, some 11)], false⟩ exMoveDev [0]
        ⟨⟨⟨v, 11, some 1⟩, 10⟩, t, kf, pre ++ [⟨v, t, some 1⟩], sol⟩ =
      .ok ⟨⟨⟨v + p / (p + 1) * (11 - v), 11, some 1⟩, 10⟩, t, kf', pre ++ [⟨v + p / (p + 1) * (11 - v), 11, some 1⟩],
        sol ++ [.msr e r g 1 [0]]⟩ ∧
      estState (exMove prec).plus e = ⟨11, v + p / (p + 1) * (11 - v)⟩ ∧ r.prefit = fun _ => 11 - v := by
  obtain ⟨kf', e, r, g, hu, hr, he, hd, hk, hn', hv'⟩ :=
    scalar_update kf p hp hn hc hv ⟨v, 11, some 1⟩ rfl (fun _ => 11) (fun _ => v)
  refine ⟨kf', e, r, g, ?_, ?_, ?_⟩
  · have h0 : observation 1 [(0, some (11 : ℝ))] [0] = some fun _ => 11 := by
      unfold observation
      rw [if_pos (by rfl)]
      congr 1
      funext i
      fin_cases i
      rfl
    have h1 : obsOf 1 [(0, v)] [0] - 0 = fun _ => v := by
      rw [sub_zero]
      funext i
      fin_cases i
      rfl
    have ha : (⟨1, 11, [(0, some 11)], false⟩ : Meas Nat Nat).anyAvailable [0] = true := rfl
    unfold oneWindow
    rw [if_pos ha]
    have h2 : exMoveDev.measure t (pre ++ [⟨v, t, some 1⟩]) = .ok (some [(0, v)]) := by
      simp [exMoveDev]
    have h3 : exMoveDev.hTilde ⟨1, 11, [(0, some 11)], false⟩ [0] ⟨v, 11, some 1⟩ = .ok 1 := rfl
    have h4 : exMoveDev.covar [0] t = .ok 1 := rfl
    have h5 : exMoveDev.bias [0] t = .ok 0 := rfl
    have h6 : threshold (exMove prec) exMoveArc = none := rfl
    have h7 : resolve exMoveArc.moduli [0] (fun _ => v) (fun _ : Fin 1 => (11 : ℝ)) = fun _ => 11 := rfl
    have h8 : kf.measurementUpdate (exMove prec).chol (exMove prec).dcm ⟨v, 11, some 1⟩ ⟨fun _ => 11, fun _ => v, 1, 1⟩ none =
      .ok (kf', e, r, g) := hu
    simp only [h0, h2, h3, h4, h5, h6, h1, h7, h8, Res.bind_ok, hr]
    have h9 : applyUpdate (exMove prec) ⟨⟨v, 11, some 1⟩, 10⟩ (pre ++ [⟨v, t, some 1⟩]) e false =
        (⟨⟨v + p / (p + 1) * (11 - v), 11, some 1⟩, 10⟩, pre ++ [⟨v + p / (p + 1) * (11 - v), 11, some 1⟩]) := by
      simp [applyUpdate, exMove, he, hd, resetStm]
    rw [h9]
  · simp [estState, exMove, he, hd]
  · obtain ⟨_, _, _, _, _, _, _, hpre, _⟩ := measurementUpdate_ok hu
    rw [hpre]
    funext i
    simp

/-- C240, refuted. The data are exact, the filter starts on the truth and the propagator follows it. With a precision of 2 on the epochs, the step to 10 is
taken for the epoch 11 of the measurement: the state of time 10 gets the epoch 11, the residual is 1, and the estimate at 11 is
21/2 where the truth is 11. -/
theorem exact_data_early : ∃ e r g, processArc (exMove 2) 5 exNavEst exMoveArc = some (.ok [.msr e r g 1 [0]]) ∧
    ExactData (exMove 2) exMoveArc (fun t => (t : ℝ)) ∧ Follows (exMove 2).adv (fun t => (t : ℝ)) 1 ∧
    exNavEst.nominal.orbit = (exNavEst.nominal.epoch : ℝ) ∧ exNavEst.dev = 0 ∧
    estState (exMove 2).plus e = ⟨11, 21 / 2⟩ ∧ r.prefit = fun _ => 1 := by
  obtain ⟨k, e, r, g, hw, hs, hp⟩ := exMove_window 2 10 ⟨exNavEst, [], .referenceUpdate, 0⟩ 1 one_pos rfl rfl rfl 10 [] []
  refine ⟨e, r, g, ?_, exMove_data 2, exMove_follows 2, by simp [exNavEst], rfl, by rw [hs]; norm_num, by rw [hp]; norm_num⟩
  have h2 : advanceTo (exMove 2) exMoveArc ⟨1, 11, [(0, some 11)], false⟩ 5 (start (exMove 2) exNavEst) =
      some (allWindows (exMove 2) exMoveArc ⟨1, 11, [(0, some 11)], false⟩ exMoveDev [[0]]
        ⟨⟨⟨0 + ((10 : Int) : ℝ), 11, some 1⟩, 10⟩, 10, ⟨exNavEst, [], .referenceUpdate, 0⟩, [⟨0 + ((10 : Int) : ℝ), 10, some 1⟩], []⟩) := rfl
  rw [show (0 + ((10 : Int) : ℝ)) = 10 by norm_num] at h2
  simp only [List.nil_append] at hw
  rw [allWindows, hw, Res.bind_ok, allWindows] at h2
  unfold processArc
  rw [if_neg (by simp [exMoveArc, exMove]), show exMoveArc.measurements =
    [⟨1, 11, [(0, some 11)], false⟩, ⟨7, 20, [], false⟩] from rfl, processAll, h2]
  rfl

/-- With a precision of one nanosecond the same data give the truth: the hypotheses of `exact_data_partial` are met by a run with a time
update and a measurement. -/
example : ∃ e e' r g, processArc (exMove 1) 5 exNavEst exMoveArc = some (.ok [.time e, .msr e' r g 1 [0]]) ∧
    e'.nominal.orbit = (e'.nominal.epoch : ℝ) ∧ e'.dev = 0 ∧ r.prefit = 0 := by
  let P : Matrix (Fin 1) (Fin 1) ℝ := (1 : Matrix (Fin 1) (Fin 1) ℝ) * (diagonal fun _ => 1) * (1 : Matrix (Fin 1) (Fin 1) ℝ)ᵀ
  let e : Est ℝ 1 := ⟨⟨0 + ((10 : Int) : ℝ), 10, some 1⟩, 0, P, P, 1, true⟩
  have hP : P = diagonal fun _ => 1 := by simp [P]
  obtain ⟨k, e', r, g, hw, -, -⟩ := exMove_window 1 11 ⟨e, [], .referenceUpdate, 0⟩ 1 one_pos rfl hP rfl 11 [] [.time e]
  have h2 : advanceTo (exMove 1) exMoveArc ⟨1, 11, [(0, some 11)], false⟩ 5 (start (exMove 1) exNavEst) =
      some (allWindows (exMove 1) exMoveArc ⟨1, 11, [(0, some 11)], false⟩ exMoveDev [[0]]
        ⟨⟨⟨0 + ((10 : Int) : ℝ) + ((1 : Int) : ℝ), 11, some 1⟩, 10⟩, 11, ⟨e, [], .referenceUpdate, 0⟩,
          [⟨0 + ((10 : Int) : ℝ) + ((1 : Int) : ℝ), 11, some 1⟩], [.time e]⟩) := rfl
  rw [show (0 + ((10 : Int) : ℝ) + ((1 : Int) : ℝ)) = 11 by norm_num] at h2
  simp only [List.nil_append] at hw
  rw [allWindows, hw, Res.bind_ok, allWindows] at h2
  have hrun : processArc (exMove 1) 5 exNavEst exMoveArc = some (.ok [.time e, .msr e' r g 1 [0]]) := by
    unfold processArc
    rw [if_neg (by simp [exMoveArc, exMove]), show exMoveArc.measurements =
      [⟨1, 11, [(0, some 11)], false⟩, ⟨7, 20, [], false⟩] from rfl, processAll, h2]
    rfl
  have := exact_data_partial (exMove 1) exMoveArc (fun t => (t : ℝ)) 1 (exMove_data 1) (exMove_follows 1)
    (fun y => ⟨by simp [exMove], rfl⟩) (fun n hn => by cases hn) le_rfl (one_dvd _) (one_dvd _) exNavEst (by simp [exNavEst]) rfl
    (fun _ _ => one_dvd _) 5 _ hrun (.msr e' r g 1 [0]) (by simp)
  exact ⟨e, e', r, g, hrun, this.1, this.2.1, (this.2.2 _ _ _ _ _ rfl).2.1⟩

end Verif.Process
