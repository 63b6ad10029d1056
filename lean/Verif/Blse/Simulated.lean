import Verif.Blse.Exact
import Verif.Sched.Measure
/-!
C244: the simulator and the estimators together. Data simulated without noise along a trajectory and then processed by a filter, or
by the batch estimator, that starts on that trajectory.
-/
namespace Verif.Simulated
open Verif Verif.Kalman Verif.Process Verif.Blse Verif.Sched
open Verif.Tracking (IMap Msr get sort Sorts WF Has HasKey Rejected)

variable {N K S : Type} [LinearOrder N] [DecidableEq K]

/-! ### From the simulator to the estimators -/

/-- A simulated measurement as the estimators read it: the same values, all of them finite. od/msr/measurement.rs:30-43. -/
noncomputable def read (z : Msr N K) : Meas N K := ⟨z.tracker, z.epoch, z.data.map fun p => (p.1, some (p.2 : ℝ)), z.rejected⟩

/-- The data arc as the simulator returns it: no moduli, no forced rejection. od/simulator/arc.rs:245-256. -/
noncomputable def readArc (l : List (Msr N K)) : PArc N K := ⟨l.map read, none, false⟩

/-- The devices of the simulation have no noise: whatever the state of the generator, a measurement of the tracker `n` at `e` has
exactly the values `value n e`, which are those of the truth. -/
def NoiseFree (measure : N → S → Int → S × Shot (Msr N K)) (value : N → Int → IMap K Rat) : Prop :=
  ∀ n s e x, (measure n s e).2 = .seen x → x = ⟨n, e, value n e, false⟩

/-- The strands and samplings of the trackers are on the grid of step `g` through `t0`. -/
def OnGrid (configs : IMap N Sched.Cfg) (g t0 : Int) : Prop :=
  ∀ n c, get configs n = some c → g ∣ c.sampling ∧ ∀ sts, c.strands = some sts → ∀ st ∈ sts, g ∣ st.start - t0

/-! ### What is simulated -/

/-- A measurement without noise, on the grid. -/
def Good (value : N → Int → IMap K Rat) (g t0 : Int) (x : Msr N K) : Prop :=
  x = ⟨x.tracker, x.epoch, value x.tracker x.epoch, false⟩ ∧ g ∣ x.epoch - t0

theorem strand_good {measure : N → S → Int → S × Shot (Msr N K)} {value : N → Int → IMap K Rat} (hm : NoiseFree measure value)
    {g t0 : Int} (n : N) (stop step : Int) (hg : g ∣ step) : ∀ (f : Nat) (cur : Int) (s : S) (acc : List (Msr N K)) {s' acc'},
    g ∣ cur - t0 → (∀ x ∈ acc, Good value g t0 x) → strandLoop (measure n) stop step f cur s acc = some (s', acc') →
      ∀ x ∈ acc', Good value g t0 x := by
  intro f
  induction f with
  | zero => intro cur s acc s' acc' _ _ h; simp [strandLoop] at h
  | succ f ih =>
    intro cur s acc s' acc' hc ha h
    rw [strandLoop] at h
    have hc' : g ∣ cur + step - t0 := by rw [add_sub_right_comm]; exact dvd_add hc hg
    split at h
    · cases h; exact ha
    · split at h
      · cases h; exact ha
      · exact ih _ _ _ hc' ha h
      · rename_i s1 x hx
        refine ih _ _ _ hc' ?_ h
        intro y hy
        rcases List.mem_append.1 hy with hy | hy
        · exact ha y hy
        · rw [List.mem_singleton.1 hy]
          have := hm n s cur x (by rw [hx])
          rw [this]
          exact ⟨rfl, hc⟩

theorem strands_good {measure : N → S → Int → S × Shot (Msr N K)} {value : N → Int → IMap K Rat} (hm : NoiseFree measure value)
    {g t0 : Int} (n : N) (fuel : Nat) (step : Int) (hg : g ∣ step) : ∀ (sts : List Strand) (s : S) (acc : List (Msr N K)) {s' acc'},
    (∀ st ∈ sts, g ∣ st.start - t0) → (∀ x ∈ acc, Good value g t0 x) → strandsLoop (measure n) fuel step sts s acc = some (s', acc') →
      ∀ x ∈ acc', Good value g t0 x := by
  intro sts
  induction sts with
  | nil => intro s acc s' acc' _ ha h; cases h; exact ha
  | cons st sts ih =>
    intro s acc s' acc' hs ha h
    rw [strandsLoop] at h
    split at h
    · rename_i s1 acc1 h1
      exact ih _ _ (fun t ht => hs t (by simp [ht])) (strand_good hm n _ _ hg _ _ _ _ (hs st (by simp)) ha h1) h
    · cases h

theorem devices_good {measure : N → S → Int → S × Shot (Msr N K)} {value : N → Int → IMap K Rat} (hm : NoiseFree measure value)
    {g t0 : Int} (fuel : Nat) (configs : IMap N Sched.Cfg) (hc : OnGrid configs g t0) : ∀ (ns : List N) (s : S) (acc : List (Msr N K)) {r},
    (∀ x ∈ acc, Good value g t0 x) → devicesLoop measure fuel configs ns s acc = .ok r → ∀ x ∈ r.2, Good value g t0 x := by
  intro ns
  induction ns with
  | nil => intro s acc r ha h; cases h; exact ha
  | cons n ns ih =>
    intro s acc r ha h
    rw [devicesLoop] at h
    split at h
    · rename_i c hg
      split at h
      · rename_i sts hs
        split at h
        · rename_i s1 acc1 h1
          exact ih _ _ (strands_good hm n fuel _ (hc n c hg).1 sts s acc ((hc n c hg).2 sts hs) ha h1) h
        · cases h
      · split at h
        · cases h
        · exact ih _ _ ha h
    · exact ih _ _ ha h

/-- What a simulation without noise returns: for each measurement, the tracker's values of the truth at its epoch, on the grid. -/
theorem simulated_values {srt : List (Msr N K) → List (Msr N K)} (hsrt : Sorts srt) {measure : N → S → Int → S × Shot (Msr N K)}
    {value : N → Int → IMap K Rat} (hm : NoiseFree measure value) (hk : ∀ n e, ((value n e).map Prod.fst).Nodup)
    {g t0 : Int} {fuel : Nat} {configs : IMap N Sched.Cfg} (hc : OnGrid configs g t0) {ns : List N} {s : S} {l : List (Msr N K)}
    (h : generateMeasurements srt measure fuel ns configs s = .ok l) :
    ∀ z ∈ l, g ∣ z.epoch - t0 ∧ z.rejected = false ∧ (z.data.map Prod.fst).Nodup ∧
      ∀ k v, get z.data k = some v ↔ get (value z.tracker z.epoch) k = some v := by
  unfold generateMeasurements at h
  split at h
  · rename_i s' l' h'
    cases h
    have hl := devices_good (g := g) (t0 := t0) hm fuel configs hc ns s [] (by simp) h'
    simp only at hl
    have hl' : ∀ x ∈ srt l', Good value g t0 x := fun x hx => hl x ((hsrt.perm l').mem_iff.1 hx)
    have hwf : WF (srt l') := fun x hx => by rw [(hl' x hx).1]; exact hk _ _
    have hws := Tracking.coalesce_wf _ hwf
    have hstrict := Tracking.coalesce_strict _ (hsrt.sorted l')
    intro z hz
    obtain ⟨x, hx, e1, e2⟩ := (Tracking.coalesce_key (srt l') z.epoch z.tracker).1 ⟨z, hz, rfl, rfl⟩
    refine ⟨by rw [← e1]; exact (hl' x hx).2, ?_, hws z hz, fun k v => ⟨fun hv => ?_, fun hv => ?_⟩⟩
    · by_contra hr
      obtain ⟨y, hy, -, -, hry⟩ := (Tracking.coalesce_rejected (srt l') z.epoch z.tracker).1
        ⟨z, hz, rfl, rfl, Bool.eq_true_of_not_eq_false hr⟩
      rw [(hl' y hy).1] at hry
      cases hry
    · obtain ⟨y, hy, f1, f2, f3⟩ := Tracking.coalesce_has_sound _ hwf _ _ _ _ ⟨z, hz, rfl, rfl, hv⟩
      rw [(hl' y hy).1, f1, f2] at f3
      exact f3
    · have hhas : Has (srt l') z.epoch z.tracker k v := ⟨x, hx, e1, e2, by rw [(hl' x hx).1, e1, e2]; exact hv⟩
      obtain ⟨w, y, hy, f1, f2, f3⟩ := Tracking.coalesce_has_complete _ hwf _ _ _ ⟨v, hhas⟩
      have hyz : y = z := by
        by_contra hne
        have hp : (sort srt l').Pairwise fun p q => ¬ (p.epoch = q.epoch ∧ p.tracker = q.tracker) := by
          refine hstrict.imp ?_
          rintro p q (h1 | ⟨-, h1⟩) ⟨h2, h3⟩
          · exact absurd h2 (ne_of_lt h1)
          · exact absurd h3 (ne_of_lt h1)
        haveI : Std.Symm fun p q : Msr N K => ¬ (p.epoch = q.epoch ∧ p.tracker = q.tracker) :=
          ⟨fun p q hpq h => hpq ⟨h.1.symm, h.2.symm⟩⟩
        exact hp.forall hy hz hne ⟨f1, f2⟩
      obtain ⟨y', hy', g1, g2, g3⟩ := Tracking.coalesce_has_sound _ hwf _ _ _ _ ⟨y, hy, rfl, rfl, f3⟩
      rw [(hl' y' hy').1, g1, g2, f1, f2, hv] at g3
      cases g3
      rw [← hyz]; exact f3
  · cases h
  · cases h

theorem look_read (d : IMap K Rat) (k : K) : look (d.map fun p => (p.1, some (p.2 : ℝ))) k = (get d k).map fun v : Rat => some (v : ℝ) := by
  induction d with
  | nil => rfl
  | cons p d ih =>
    obtain ⟨k', v⟩ := p
    simp only [List.map_cons, look, Tracking.get]
    split
    · rfl
    · exact ih

theorem get_mem {d : IMap K Rat} (hd : (d.map Prod.fst).Nodup) {k : K} {v : Rat} (h : (k, v) ∈ d) : get d k = some v := by
  induction d with
  | nil => simp at h
  | cons p d ih =>
    obtain ⟨k', v'⟩ := p
    simp only [List.map_cons, List.nodup_cons] at hd
    rw [Tracking.get]
    rcases List.mem_cons.1 h with h | h
    · cases h; simp
    · rw [if_neg ?_]
      · exact ih hd.2 h
      · rintro rfl
        exact hd.1 (List.mem_map.2 ⟨_, h, rfl⟩)

/-! ### The filter -/

variable {F Ω : Type} {s a m : Nat}

/-- The trackers of the filter are those of the simulation: they have no constant bias and, from true states which end at `e`, they
compute the values of the truth, for all of their types. -/
def SameTrackers (devices : N → Option (Dev N K Ω s m)) (x : Int → Ω) (value : N → Int → IMap K Rat) : Prop :=
  ∀ n dev, devices n = some dev → (∀ types e b, dev.bias types e = .ok b → b = 0) ∧
    ∀ e traj comp, (∀ y ∈ traj, y.orbit = x y.epoch) → (∃ y, traj.getLast? = some y ∧ y.epoch = e) →
      dev.measure e traj = .ok (some comp) → ∀ t ∈ dev.types, ∃ v : Rat, get (value n e) t = some v ∧ look comp t = some (v : ℝ)

/-- C244. Data simulated without noise along the true orbit `x`, and processed by a filter which starts on that orbit with the same
trackers and dynamics: every estimate is the true state, no measurement is rejected and every residual is zero. (Partial: all epochs
and steps are on a grid no finer than the epoch precision, see `exact_data_early`.) -/
theorem simulated_filter_partial {srt : List (Msr N K) → List (Msr N K)} (hsrt : Sorts srt)
    {measure : N → S → Int → S × Shot (Msr N K)} {value : N → Int → IMap K Rat} (hm : NoiseFree measure value)
    (hk : ∀ n e, ((value n e).map Prod.fst).Nodup) {simFuel : Nat} {configs : IMap N Sched.Cfg} {ns : List N} {rng : S}
    {l : List (Msr N K)} (hsim : generateMeasurements srt measure simFuel ns configs rng = .ok l)
    (cfg : Process.Cfg N K F Ω s a m) (x : Int → Ω) (hdev : SameTrackers cfg.devices x value) (g : Int) (hf : Follows cfg.adv x g)
    (hplus : ∀ y, (cfg.plus y 0).orbit = y.orbit ∧ (cfg.plus y 0).epoch = y.epoch) (hs : ∀ n, cfg.sigmaReject = some n → 0 ≤ n)
    (hprec : cfg.precision ≤ g) (hmax : g ∣ cfg.maxStep) (hstep : g ∣ cfg.propStep)
    (e0 : Est Ω s) (h0 : e0.nominal.orbit = x e0.nominal.epoch) (hd : e0.dev = 0) (hgrid : OnGrid configs g e0.nominal.epoch)
    (fuel : Nat) (sol : List (Process.Entry N K Ω s m)) (h : processArc cfg fuel e0 (readArc l) = some (.ok sol)) :
    ∀ en ∈ sol, en.est.nominal.orbit = x en.epoch ∧ en.est.dev = 0 ∧
      ∀ e r gn tr ty, en = .msr e r gn tr ty → r.rejected = false ∧ r.prefit = 0 ∧ r.postfit = some 0 ∧ r.ratio = 0 := by
  have hv := simulated_values hsrt hm hk hgrid hsim
  refine exact_data_partial cfg (readArc l) x g ?_ hf hplus hs hprec hmax hstep e0 h0 hd ?_ fuel sol h
  · rintro z hz - dev hz2
    obtain ⟨y, hy, rfl⟩ := List.mem_map.1 hz
    obtain ⟨b1, b2⟩ := hdev y.tracker dev hz2
    refine ⟨fun types b hb => b1 types _ b hb, fun traj comp ht hend hme t htt => ?_⟩
    obtain ⟨v, c1, c2⟩ := b2 y.epoch traj comp ht hend hme t htt
    refine ⟨v, v, ?_, c2, rfl⟩
    show look (y.data.map _) t = _
    rw [look_read, ((hv y hy).2.2.2 t v).2 c1]
    rfl
  · intro z hz
    obtain ⟨y, hy, rfl⟩ := List.mem_map.1 hz
    exact (hv y hy).1

/-! ### The batch estimator -/

/-- The trackers of the batch estimator compute the values of the truth from the true state. -/
def SameBatch (devices : N → Option (BDev N K Ω s)) (x : Int → Ω) (value : N → Int → IMap K Rat) : Prop :=
  ∀ n dev, devices n = some dev → ∀ y, y.orbit = x y.epoch → ∀ comp, dev.measure y = .ok (some comp) →
    ∀ k v, get (value n y.epoch) k = some v → look comp k = some (v : ℝ)

/-- C244. Data simulated without noise along the true orbit, given to the batch estimator with the same trackers and dynamics and the
true state as the guess: it converges at the first iteration on that state, without correction and residual. -/
theorem simulated_batch_partial {srt : List (Msr N K) → List (Msr N K)} (hsrt : Sorts srt)
    {measure : N → S → Int → S × Shot (Msr N K)} {value : N → Int → IMap K Rat} (hm : NoiseFree measure value)
    (hk : ∀ n e, ((value n e).map Prod.fst).Nodup) {simFuel : Nat} {configs : IMap N Sched.Cfg} {ns : List N} {rng : S}
    {l : List (Msr N K)} (hsim : generateMeasurements srt measure simFuel ns configs rng = .ok l)
    (cfg : BCfg N K Ω s) (hc : CholOk cfg.chol) (x : Int → Ω) (hdev : SameBatch cfg.devices x value) (g : Int)
    (hf : BFollows cfg.adv x g) (hplus : ∀ y, cfg.plus y 0 = y) (hprec : cfg.precision ≤ g) (hmax : g ∣ cfg.maxStep)
    (hstep : g ∣ cfg.propStep) (htol : 0 < cfg.tolerance) (hit : 0 < cfg.maxIterations) (hl : 0 ≤ cfg.lambdaInit)
    (guess : Nominal Ω s) (h0 : guess.orbit = x guess.epoch) (hgrid : OnGrid configs g guess.epoch) (fuel : Nat) (it : It Ω s)
    (h : estimate cfg fuel guess (l.map read) = some (.ok it)) :
    it.est = guess ∧ it.converged = true ∧ it.iter = 1 ∧ it.corr = some 0 ∧ it.rms = some 0 := by
  have hv := simulated_values hsrt hm hk hgrid hsim
  refine exact_batch_partial cfg hc (l.map read) x g ?_ hf hplus hprec hmax hstep htol hit hl guess h0 ?_ fuel it h
  · rintro z hz - dev hz2 y hy he comp hcomp k v hkv
    obtain ⟨w, hw, rfl⟩ := List.mem_map.1 hz
    obtain ⟨⟨k', v'⟩, hp, hpe⟩ := List.mem_map.1 hkv
    cases hpe
    have he' : y.epoch = w.epoch := he
    refine hdev w.tracker dev hz2 y hy comp hcomp k' v' ?_
    rw [he']
    exact ((hv w hw).2.2.2 _ _).1 (get_mem (hv w hw).2.2.1 hp)
  · rintro z hz -
    obtain ⟨y, hy, rfl⟩ := List.mem_map.1 hz
    exact (hv y hy).1

/-! ### Examples -/

/-- The truth is the epoch; the tracker 1 measures it, the tracker 7 sees nothing to measure. -/
def exValue (n : Nat) (e : Int) : IMap Nat Rat := if n = 1 then [(0, (e : Rat))] else []

/-- The devices of the example. -/
def exShots (n : Nat) (_ : Unit) (e : Int) : Unit × Shot (Msr Nat Nat) := ((), .seen ⟨n, e, exValue n e, false⟩)

/-- One strand for each: 11 to 11, and 20 to 20. -/
def exConfigs : IMap Nat Sched.Cfg := [(1, ⟨none, 10, some [⟨11, 11⟩]⟩), (7, ⟨none, 10, some [⟨20, 20⟩]⟩)]

instance (a b : Msr N K) : Decidable (Tracking.leKey a b) := by unfold Tracking.leKey; infer_instance

/-- A sort. -/
def exSrt (l : List (Msr N K)) : List (Msr N K) := l.mergeSort fun a b => decide (Tracking.leKey a b)

theorem exSrt_sorts : Sorts (exSrt (N := N) (K := K)) where
  perm l := List.mergeSort_perm _ _
  sorted l := by
    have := List.pairwise_mergeSort (le := fun a b : Msr N K => decide (Tracking.leKey a b)) ?_ ?_ l
    · exact this.imp fun h => by simpa using h
    · intro a b c h1 h2
      have h1 : Tracking.leKey a b := by simpa using h1
      have h2 : Tracking.leKey b c := by simpa using h2
      have : Tracking.leKey a c := by
        rcases h1 with h1 | ⟨h1, h1'⟩ <;> rcases h2 with h2 | ⟨h2, h2'⟩
        · exact .inl (h1.trans h2)
        · exact .inl (h2 ▸ h1)
        · exact .inl (h1 ▸ h2)
        · exact .inr ⟨h1.trans h2, h1'.trans h2'⟩
      simpa using this
    · intro a b
      have : Tracking.leKey a b ∨ Tracking.leKey b a := by
        rcases lt_trichotomy a.epoch b.epoch with h | h | h
        · exact .inl (.inl h)
        · rcases le_total a.tracker b.tracker with h' | h'
          · exact .inl (.inr ⟨h, h'⟩)
          · exact .inr (.inr ⟨h.symm, h'⟩)
        · exact .inr (.inl h)
      simpa using this

theorem exSimulated : generateMeasurements exSrt exShots 3 [1, 7] exConfigs () = .ok [⟨1, 11, [(0, 11)], false⟩, ⟨7, 20, [], false⟩] := by
  have h : devicesLoop exShots 3 exConfigs [1, 7] () [] = .ok ((), [⟨1, 11, [(0, 11)], false⟩, ⟨7, 20, [], false⟩]) := rfl
  rw [generateMeasurements, h]
  show Gen.ok (Tracking.coalesce (exSrt _)) = _
  have : exSrt [⟨1, 11, [(0, 11)], false⟩, ⟨7, 20, [], false⟩] = [⟨1, 11, [(0, 11)], false⟩, ⟨7, 20, [], false⟩] := by
    refine List.mergeSort_of_pairwise ?_
    simp [Tracking.leKey]
  rw [this]
  simp [Tracking.coalesce]

theorem exRead : readArc [⟨1, 11, [(0, 11)], false⟩, ⟨7, 20, [], false⟩] = exMoveArc := by
  simp [readArc, read, exMoveArc]

theorem exSame (prec : Int) : SameTrackers (exMove prec).devices (fun t => (t : ℝ)) exValue := by
  intro n dev hd
  simp only [exMove] at hd
  split at hd
  · rename_i hn
    cases hd
    refine ⟨fun _ _ b hb => by cases hb; rfl, ?_⟩
    rintro e traj comp htr ⟨y, hy, he⟩ hm t ht
    simp only [exMoveDev, List.mem_singleton] at ht
    subst ht
    have hty := htr y (List.mem_of_getLast? hy)
    simp only [exMoveDev, hy, Option.map_some, Kalman.Res.ok.injEq, Option.some.injEq] at hm
    subst hm
    refine ⟨e, by simp [exValue, hn, Tracking.get], ?_⟩
    simp [look, hty, he]
  · cases hd

/-- The hypotheses of `simulated_filter_partial` are met by a simulation and a run with a time update and a measurement. -/
example (sol) (h : processArc (exMove 1) 5 exNavEst (readArc [⟨1, 11, [(0, 11)], false⟩, ⟨7, 20, [], false⟩]) = some (.ok sol)) :
    ∀ en ∈ sol, en.est.nominal.orbit = (en.epoch : ℝ) ∧ en.est.dev = 0 ∧
      ∀ e r gn tr ty, en = .msr e r gn tr ty → r.rejected = false ∧ r.prefit = 0 ∧ r.postfit = some 0 ∧ r.ratio = 0 :=
  simulated_filter_partial exSrt_sorts (measure := exShots) (value := exValue) (fun n s e x h => by cases h; rfl)
    (fun n e => by unfold exValue; split <;> simp) exSimulated (exMove 1) _ (exSame 1) 1 (exMove_follows 1)
    (fun y => ⟨by simp [exMove], rfl⟩) (fun n hn => by cases hn) le_rfl (one_dvd _) (one_dvd _) exNavEst (by simp [exNavEst]) rfl
    (fun n c _ => ⟨one_dvd _, fun _ _ _ _ => one_dvd _⟩) 5 sol h

/-- C244, refuted. With a precision of 2 on the epochs, the data simulated without noise at 11 move the filter away from the truth
on which it started: its estimate at 11 is 21/2 and the residual is 1. -/
theorem simulated_early : ∃ l, generateMeasurements exSrt exShots 3 [1, 7] exConfigs () = .ok l ∧ NoiseFree exShots exValue ∧
    SameTrackers (exMove 2).devices (fun t => (t : ℝ)) exValue ∧ Follows (exMove 2).adv (fun t => (t : ℝ)) 1 ∧
    exNavEst.nominal.orbit = (exNavEst.nominal.epoch : ℝ) ∧ exNavEst.dev = 0 ∧
    ∃ e r g, processArc (exMove 2) 5 exNavEst (readArc l) = some (.ok [.msr e r g 1 [0]]) ∧
      estState (exMove 2).plus e = ⟨11, 21 / 2⟩ ∧ r.prefit = fun _ => 1 := by
  obtain ⟨e, r, g, h1, -, h2, h3, h4, h5, h6⟩ := exact_data_early
  refine ⟨_, exSimulated, fun n s e x h => by cases h; rfl, exSame 2, h2, h3, h4, e, r, g, ?_, h5, h6⟩
  rw [exRead]; exact h1

/-- The tracker of the batch example measures the epoch. -/
def exShotsB (_ : Unit) (_ : Unit) (e : Int) : Unit × Shot (Msr Unit Unit) := ((), .seen ⟨(), e, [((), (e : Rat))], false⟩)

theorem gen_of {srt : List (Msr N K) → List (Msr N K)} {measure : N → S → Int → S × Shot (Msr N K)} {fuel : Nat} {ns : List N}
    {configs : IMap N Sched.Cfg} {s s' : S} {l : List (Msr N K)} (h : devicesLoop measure fuel configs ns s [] = .ok (s', l)) :
    generateMeasurements srt measure fuel ns configs s = .ok (sort srt l) := by
  rw [generateMeasurements, h]

theorem exSimulatedB : generateMeasurements exSrt exShotsB 3 [()] [((), ⟨none, 9, some [⟨11, 20⟩]⟩)] () =
    .ok [⟨(), 11, [((), 11)], false⟩, ⟨(), 20, [((), 20)], false⟩] := by
  refine (gen_of (s' := ()) (l := [⟨(), 11, [((), 11)], false⟩, ⟨(), 20, [((), 20)], false⟩]) rfl).trans ?_
  show Gen.ok (Tracking.coalesce (exSrt _)) = _
  have : exSrt [(⟨(), 11, [((), 11)], false⟩ : Msr Unit Unit), ⟨(), 20, [((), 20)], false⟩] =
      [⟨(), 11, [((), 11)], false⟩, ⟨(), 20, [((), 20)], false⟩] := by
    refine List.mergeSort_of_pairwise ?_
    simp [Tracking.leKey]
  rw [this]
  simp [Tracking.coalesce]

/-- The hypotheses of `simulated_batch_partial` are met, by the data of `exact_batch_early`. -/
example (solver : Solver) (it) (h : estimate (exMoveB solver 1) 5 ⟨0, 0, none⟩ exMoveData = some (.ok it)) :
    it.est = ⟨0, 0, none⟩ ∧ it.converged = true ∧ it.iter = 1 ∧ it.corr = some 0 ∧ it.rms = some 0 := by
  have hr : [(⟨(), 11, [((), 11)], false⟩ : Msr Unit Unit), ⟨(), 20, [((), 20)], false⟩].map read = exMoveData := by
    simp [read, exMoveData]
  refine simulated_batch_partial exSrt_sorts (measure := exShotsB) (value := fun _ e => [((), (e : Rat))])
    (fun n s e x h => by cases h; rfl) (fun n e => by simp) exSimulatedB (exMoveB solver 1) (exCfg_chol solver 1 id 1)
    (fun t => (t : ℝ)) ?_ 1 (exMoveB_follows _ _) (fun y => by simp [exMoveB, Blse.exCfg]) le_rfl (one_dvd _) (one_dvd _)
    (by norm_num [exMoveB, Blse.exCfg]) (by simp [exMoveB, Blse.exCfg]) (by simp [exMoveB, Blse.exCfg]) ⟨0, 0, none⟩ (by simp)
    (fun n c _ => ⟨one_dvd _, fun _ _ _ _ => one_dvd _⟩) 5 it (by rw [hr]; exact h)
  intro n dev hd y hy comp hm k v hv
  have hd' : dev = Blse.exDev id := by
    have : some (Blse.exDev id) = some dev := hd
    simpa using this.symm
  subst hd'
  simp only [Blse.exDev, id, Kalman.Res.ok.injEq, Option.some.injEq] at hm
  subst hm
  simp only [Tracking.get, if_true, Option.some.injEq] at hv
  subst hv
  simp [look, hy]

end Verif.Simulated
