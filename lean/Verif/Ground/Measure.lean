import Verif.Ground.Model
import Verif.Device.Measure
/-!
# The measurements of an asset
-/
namespace Verif.Ground
open Verif.Device Verif.Noise Verif.Spacecraft
open Verif.Mc (Out)

variable {S Fr : Type}

/-- Specification: what is seen of a transmitter from the location of an asset. -/
def sight (a : Aer) : MsrType → Option ℝ
  | .range => some a.range
  | .doppler => some a.rate
  | _ => none

theorem txValue_sight (a : Aer) (k : MsrType) (n : ℝ) : txValue a k n = (sight a k).elim .panic fun v => .ok (v + n) := by
  cases k <;> rfl

/-- C183. What an instantaneous measurement is. If the transmitter is below the horizon of the asset there is none, and
neither the noises nor the generator change. Otherwise it is at the epoch of the asset plus the noise of the timestamp; it has
the enabled types, in order and no other, each with the range or range rate seen from the location plus
its noise; noises are drawn as specified by `NoisesDrawn`. -/
theorem instant_ground (g : Rng S) (durOf : ℝ → Int) (tx : Tx Fr) (hn : tx.st.types.Nodup) (rx : Asset ℝ Fr) (rng rng' : Option S)
    (msr : Option Msr) (st' : Station) (h : tx.instant g durOf rx rng = .ok (msr, st', rng')) :
    ∃ veh a, tx.at' rx.epoch = some veh ∧ tx.aer veh rx.lat rx.lon rx.height rx.frame = some a ∧
      (a.mask < 0 → msr = none ∧ st' = tx.st ∧ rng' = rng) ∧
      (0 ≤ a.mask → ∃ stamp ns vs, NoisesDrawn g tx.st rx.epoch rng stamp ns st' rng' ∧
        msr = some ⟨"GroundAsset", rx.epoch + durOf stamp, tx.st.types.zip vs, false⟩ ∧ vs.length = tx.st.types.length ∧
        ∀ (i : Nat) k, tx.st.types[i]? = some k → ∃ n v, ns[i]? = some n ∧ sight a k = some v ∧ vs[i]? = some (v + n)) := by
  obtain ⟨veh, hv, h⟩ := elim_err.1 h
  obtain ⟨a, ha, h⟩ := elim_err.1 h
  refine ⟨veh, a, hv, ha, ?_, ?_⟩
  · intro hc
    rw [if_pos hc] at h
    cases h; exact ⟨rfl, rfl, rfl⟩
  · intro h1
    rw [if_neg (not_lt.2 h1)] at h
    obtain ⟨q, hq, h⟩ := bind_ok.1 h
    obtain ⟨d, hd, h⟩ := bind_ok.1 h
    cases h
    obtain ⟨vs, e1, e2, e3⟩ := fill_ok hn (by simp) hd
    refine ⟨q.1.1, q.1.2, vs, noisesAt_spec hn hq, by rw [e2]; rfl, e1, ?_⟩
    intro i k hk
    obtain ⟨n, v, f1, f2, f3⟩ := e3 i k hk
    rw [txValue_sight] at f3
    cases hs : sight a k with
    | none => rw [hs] at f3; cases f3
    | some w =>
      rw [hs] at f3
      cases f3
      exact ⟨n, w, f1, rfl, f2⟩

theorem find_zip {ks : List MsrType} (hn : ks.Nodup) : ∀ {vs : List ℝ}, vs.length = ks.length → ∀ (i : Nat) k v, ks[i]? = some k →
    vs[i]? = some v → find k (ks.zip vs) = some v := by
  induction ks with
  | nil => simp
  | cons k0 ks ih =>
    intro vs hl i k v hk hv
    cases vs with
    | nil => simp at hl
    | cons v0 vs =>
      rw [List.zip_cons_cons, find]
      cases i with
      | zero => cases hk; cases hv; simp
      | succ i =>
        simp only [List.getElem?_cons_succ] at hk hv
        have hmem := List.mem_of_getElem? hk
        have hne : k0 ≠ k := by
          intro e
          rw [List.nodup_cons] at hn
          exact hn.1 (e ▸ hmem)
        rw [if_neg hne]
        exact ih (List.nodup_cons.1 hn).2 (by simpa using hl) i k v hk hv

/-- C184. What a measurement over an integration time is: at its end, each value the mean of what is seen at both
ends plus the noise over the square root of two, the noises being drawn at the middle. There is none when the trajectory of
the asset does not have both ends or when the transmitter is below the horizon at one of them, and then neither the noises
nor the generator change. -/
theorem integrated_ground (g : Rng S) (durOf : ℝ → Int) (tx : Tx Fr) (hn : tx.st.types.Nodup) (traj : Int → Option (Asset ℝ Fr))
    (integ : Int) (hi : tx.st.integ = some integ) (t : Int) (rng rng' : Option S) (msr : Option Msr) (st' : Station)
    (h : tx.measure g durOf traj t rng = .ok (msr, st', rng')) :
    ((traj (t - integ) = none ∨ traj t = none) → msr = none ∧ st' = tx.st ∧ rng' = rng) ∧
    ∀ rx0 rx1, traj (t - integ) = some rx0 → traj t = some rx1 → ∃ veh0 veh1 a0 a1,
      tx.at' rx0.epoch = some veh0 ∧ tx.aer veh0 rx0.lat rx0.lon rx0.height rx0.frame = some a0 ∧
      tx.at' rx1.epoch = some veh1 ∧ tx.aer veh1 rx1.lat rx1.lon rx1.height rx1.frame = some a1 ∧
      ((a0.mask < 0 ∨ a1.mask < 0) → msr = none ∧ st' = tx.st ∧ rng' = rng) ∧
      (0 ≤ a0.mask → 0 ≤ a1.mask → ∃ stamp ns vs, NoisesDrawn g tx.st (t - integ / 2) rng stamp ns st' rng' ∧
        msr = some ⟨"GroundAsset", t + durOf stamp, tx.st.types.zip vs, false⟩ ∧ vs.length = tx.st.types.length ∧
        ∀ (i : Nat) k, tx.st.types[i]? = some k → ∃ n v0 v1, ns[i]? = some n ∧ sight a0 k = some v0 ∧ sight a1 k = some v1 ∧
          vs[i]? = some ((v0 + v1) / 2 + n / Real.sqrt 2)) := by
  unfold Tx.measure at h
  rw [hi] at h
  simp only at h
  constructor
  · rintro (hc | hc)
    · simp only [hc, Option.elim_none] at h
      cases h; exact ⟨rfl, rfl, rfl⟩
    · cases h0 : traj (t - integ) with
      | none => simp only [h0, Option.elim_none] at h; cases h; exact ⟨rfl, rfl, rfl⟩
      | some r => simp only [h0, Option.elim_some, hc, Option.elim_none] at h; cases h; exact ⟨rfl, rfl, rfl⟩
  · intro rx0 rx1 e0 e1
    simp only [e0, e1, Option.elim_some] at h
    obtain ⟨⟨m0, s0, g0⟩, h0, h⟩ := bind_ok.1 h
    obtain ⟨⟨m1, s1, g1⟩, h1, h⟩ := bind_ok.1 h
    obtain ⟨veh0, a0, p0, q0, r0, t0⟩ := instant_ground g durOf tx hn rx0 none g0 m0 s0 h0
    obtain ⟨veh1, a1, p1, q1, r1, t1⟩ := instant_ground g durOf tx hn rx1 none g1 m1 s1 h1
    refine ⟨veh0, veh1, a0, a1, p0, q0, p1, q1, ?_, ?_⟩
    · rintro (hc | hc)
      · rw [(r0 hc).1] at h
        cases h; exact ⟨rfl, rfl, rfl⟩
      · rw [(r1 hc).1] at h
        cases m0 <;> (cases h; exact ⟨rfl, rfl, rfl⟩)
    · intro c0 c1
      obtain ⟨u0, n0, v0, k0, rfl, l0, w0⟩ := t0 c0
      obtain ⟨u1, n1, v1, k1, rfl, l1, w1⟩ := t1 c1
      simp only [Option.elim_some] at h
      obtain ⟨q, hq, h⟩ := bind_ok.1 h
      obtain ⟨d, hd, h⟩ := bind_ok.1 h
      cases h
      obtain ⟨vs, f1, f2, f3⟩ := fill_ok hn (by simp) hd
      refine ⟨q.1.1, q.1.2, vs, noisesAt_spec hn hq, by rw [f2]; rfl, f1, ?_⟩
      intro i k hk
      obtain ⟨n, v, x1, x2, x3⟩ := f3 i k hk
      obtain ⟨y0, z0, yn0, ys0, yv0⟩ := w0 i k hk
      obtain ⟨y1, z1, yn1, ys1, yv1⟩ := w1 i k hk
      have zero0 : y0 = 0 := by
        rw [k0.2.1] at yn0
        exact ((List.mem_replicate.1 (List.mem_of_getElem? yn0)).2)
      have zero1 : y1 = 0 := by
        rw [k1.2.1] at yn1
        exact ((List.mem_replicate.1 (List.mem_of_getElem? yn1)).2)
      rw [meanValue, find_zip hn l0 i k _ hk yv0, find_zip hn l1 i k _ hk yv1] at x3
      simp only [Option.elim_some] at x3
      refine ⟨n, z0, z1, x1, ys0, ys1, ?_⟩
      rw [x2]
      cases x3
      congr 1
      rw [zero0, zero1]
      ring

/-- C184. Without an integration time, `measure` is the instantaneous measurement of the asset at that epoch. -/
theorem measure_instant_ground (g : Rng S) (durOf : ℝ → Int) (tx : Tx Fr) (traj : Int → Option (Asset ℝ Fr)) (hi : tx.st.integ = none)
    (t : Int) (rng : Option S) : (∀ rx, traj t = some rx → tx.measure g durOf traj t rng = tx.instant g durOf rx rng) ∧
    (traj t = none → tx.measure g durOf traj t rng = .err) := by
  unfold Tx.measure
  rw [hi]
  constructor
  · intro rx hrx; simp [hrx]
  · intro h; simp [h]

/-- C185, for devices of ranges and Dopplers. An instantaneous measurement is neither an error nor a panic when the
trajectory of the transmitter covers the epoch, the ephemerides are there and, with a generator, the
noises are configured. Missing: the other types, for which it panics (`unsupported_panics`). -/
theorem instant_total_partial (g : Rng S) (durOf : ℝ → Int) (tx : Tx Fr) (hc : Consistent tx.st) (rx : Asset ℝ Fr) (rng : Option S)
    (veh : Craft ℝ Fr) (hv : tx.at' rx.epoch = some veh) (a : Aer) (ha : tx.aer veh rx.lat rx.lon rx.height rx.frame = some a)
    (hk : ∀ k ∈ tx.st.types, k = .range ∨ k = .doppler) (hr : rng.isSome → tx.st.noises.isSome) :
    ∃ r, tx.instant g durOf rx rng = .ok r := by
  unfold Tx.instant
  rw [hv, Option.elim_some, ha, Option.elim_some]
  split
  · exact ⟨_, rfl⟩
  · obtain ⟨q, hq⟩ := noisesAt_total g hc rx.epoch rng hr
    have hlen : q.1.2.length = tx.st.types.length := by
      have := noisesAt_spec hc.types hq
      cases rng with
      | none => rw [this.2.1]; simp
      | some s => obtain ⟨m, s1, -, -, -, h, -⟩ := this; exact h
    obtain ⟨d, hd⟩ := fill_total (ks₀ := tx.st.types) (f := txValue a) (d := []) (fun k n => by
      by_cases hm : k ∈ tx.st.types
      · rcases hk k hm with rfl | rfl <;> exact ⟨_, fun _ => rfl⟩
      · exact ⟨0, fun hc => absurd hc hm⟩) (fun _ h => h) hlen
    rw [hq, Out.bind, hd, Out.bind]
    exact ⟨_, rfl⟩

theorem fill_panics {f : MsrType → ℝ → Out ℝ} (k : MsrType) (hf : ∀ n, f k n = .panic) (hf' : ∀ j n, f j n ≠ .err) :
    ∀ {ks : List MsrType} {ns : List ℝ} {d : List (MsrType × ℝ)}, k ∈ ks → fill f ks ns d = .panic
  | [], _, _, h => by simp at h
  | _ :: _, [], _, _ => rfl
  | j :: ks, n :: ns, d, h => by
    rw [fill]
    rcases List.mem_cons.1 h with rfl | h
    · rw [hf]; rfl
    · cases hj : f j n with
      | ok v => exact fill_panics k hf hf' h
      | err => exact absurd hj (hf' j n)
      | panic => rfl

/-- C185 is false: with any other type enabled (an azimuth for example), a measurement of a transmitter above the
horizon is a panic, whatever the other types. -/
theorem unsupported_panics (g : Rng S) (durOf : ℝ → Int) (tx : Tx Fr) (rx : Asset ℝ Fr) (veh : Craft ℝ Fr)
    (hv : tx.at' rx.epoch = some veh) (a : Aer) (ha : tx.aer veh rx.lat rx.lon rx.height rx.frame = some a) (hm : 0 ≤ a.mask)
    (k : MsrType) (hk : k ∈ tx.st.types) (hr : k ≠ .range) (hd : k ≠ .doppler) : tx.instant g durOf rx none = .panic := by
  unfold Tx.instant
  rw [hv, Option.elim_some, ha, Option.elim_some, if_neg (not_lt.2 hm)]
  have hf : ∀ n, txValue a k n = .panic := by intro n; cases k <;> simp_all [txValue]
  have hf' : ∀ j n, txValue a j n ≠ .err := by intro j n; cases j <;> simp [txValue]
  simp only [Station.noisesAt, Option.elim_none, Out.bind, fill_panics k hf hf' hk]

/-! ### The hypotheses are met -/

/-- A transmitter seen five units away, at rest. -/
noncomputable def seenTx (types : List MsrType) (integ : Option Int) : Tx Unit :=
  ⟨⟨"relay", types, integ, none, some (types.map fun k => (k, ⟨none, none⟩))⟩, fun t => some ⟨(), t, 0, 0, 0, 0, 0, 0, 0, 0, 0, none, .coast, none, none⟩,
   fun _ _ _ _ _ => some ⟨5, 1, 0, 30, 30, false⟩⟩

noncomputable def someAsset : Asset ℝ Unit := ⟨0, 0, 0, 0, 0, 0, 60, (), none⟩

theorem seen_some (g : Rng Unit) : ∃ r, (seenTx [.range, .doppler] none).instant g (fun _ => 0) someAsset none = .ok r :=
  instant_total_partial g (fun _ => 0) (seenTx [.range, .doppler] none)
    ⟨by simp [seenTx], by simp [seenTx], by intro k; simp [seenTx]⟩ someAsset none _ rfl _ rfl (by simp [seenTx]) (by simp)

example (g : Rng Unit) : ∃ msr st' rng', (seenTx [.range, .doppler] none).instant g (fun _ => 0) someAsset none = .ok (msr, st', rng') ∧
    msr.isSome := by
  obtain ⟨⟨msr, st', rng'⟩, hr⟩ := seen_some g
  obtain ⟨veh, a, -, ha, -, h⟩ := instant_ground g _ _ (by simp [seenTx]) _ none rng' msr st' hr
  cases ha
  obtain ⟨_, _, _, _, h, _⟩ := h (by norm_num)
  exact ⟨msr, st', rng', hr, by rw [h]; rfl⟩

example (g : Rng Unit) : (seenTx [.range, .azimuth] none).instant g (fun _ => 0) someAsset none = .panic :=
  unsupported_panics g _ _ _ _ rfl _ rfl (by norm_num) .azimuth (by simp [seenTx]) (by decide) (by decide)

example (g : Rng Unit) : ∃ msr st' rng', (seenTx [.range, .doppler] (some 10)).measure g (fun _ => 0)
    (fun t => some ⟨0, 0, 0, 0, 0, 0, t, (), none⟩) 60 none = .ok (msr, st', rng') ∧ msr.isSome := by
  have hlt : ¬ ((30 : ℝ) < 0) := by norm_num
  simp [Tx.measure, Tx.instant, seenTx, Out.bind, Station.noisesAt, hlt, fill, txValue, meanValue, upsert, find, List.replicate]

example (g : Rng Unit) := (measure_instant_ground g (fun _ => 0) (seenTx [.range, .doppler] none)
  (fun t => some ⟨0, 0, 0, 0, 0, 0, t, (), none⟩) rfl 60 none).1 _ rfl

example (g : Rng Unit) : ∃ vs, ∃ st' rng', (seenTx [.range, .doppler] (some 10)).measure g (fun _ => 0)
    (fun t => some ⟨0, 0, 0, 0, 0, 0, t, (), none⟩) 60 none = .ok (some ⟨"GroundAsset", 60, vs, false⟩, st', rng') := by
  obtain ⟨⟨msr, st', rng'⟩, hr⟩ : ∃ r, (seenTx [.range, .doppler] (some 10)).measure g (fun _ => 0)
      (fun t => some ⟨0, 0, 0, 0, 0, 0, t, (), none⟩) 60 none = .ok r := by
    have hlt : ¬ ((30 : ℝ) < 0) := by norm_num
    simp [Tx.measure, Tx.instant, seenTx, Out.bind, Station.noisesAt, hlt, fill, txValue, meanValue, upsert, find, List.replicate]
  obtain ⟨-, h⟩ := integrated_ground g _ _ (by simp [seenTx]) _ 10 rfl 60 none rng' msr st' hr
  obtain ⟨veh0, veh1, a0, a1, -, h0, -, h1, -, h⟩ := h _ _ rfl rfl
  cases h0
  cases h1
  obtain ⟨stamp, ns, vs, hd, hm, -⟩ := h (by norm_num) (by norm_num)
  exact ⟨_, _, _, hr.trans (by rw [hm]; rfl)⟩

end Verif.Ground
