import Verif.Device.PosLink
import Verif.Ground.Measure
/-!
# Links between spacecraft over an integration time
-/
namespace Verif.Device
open Verif.Noise Verif.Spacecraft
open Verif.Mc (Out)
open Verif.Ground (meanValue find_zip)

variable {S Fr : Type}

/-- `measure` of the link, interlink/trk_device.rs:106-178. `traj` is `Traj::at` on the trajectory of the receiver; both instants are
computed without noise. -/
noncomputable def Link.measure (g : Rng S) (durOf : ℝ → Int) (l : Link Fr) (traj : Int → Option (Craft ℝ Fr)) (t : Int)
    (rng : Option S) : Out (Option Msr × Station × Option S) :=
  match l.st.integ with
  | some integ =>
    (traj (t - integ)).elim (.ok (none, l.st, rng)) fun rx0 => (traj t).elim (.ok (none, l.st, rng)) fun rx1 =>
      (l.instant g durOf rx0 none).bind fun m0 => (l.instant g durOf rx1 none).bind fun m1 =>
        m0.1.elim (.ok (none, l.st, rng)) fun m0 => m1.1.elim (.ok (none, l.st, rng)) fun m1 =>
          (l.st.noisesAt g (t - integ / 2) rng).bind fun q =>
            (fill (meanValue m0.data m1.data) l.st.types q.1.2 []).bind fun d =>
              .ok (some ⟨l.st.name, t + durOf q.1.1, d, false⟩, q.2.1, q.2.2)
  | none => (traj t).elim .err fun rx => l.instant g durOf rx rng

/-- `measurement_covar` of the link, interlink/trk_device.rs:240-249: no noise at all panics. -/
def Link.covar (l : Link Fr) (k : MsrType) : Out ℝ :=
  l.st.noises.elim .panic fun m => (find k m).elim .err fun n => .ok n.covariance

/-- `measurement_bias` of the link, interlink/trk_device.rs:251-265. -/
def Link.biasOf (l : Link Fr) (k : MsrType) : Out ℝ :=
  l.st.noises.elim .panic fun m => (find k m).elim .err fun n => .ok (n.bias.elim 0 fun b => b.const.getD 0)

/-- `measurement_covar` of the link as the device of a ground asset, groundpnt/trk_device.rs:181-195: no noise at all is an error. -/
def Link.covarGround (l : Link Fr) (k : MsrType) : Out ℝ :=
  l.st.noises.elim .err fun m => (find k m).elim .err fun n => .ok n.covariance

/-- `location` of the link, interlink/trk_device.rs:102-104: outside of the trajectory it panics; `to'` is `transform_to`. -/
def Link.location (l : Link Fr) (to' : Craft ℝ Fr → Option (Craft ℝ Fr)) (t : Int) : Out (Craft ℝ Fr) :=
  (l.at' t).elim .panic fun x => (to' x).elim .err .ok

/-- `location` of the link for a ground asset, groundpnt/trk_device.rs:46-56. -/
def Link.locationGround (l : Link Fr) (to' : Craft ℝ Fr → Option (Craft ℝ Fr)) (t : Int) : Out (Craft ℝ Fr) :=
  (l.at' t).elim .err fun x => (to' x).elim .err .ok

/-! ## Specification -/

/-- What the link sees at an instant, from the transmitter `tx` and the receiver `r` in its frame: the distance, and for the Doppler
the velocity of the receiver along the line of sight. -/
noncomputable def linkSeen (tx r : Craft ℝ Fr) : MsrType → Option ℝ
  | .range => some (distance r.pos tx.pos)
  | .doppler => some (dot3 (r.pos - tx.pos) r.vel / distance r.pos tx.pos)
  | _ => none

/-- The link sees the receiver: there are ephemerides of both, and nothing between. -/
def Sees (l : Link Fr) (rx tx r : Craft ℝ Fr) : Prop :=
  l.at' rx.epoch = some tx ∧ l.los tx rx = some false ∧ l.toTx rx tx.frame = some r

/-! ## Theorems -/

/-- C239, the part which holds. Over an integration time, the measurement is at its end; each value is the mean of what the link sees at both ends, plus the
noise over the square root of two, drawn at the middle. There is none, and neither noises nor generator change, when the trajectory of the
receiver lacks an end or the line of sight is obstructed at one. Missing: the Doppler of each end, which is not the rate of the distance
(`link_doppler_wrong`), and the variance. -/
theorem link_integrated_partial (g : Rng S) (durOf : ℝ → Int) (l : Link Fr) (hn : l.st.types.Nodup) (traj : Int → Option (Craft ℝ Fr))
    (integ : Int) (hi : l.st.integ = some integ) (t : Int) (rng rng' : Option S) (msr : Option Msr) (st' : Station)
    (h : l.measure g durOf traj t rng = .ok (msr, st', rng')) :
    ((traj (t - integ) = none ∨ traj t = none) → msr = none ∧ st' = l.st ∧ rng' = rng) ∧
    ∀ rx0 rx1, traj (t - integ) = some rx0 → traj t = some rx1 → ∃ tx0 tx1 hid0 hid1,
      l.at' rx0.epoch = some tx0 ∧ l.los tx0 rx0 = some hid0 ∧ l.at' rx1.epoch = some tx1 ∧ l.los tx1 rx1 = some hid1 ∧
      ((hid0 = true ∨ hid1 = true) → msr = none ∧ st' = l.st ∧ rng' = rng) ∧
      (hid0 = false → hid1 = false → ∃ r0 r1 stamp ns vs, Sees l rx0 tx0 r0 ∧ Sees l rx1 tx1 r1 ∧
        NoisesDrawn g l.st (t - integ / 2) rng stamp ns st' rng' ∧
        msr = some ⟨l.st.name, t + durOf stamp, l.st.types.zip vs, false⟩ ∧ vs.length = l.st.types.length ∧
        ∀ (i : Nat) k, l.st.types[i]? = some k → ∃ n v0 v1, ns[i]? = some n ∧ linkSeen tx0 r0 k = some v0 ∧ linkSeen tx1 r1 k = some v1 ∧
          vs[i]? = some ((v0 + v1) / 2 + n / Real.sqrt 2)) := by
  unfold Link.measure at h
  rw [hi] at h
  simp only at h
  constructor
  · rintro (hc | hc)
    · simp only [hc, Option.elim_none] at h
      cases h; exact ⟨rfl, rfl, rfl⟩
    · cases h0 : traj (t - integ) with
      | none => simp only [h0, Option.elim_none] at h; cases h; exact ⟨rfl, rfl, rfl⟩
      | some r => simp only [h0, Option.elim_some, hc, Option.elim_none] at h; cases h; exact ⟨rfl, rfl, rfl⟩
  · intro rx0 rx1 e0 e1
    simp only [e0, e1, Option.elim_some] at h
    obtain ⟨⟨m0, s0, g0⟩, h0, h⟩ := bind_ok.1 h
    obtain ⟨⟨m1, s1, g1⟩, h1, h⟩ := bind_ok.1 h
    obtain ⟨tx0, hid0, p0, q0, r0, t0⟩ := link_partial g durOf l hn s0 rx0 none g0 m0 h0
    obtain ⟨tx1, hid1, p1, q1, r1, t1⟩ := link_partial g durOf l hn s1 rx1 none g1 m1 h1
    refine ⟨tx0, tx1, hid0, hid1, p0, q0, p1, q1, ?_, ?_⟩
    · rintro (hc | hc)
      · rw [(r0 hc).1] at h
        cases h; exact ⟨rfl, rfl, rfl⟩
      · rw [(r1 hc).1] at h
        cases m0 <;> (cases h; exact ⟨rfl, rfl, rfl⟩)
    · intro c0 c1
      obtain ⟨y0, a0, u0, n0, v0, k0, rfl, l0, w0⟩ := t0 c0
      obtain ⟨y1, a1, u1, n1, v1, k1, rfl, l1, w1⟩ := t1 c1
      simp only [Option.elim_some] at h
      obtain ⟨q, hq, h⟩ := bind_ok.1 h
      obtain ⟨d, hd, h⟩ := bind_ok.1 h
      cases h
      obtain ⟨vs, f1, f2, f3⟩ := fill_ok hn (by simp) hd
      refine ⟨y0, y1, q.1.1, q.1.2, vs, ⟨p0, c0 ▸ q0, a0⟩, ⟨p1, c1 ▸ q1, a1⟩, noisesAt_spec hn hq, by rw [f2]; rfl, f1, ?_⟩
      intro i k hk
      obtain ⟨n, v, x1, x2, x3⟩ := f3 i k hk
      have seen : ∀ {tx r : Craft ℝ Fr} {ns' vs' : List ℝ} {st0 : Station} {sg : Option S} {u : ℝ} {e : Int}, NoisesDrawn g l.st e none u ns' st0 sg →
          (∃ n, ns'[i]? = some n ∧ (k = .range ∧ vs'[i]? = some (distance r.pos tx.pos + n) ∨
            k = .doppler ∧ vs'[i]? = some (dot3 (r.pos - tx.pos) r.vel / distance r.pos tx.pos + n))) →
          ∃ v, linkSeen tx r k = some v ∧ vs'[i]? = some v := by
        rintro tx r ns' vs' st0 sg u e hN ⟨n', hn', hv⟩
        have hz : n' = 0 := by
          rw [hN.2.1] at hn'
          exact (List.mem_replicate.1 (List.mem_of_getElem? hn')).2
        subst hz
        rcases hv with ⟨rfl, hv⟩ | ⟨rfl, hv⟩
        · exact ⟨_, rfl, by rw [hv, add_zero]⟩
        · exact ⟨_, rfl, by rw [hv, add_zero]⟩
      obtain ⟨z0, ys0, yv0⟩ := seen k0 (w0 i k hk)
      obtain ⟨z1, ys1, yv1⟩ := seen k1 (w1 i k hk)
      rw [meanValue, find_zip hn l0 i k _ hk yv0, find_zip hn l1 i k _ hk yv1] at x3
      simp only [Option.elim_some] at x3
      refine ⟨n, z0, z1, x1, ys0, ys1, ?_⟩
      rw [x2]
      cases x3
      congr 1
      ring

/-- C239. Without an integration time, `measure` is the instantaneous measurement of the receiver at that epoch; a receiver without a state is then an
error, whereas with an integration time it gives no measurement. -/
theorem link_measure_instant (g : Rng S) (durOf : ℝ → Int) (l : Link Fr) (traj : Int → Option (Craft ℝ Fr)) (hi : l.st.integ = none) (t : Int)
    (rng : Option S) : (∀ rx, traj t = some rx → l.measure g durOf traj t rng = l.instant g durOf rx rng) ∧
    (traj t = none → l.measure g durOf traj t rng = .err) := by
  unfold Link.measure
  rw [hi]
  constructor
  · intro rx hrx; simp [hrx]
  · intro h; simp [h]

/-- C239. With an integration time, a transmitter without a state at the first end is an error. -/
theorem link_transmitter_missing (g : Rng S) (durOf : ℝ → Int) (l : Link Fr) (traj : Int → Option (Craft ℝ Fr)) (integ : Int)
    (hi : l.st.integ = some integ) (t : Int) (rng : Option S) (rx0 rx1 : Craft ℝ Fr) (h0 : traj (t - integ) = some rx0) (h1 : traj t = some rx1)
    (hm : l.at' rx0.epoch = none) : l.measure g durOf traj t rng = .err := by
  unfold Link.measure
  simp [hi, h0, h1, Link.instant, hm, Out.bind]

/-- C239, refuted. The Doppler over an integration time is not the change of distance over that time, even with the transmitter at rest: the receiver
passes it at a distance of 3 km with 4 km/s, from the closest point on, and in the second after it moves away by 2 km, but the mean of the rates is 8/5 km/s. -/
theorem integrated_doppler_false (g : Rng S) (durOf : ℝ → Int) (hd : durOf 0 = 0) : ∃ (l : Link Unit) (traj : Int → Option (Craft ℝ Unit)) (m : Msr) (st' : Station),
    l.st.types.Nodup ∧ l.st.integ = some 1000000000 ∧ (∀ t tx, l.at' t = some tx → tx.pos = 0 ∧ tx.vel = 0) ∧
      (∀ t rx, traj t = some rx → rx.epoch = t ∧ rx.pos = ![3, 4 * (t / 1000000000 : ℝ), 0] ∧ rx.vel = ![0, 4, 0]) ∧
      l.measure g durOf traj 1000000000 (none : Option S) = .ok (some m, st', none) ∧ find .doppler m.data = some (8 / 5) ∧
      (distance ![3, 4, 0] 0 - distance ![3, 0, 0] 0) / 1 = 2 := by
  have d1 : distance ![3, 4, 0] 0 = 5 := by
    rw [distance, show ((![3, 4, 0] : Fin 3 → ℝ) 0 - (0 : Fin 3 → ℝ) 0) ^ 2 + ((![3, 4, 0] : Fin 3 → ℝ) 1 - (0 : Fin 3 → ℝ) 1) ^ 2 +
      ((![3, 4, 0] : Fin 3 → ℝ) 2 - (0 : Fin 3 → ℝ) 2) ^ 2 = 5 ^ 2 by simp; norm_num]
    exact Real.sqrt_sq (by norm_num)
  have d0 : distance ![3, 0, 0] 0 = 3 := by
    rw [distance, show ((![3, 0, 0] : Fin 3 → ℝ) 0 - (0 : Fin 3 → ℝ) 0) ^ 2 + ((![3, 0, 0] : Fin 3 → ℝ) 1 - (0 : Fin 3 → ℝ) 1) ^ 2 +
      ((![3, 0, 0] : Fin 3 → ℝ) 2 - (0 : Fin 3 → ℝ) 2) ^ 2 = 3 ^ 2 by simp]
    exact Real.sqrt_sq (by norm_num)
  have dd1 : norm3 (![3, 4, 0] - 0) = 5 := by rw [norm3_sub, d1]
  have dd0 : norm3 (![3, 0, 0] - 0) = 3 := by rw [norm3_sub, d0]
  let tx : Int → Craft ℝ Unit := fun t => ⟨(), t, 0, 0, 100, 50, 0, 1, 1, 1, 2, none, .coast, none, none⟩
  let rx : Int → Craft ℝ Unit := fun t => ⟨(), t, ![3, 4 * (t / 1000000000 : ℝ), 0], ![0, 4, 0], 100, 50, 0, 1, 1, 1, 2, none, .coast, none, none⟩
  let st : Station := ((Station.fromPoint "A").withType .doppler .zero).withInteg (some 1000000000)
  let l : Link Unit := ⟨st, fun t => some (tx t), fun _ _ => some false, fun x _ => some x⟩
  refine ⟨l, fun t => some (rx t), ⟨"A", 1000000000, [(.doppler, 8 / 5)], false⟩, st, ?_, rfl, ?_, ?_, ?_, ?_, ?_⟩
  · exact List.nodup_singleton _
  · rintro t x hx; cases hx; exact ⟨rfl, rfl⟩
  · rintro t x hx; cases hx; exact ⟨rfl, rfl, rfl⟩
  · have ht : st.types = [.doppler] := rfl
    have hin : st.integ = some 1000000000 := rfl
    have p0 : (rx 0).pos = ![3, 0, 0] := by simp [rx]
    have p1 : (rx 1000000000).pos = ![3, 4, 0] := by simp [rx]
    have b0 : dot3 (![3, 0, 0] - 0) ![0, 4, 0] = 0 := by simp [dot3]
    have b1 : dot3 (![3, 4, 0] - 0) ![0, 4, 0] = 16 := by simp [dot3]; norm_num
    have i0 : l.instant g durOf (rx 0) none = .ok (some ⟨"A", 0, [(.doppler, 0)], false⟩, st, (none : Option S)) := by
      simp only [Link.instant, l, Option.elim_some, Bool.false_eq_true, if_false, Station.noisesAt, Option.elim_none, ht, Out.bind, List.length_cons,
        List.length_nil, List.replicate, fill, linkValue, p0]
      rw [show (tx (rx 0).epoch).pos = 0 from rfl, show (rx 0).vel = ![0, 4, 0] from rfl, b0, hd]
      simp [upsert, rx, st, Station.withInteg, Station.withType, Station.fromPoint]
    have i1 : l.instant g durOf (rx 1000000000) none = .ok (some ⟨"A", 1000000000, [(.doppler, 16 / 5)], false⟩, st, (none : Option S)) := by
      simp only [Link.instant, l, Option.elim_some, Bool.false_eq_true, if_false, Station.noisesAt, Option.elim_none, ht, Out.bind, List.length_cons,
        List.length_nil, List.replicate, fill, linkValue, p1]
      rw [show (tx (rx 1000000000).epoch).pos = 0 from rfl, show (rx 1000000000).vel = ![0, 4, 0] from rfl, b1, dd1, hd]
      simp [upsert, rx, st, Station.withInteg, Station.withType, Station.fromPoint]
    simp only [Link.measure, show l.st.integ = some 1000000000 from rfl, Option.elim_some, sub_self]
    rw [i0, i1]
    simp only [Out.bind, Option.elim_some, show l.st = st from rfl, Station.noisesAt, Option.elim_none, ht, List.length_cons,
        List.length_nil, List.replicate, fill, meanValue, find, if_true, hd]
    simp [upsert, st, Station.withInteg, Station.withType, Station.fromPoint]
    norm_num
  · simp [find]
  · rw [d1, d0]; norm_num

/-- C239, refuted. A link without noises measures when it has no generator, but its covariance and its bias panic, as the filter asks for them; for a ground
asset the covariance is an error and the bias panics as well. -/
theorem link_covar_panics (l : Link Fr) (h : l.st.noises = none) (k : MsrType) :
    l.covar k = .panic ∧ l.biasOf k = .panic ∧ l.covarGround k = .err := by
  simp [Link.covar, Link.biasOf, Link.covarGround, h]

/-- C239. With noises, the covariances are those of the noise of the type for both uses of the link, and a type without one is an error. -/
theorem link_covar (l : Link Fr) (m : List (MsrType × Stoch)) (h : l.st.noises = some m) (k : MsrType) :
    (∀ n, find k m = some n → l.covar k = .ok n.covariance ∧ l.covarGround k = .ok n.covariance) ∧ (find k m = none → l.covar k = .err ∧ l.biasOf k = .err) := by
  constructor
  · intro n hn; simp [Link.covar, Link.covarGround, h, hn]
  · intro hn; simp [Link.covar, Link.biasOf, h, hn]

/-- C239, refuted. Outside of its trajectory the location of a transmitter panics for a spacecraft and is an error for a ground asset. -/
theorem link_location_panics (l : Link Fr) (to' : Craft ℝ Fr → Option (Craft ℝ Fr)) (t : Int) (h : l.at' t = none) :
    l.location to' t = .panic ∧ l.locationGround to' t = .err := by
  simp [Link.location, Link.locationGround, h]

/-! ## The hypotheses are met -/

/-- The link of the counterexample measures, so that the theorem applies to it. -/
example (g : Rng ℕ) : ∃ (l : Link Unit) (traj : Int → Option (Craft ℝ Unit)) (m : Msr), find .doppler m.data = some (8 / 5) ∧
    ∃ stamp ns st', NoisesDrawn g l.st (1000000000 - 1000000000 / 2) none stamp ns st' none := by
  obtain ⟨l, traj, m, st', hn, hi, h1, h2, h3, h4, -⟩ := integrated_doppler_false (S := ℕ) g (fun _ => 0) rfl
  have h := link_integrated_partial g _ l hn traj _ hi _ _ _ _ _ h3
  cases ha : traj (1000000000 - 1000000000) with
  | none => exact absurd (h.1 (.inl ha)).1 (by simp)
  | some a =>
    cases hb : traj 1000000000 with
    | none => exact absurd (h.1 (.inr hb)).1 (by simp)
    | some b =>
      obtain ⟨tx0, tx1, hid0, hid1, -, -, -, -, k1, k2⟩ := h.2 a b ha hb
      cases hid0 with
      | true => exact absurd (k1 (.inl rfl)).1 (by simp)
      | false =>
        cases hid1 with
        | true => exact absurd (k1 (.inr rfl)).1 (by simp)
        | false =>
          obtain ⟨r0, r1, stamp, ns, vs, -, -, k3, -⟩ := k2 rfl rfl
          exact ⟨l, traj, m, h4, stamp, ns, st', k3⟩

example := link_covar_panics (⟨⟨"A", [.range], none, none, none⟩, fun _ => some craft1, fun _ _ => some false, fun x _ => some x⟩ : Link Unit) rfl .range
example := link_covar link0 _ rfl .range
example := link_location_panics (⟨station0, fun _ => none, fun _ _ => some false, fun x _ => some x⟩ : Link Unit) some 3 rfl
example (g : Rng ℕ) := link_transmitter_missing g (fun _ => 0)
  (⟨station0.withInteg (some 60), fun _ => none, fun _ _ => some false, fun x _ => some x⟩ : Link Unit) (fun _ => some craft0) 60 rfl 100 none craft0 craft0
  rfl rfl rfl
example (g : Rng ℕ) := (link_measure_instant g (fun _ => 0) link0 (fun _ => some craft0) rfl 100 none).1 craft0 rfl

end Verif.Device
