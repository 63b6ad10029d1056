import Verif.Device.LinkBias
import Verif.Ground.Bias
/-!
# Constant biases over an integration time

For stations (nyx-core/src/od/ground_station/trk_device.rs) and for transmitters tracking ground assets
(nyx-core/src/od/groundpnt/trk_device.rs). The definitions are those of `Verif.Device.Model`, `Verif.Ground.Model` and `Verif.Ground.Bias`.
-/
namespace Verif.Ground
open Verif.Device Verif.Noise Verif.Spacecraft
open Verif.Mc (Out)

variable {S Fr : Type}

/-- A non zero bias divided by the square root of two is another one. -/
theorem scaled_bias_ne {v c : ℝ} (hc : c ≠ 0) : v + c / Real.sqrt 2 ≠ v + c := by
  intro h
  have hs : c / Real.sqrt 2 = c := by linarith
  have h2 : Real.sqrt 2 ≠ 0 := by positivity
  rw [div_eq_iff h2] at hs
  have h3 : Real.sqrt 2 = 1 := mul_left_cancel₀ hc (by linarith)
  have h4 := Real.sq_sqrt (show (0 : ℝ) ≤ 2 by norm_num)
  rw [h3] at h4
  norm_num at h4

/-- **C261, refuted over an integration time.** A transmitter measures, over an integration time, a type whose only noise is the constant
bias `c`: the bias in the observation of the asset is `c / √2`, while `measurement_bias` is `c`. -/
theorem asset_bias_integrated (g : Rng S) (durOf : ℝ → Int) (tx : Tx Fr) (hn : tx.st.types.Nodup) (m : List (MsrType × Stoch))
    (hm : tx.st.noises = some m) (hkeys : (m.map Prod.fst).Nodup) (k : MsrType) (hkt : k ∈ tx.st.types) (tau : Int) (c : ℝ)
    (hk : (k, constantBias tau c) ∈ m) (traj : Int → Option (Asset ℝ Fr)) (integ : Int) (hint : tx.st.integ = some integ) (t : Int) (s : S)
    (real exact' : Msr) (st1 st2 : Station) (s1 s2 : Option S)
    (hr : tx.measure g durOf traj t (some s) = .ok (some real, st1, s1)) (hc : tx.measure g durOf traj t none = .ok (some exact', st2, s2)) :
    ∃ y ye, find k real.data = some y ∧ find k exact'.data = some ye ∧ tx.biasOf k = .ok c ∧ y = ye + c / Real.sqrt 2 ∧
      (c ≠ 0 → y ≠ ye + c) := by
  have hfind : find k m = some (constantBias tau c) := find_of_mem hkeys hk
  obtain ⟨i, hi⟩ := List.mem_iff_getElem?.1 hkt
  have hb : tx.biasOf k = .ok c := by
    unfold Tx.biasOf
    rw [hm, Option.elim_some, hfind]
    rfl
  obtain ⟨a1, a2⟩ := integrated_ground g durOf tx hn traj integ hint t _ _ _ _ hr
  obtain ⟨-, b2⟩ := integrated_ground g durOf tx hn traj integ hint t _ _ _ _ hc
  cases h0 : traj (t - integ) with
  | none => exact absurd (a1 (.inl h0)).1 (by simp)
  | some rx0 =>
  cases h1 : traj t with
  | none => exact absurd (a1 (.inr h1)).1 (by simp)
  | some rx1 =>
  obtain ⟨v0, v1, x0, x1, p1, p2, p3, p4, k1, k2⟩ := a2 rx0 rx1 h0 h1
  obtain ⟨w0, w1, y0, y1, q1, q2, q3, q4, -, j2⟩ := b2 rx0 rx1 h0 h1
  rw [p1] at q1
  cases q1
  rw [p3] at q3
  cases q3
  rw [p2] at q2
  cases q2
  rw [p4] at q4
  cases q4
  have m0 : 0 ≤ x0.mask := by
    by_contra h
    exact absurd (k1 (.inl (not_le.1 h))).1 (by simp)
  have m1 : 0 ≤ x1.mask := by
    by_contra h
    exact absurd (k1 (.inr (not_le.1 h))).1 (by simp)
  obtain ⟨stamp, ns, vs, hd, hmsr, hlen, hval⟩ := k2 m0 m1
  obtain ⟨stamp', ns', vs', hd', hmsr', hlen', hval'⟩ := j2 m0 m1
  cases hmsr
  cases hmsr'
  obtain ⟨n, u0, u1, f1, f2, f3, f4⟩ := hval i k hi
  obtain ⟨n', u0', u1', f1', f2', f3', f4'⟩ := hval' i k hi
  rw [f2] at f2'
  cases f2'
  rw [f3] at f3'
  cases f3'
  have hz := drawn_zero hd' f1'
  have hcn := drawn_constant hd hm hi hfind
  rw [f1] at hcn
  cases hcn
  subst hz
  refine ⟨_, _, find_zip hn hlen i _ _ hi f4, find_zip hn hlen' i _ _ hi f4', hb, by ring, fun hne => ?_⟩
  rw [zero_div, add_zero]
  exact scaled_bias_ne hne

/-- **C127, refuted over an integration time.** A station measures, over an integration time, a type whose only noise is the constant bias
`c`: the bias in the observation is `c / √2`, while `measurement_bias` is `c`. -/
theorem station_bias_integrated (g : Rng S) (durOf : ℝ → Int) (aer : Craft ℝ Fr → Option Aer) (st : Station) (hst : Built st)
    (k : MsrType) (tau : Int) (c : ℝ) (hk : st.Has k (constantBias tau c)) (traj : Int → Option (Craft ℝ Fr)) (integ : Int)
    (hint : st.integ = some integ) (t : Int) (s : S) (real exact' : Msr) (st1 st2 : Station) (s1 s2 : Option S)
    (hr : st.measure g durOf aer traj t (some s) = .ok (some real, st1, s1))
    (hc : st.measure g durOf aer traj t none = .ok (some exact', st2, s2)) :
    ∃ y ye, find k real.data = some y ∧ find k exact'.data = some ye ∧ st.biasOf k = .ok c ∧ y = ye + c / Real.sqrt 2 ∧
      (c ≠ 0 → y ≠ ye + c) := by
  have hcons := built_consistent hst
  have hn := hcons.types
  obtain ⟨m, hm, hmem⟩ := hk
  have hkeys := hcons.keys
  rw [hm] at hkeys
  have hfind : find k m = some (constantBias tau c) := find_of_mem hkeys hmem
  have hkt : k ∈ st.types := by
    rw [hcons.same, hm]
    exact List.mem_map.2 ⟨_, hmem, rfl⟩
  obtain ⟨i, hi⟩ := List.mem_iff_getElem?.1 hkt
  have hb : st.biasOf k = .ok c := by
    unfold Station.biasOf
    rw [hm, Option.elim_some, hfind]
    rfl
  obtain ⟨a1, a2⟩ := integrated_measurement_partial g durOf aer traj st _ hst integ hint t _ _ _ hr
  obtain ⟨-, b2⟩ := integrated_measurement_partial g durOf aer traj st _ hst integ hint t _ _ _ hc
  cases h0 : traj (t - integ) with
  | none => exact absurd (a1 (.inl h0)).1 (by simp)
  | some rx0 =>
  cases h1 : traj t with
  | none => exact absurd (a1 (.inr h1)).1 (by simp)
  | some rx1 =>
  obtain ⟨x0, x1, p1, p2, k1, k2⟩ := a2 rx0 rx1 h0 h1
  obtain ⟨y0, y1, q1, q2, -, j2⟩ := b2 rx0 rx1 h0 h1
  rw [p1] at q1
  cases q1
  rw [p2] at q2
  cases q2
  have m0 : 0 ≤ x0.mask := by
    by_contra h
    exact absurd (k1 (.inl (not_le.1 h))).1 (by simp)
  have m1 : 0 ≤ x1.mask := by
    by_contra h
    exact absurd (k1 (.inr (.inl (not_le.1 h)))).1 (by simp)
  have o0 : x0.obstructed = false := by
    by_contra h
    exact absurd (k1 (.inr (.inr (.inl (by simpa using h))))).1 (by simp)
  have o1 : x1.obstructed = false := by
    by_contra h
    exact absurd (k1 (.inr (.inr (.inr (by simpa using h))))).1 (by simp)
  obtain ⟨stamp, ns, vs, hd, hmsr, hlen, hval⟩ := k2 m0 m1 o0 o1
  obtain ⟨stamp', ns', vs', hd', hmsr', hlen', hval'⟩ := j2 m0 m1 o0 o1
  cases hmsr
  cases hmsr'
  obtain ⟨n, u0, u1, f1, f2, f3, f4⟩ := hval i k hi
  obtain ⟨n', u0', u1', f1', f2', f3', f4'⟩ := hval' i k hi
  rw [f2] at f2'
  cases f2'
  rw [f3] at f3'
  cases f3'
  have hz := drawn_zero hd' f1'
  have hcn := drawn_constant hd hm hi hfind
  rw [f1] at hcn
  cases hcn
  subst hz
  refine ⟨_, _, find_zip hn hlen i _ _ hi f4, find_zip hn hlen' i _ _ hi f4', hb, by ring, fun hne => ?_⟩
  rw [zero_div, add_zero]
  exact scaled_bias_ne hne

/-! ### The hypotheses can be met -/

/-- The transmitter of `biasedTx`, over an integration time. -/
noncomputable def biasedTx60 : Tx Unit := { biasedTx with st := { biasedTx.st with integ := some 60 } }

theorem biased_integrated (g : Rng Unit) (rng : Option Unit) :
    ∃ msr st' rng', biasedTx60.measure g (fun _ => 0) (fun _ => some someAsset) 100 rng = .ok (some msr, st', rng') := by
  have h : ¬ (30 : ℝ) < 0 := by norm_num
  cases rng <;>
    simp [Tx.measure, biasedTx60, biasedTx, Tx.instant, h, Station.noisesAt, sampleAll, stampNoise, fill, txValue, meanValue, find, upsert,
      Out.bind]

example (g : Rng Unit) : ∃ y ye : ℝ, y = ye + 3 / Real.sqrt 2 ∧ y ≠ ye + 3 := by
  obtain ⟨m1, st1, s1, h1⟩ := biased_integrated g (some ())
  obtain ⟨m2, st2, s2, h2⟩ := biased_integrated g none
  obtain ⟨y, ye, -, -, -, h, h'⟩ := asset_bias_integrated g _ biasedTx60 (by simp [biasedTx60, biasedTx]) _ rfl (by simp) .range
    (by simp [biasedTx60, biasedTx]) 60 3 List.mem_cons_self _ 60 rfl 100 () m1 m2 st1 st2 s1 s2 h1 h2
  exact ⟨y, ye, h, h' (by norm_num)⟩

/-- A station whose ranges have the bias 3, over an integration time. -/
noncomputable def biasedStation : Station := ((Station.fromPoint "A").withType .range (constantBias 60 3)).withInteg (some 60)

theorem biased_station_integrated (g : Rng Unit) (rng : Option Unit) :
    ∃ msr st' rng', biasedStation.measure (Fr := Unit) g (fun _ => 0) (fun _ => some aer0) (fun _ => some craft0) 100 rng =
      .ok (some msr, st', rng') := by
  have h : ¬ (25 : ℝ) < 0 := by norm_num
  cases rng <;>
    simp [Station.measure, biasedStation, Station.fromPoint, Station.withType, Station.withInteg, Station.integrated, aer0,
      Station.noisesAt, sampleAll, stampNoise, fill, twoWay, twoWayOut, h, find, upsert, insertSet, Out.bind]

example (g : Rng Unit) : ∃ y ye : ℝ, y = ye + 3 / Real.sqrt 2 ∧ y ≠ ye + 3 := by
  obtain ⟨m1, st1, s1, h1⟩ := biased_station_integrated g (some ())
  obtain ⟨m2, st2, s2, h2⟩ := biased_station_integrated g none
  obtain ⟨y, ye, -, -, -, h, h'⟩ := station_bias_integrated g _ _ biasedStation (.withInteg _ _ (.withType _ _ _ (.point "A"))) .range 60 3
    ⟨_, rfl, by simp [Station.fromPoint, upsert]⟩ _ 60 rfl 100 () m1 m2 st1 st2 s1 s2 h1 h2
  exact ⟨y, ye, h, h' (by norm_num)⟩

end Verif.Ground
