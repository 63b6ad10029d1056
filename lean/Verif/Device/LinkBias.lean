import Verif.Device.LinkMeasure
/-!
# Constant biases of links between spacecraft

The definitions are those of `Verif.Device.LinkMeasure` (nyx-core/src/od/interlink/trk_device.rs) and `kalmanResidual`.
-/
namespace Verif.Device
open Verif.Noise Verif.Spacecraft
open Verif.Mc (Out)
open Verif.Ground (find_zip)

variable {S Fr : Type}

/-- What is drawn for a type whose only noise is a constant bias. -/
theorem drawn_constant {g : Rng S} {st : Station} {t : Int} {s : S} {stamp : ℝ} {ns : List ℝ} {st' : Station} {rng' : Option S}
    (hd : NoisesDrawn g st t (some s) stamp ns st' rng') {m : List (MsrType × Stoch)} (hm : st.noises = some m) {i : Nat} {k : MsrType}
    (hi : st.types[i]? = some k) {tau : Int} {c : ℝ} (hk : find k m = some (constantBias tau c)) : ns[i]? = some c := by
  obtain ⟨m2, s0, hm2, -, -, -, -, -, -, -, -, m3, -, -, hs⟩ := hd
  rw [hm] at hm2
  cases hm2
  obtain ⟨n2, f1, f2, -⟩ := hs i k hi
  rw [hk] at f1
  cases f1
  rw [f2]
  simp [Stoch.sample, Stoch.whitePart, Stoch.biasPart, constantBias, Gm.sample, Gm.start, Gm.steady]

/-- What is drawn without a generator. -/
theorem drawn_zero {g : Rng S} {st : Station} {t : Int} {stamp : ℝ} {ns : List ℝ} {st' : Station} {rng' : Option S}
    (hd : NoisesDrawn g st t none stamp ns st' rng') {i : Nat} {n : ℝ} (hn : ns[i]? = some n) : n = 0 := by
  rw [hd.2.1] at hn
  exact (List.mem_replicate.1 (List.mem_of_getElem? hn)).2

/-- **C262, in part.** A link measures a type whose only noise is the constant bias `c`. At an instant the observation with a generator is
the one computed without a generator plus `c`, and `c` is the bias given to the filter. Missing: its removal, see `link_bias_doubled`, and
the integration time, see `link_bias_integrated`. -/
theorem link_bias_partial (g : Rng S) (durOf : ℝ → Int) (l : Link Fr) (hn : l.st.types.Nodup) (m : List (MsrType × Stoch))
    (hm : l.st.noises = some m) (hkeys : (m.map Prod.fst).Nodup) (k : MsrType) (hkt : k ∈ l.st.types) (tau : Int) (c : ℝ)
    (hk : (k, constantBias tau c) ∈ m) (rx : Craft ℝ Fr) (s : S) (real computed : Msr) (st1 st2 : Station) (s1 s2 : Option S)
    (hr : l.instant g durOf rx (some s) = .ok (some real, st1, s1)) (hc : l.instant g durOf rx none = .ok (some computed, st2, s2)) :
    ∃ y yc, find k real.data = some y ∧ find k computed.data = some yc ∧ l.biasOf k = .ok c ∧ y = yc + c := by
  have hfind : find k m = some (constantBias tau c) := find_of_mem hkeys hk
  obtain ⟨i, hi⟩ := List.mem_iff_getElem?.1 hkt
  obtain ⟨tx, hid, ht, hl, hv1, hv2⟩ := link_partial g durOf l hn _ rx _ _ _ hr
  cases hid with
  | true => exact absurd (hv1 rfl).1 (by simp)
  | false =>
    obtain ⟨r, hto, stamp, ns, vs, hd, hmsr, hlen, hval⟩ := hv2 rfl
    obtain ⟨tx', hid', ht', hl', -, hv2'⟩ := link_partial g durOf l hn _ rx _ _ _ hc
    rw [ht] at ht'
    cases ht'
    rw [hl] at hl'
    cases hl'
    obtain ⟨r', hto', stamp', ns', vs', hd', hmsr', hlen', hval'⟩ := hv2' rfl
    rw [hto] at hto'
    cases hto'
    cases hmsr
    cases hmsr'
    obtain ⟨n, e1, e2⟩ := hval i k hi
    obtain ⟨n', e1', e2'⟩ := hval' i k hi
    have hz := drawn_zero hd' e1'
    have hcn := drawn_constant hd hm hi hfind
    rw [e1] at hcn
    cases hcn
    subst hz
    have hb : l.biasOf k = .ok c := by
      unfold Link.biasOf
      rw [hm, Option.elim_some, hfind]
      rfl
    rcases e2 with ⟨rfl, e2⟩ | ⟨rfl, e2⟩
    · rcases e2' with ⟨-, e2'⟩ | ⟨h, -⟩
      · exact ⟨_, _, find_zip hn hlen i _ _ hi e2, find_zip hn hlen' i _ _ hi e2', hb, by ring⟩
      · cases h
    · rcases e2' with ⟨h, -⟩ | ⟨-, e2'⟩
      · cases h
      · exact ⟨_, _, find_zip hn hlen i _ _ hi e2, find_zip hn hlen' i _ _ hi e2', hb, by ring⟩

/-- **C262, refuted.** At the true state the residual of the Kalman filter is then `2 c`. -/
theorem link_bias_doubled (g : Rng S) (durOf : ℝ → Int) (l : Link Fr) (hn : l.st.types.Nodup) (m : List (MsrType × Stoch))
    (hm : l.st.noises = some m) (hkeys : (m.map Prod.fst).Nodup) (k : MsrType) (hkt : k ∈ l.st.types) (tau : Int) (c : ℝ)
    (hk : (k, constantBias tau c) ∈ m) (rx : Craft ℝ Fr) (s : S) (real computed : Msr) (st1 st2 : Station) (s1 s2 : Option S)
    (hr : l.instant g durOf rx (some s) = .ok (some real, st1, s1)) (hc : l.instant g durOf rx none = .ok (some computed, st2, s2)) :
    ∃ y yc b, find k real.data = some y ∧ find k computed.data = some yc ∧ l.biasOf k = .ok b ∧ kalmanResidual y yc b = 2 * c := by
  obtain ⟨y, yc, h1, h2, h3, h4⟩ := link_bias_partial g durOf l hn m hm hkeys k hkt tau c hk rx s real computed st1 st2 s1 s2 hr hc
  exact ⟨y, yc, c, h1, h2, h3, by rw [kalmanResidual, h4]; ring⟩

/-- **C262, refuted.** Over an integration time the bias in the observation is `c / √2`, while the bias given to the filter is `c`. -/
theorem link_bias_integrated (g : Rng S) (durOf : ℝ → Int) (l : Link Fr) (hn : l.st.types.Nodup) (m : List (MsrType × Stoch))
    (hm : l.st.noises = some m) (hkeys : (m.map Prod.fst).Nodup) (k : MsrType) (hkt : k ∈ l.st.types) (tau : Int) (c : ℝ)
    (hk : (k, constantBias tau c) ∈ m) (traj : Int → Option (Craft ℝ Fr)) (integ : Int) (hint : l.st.integ = some integ) (t : Int) (s : S)
    (real exact' : Msr) (st1 st2 : Station) (s1 s2 : Option S)
    (hr : l.measure g durOf traj t (some s) = .ok (some real, st1, s1)) (hc : l.measure g durOf traj t none = .ok (some exact', st2, s2)) :
    ∃ y ye, find k real.data = some y ∧ find k exact'.data = some ye ∧ l.biasOf k = .ok c ∧ y = ye + c / Real.sqrt 2 ∧
      (c ≠ 0 → y ≠ ye + c) := by
  have hfind : find k m = some (constantBias tau c) := find_of_mem hkeys hk
  obtain ⟨i, hi⟩ := List.mem_iff_getElem?.1 hkt
  have hb : l.biasOf k = .ok c := by
    unfold Link.biasOf
    rw [hm, Option.elim_some, hfind]
    rfl
  obtain ⟨a1, a2⟩ := link_integrated_partial g durOf l hn traj integ hint t _ _ _ _ hr
  obtain ⟨-, b2⟩ := link_integrated_partial g durOf l hn traj integ hint t _ _ _ _ hc
  cases ha : traj (t - integ) with
  | none => exact absurd (a1 (.inl ha)).1 (by simp)
  | some rx0 =>
  cases hb' : traj t with
  | none => exact absurd (a1 (.inr hb')).1 (by simp)
  | some rx1 =>
  obtain ⟨tx0, tx1, hid0, hid1, p1, p2, p3, p4, k1, k2⟩ := a2 rx0 rx1 ha hb'
  obtain ⟨ux0, ux1, jid0, jid1, q1, q2, q3, q4, -, j2⟩ := b2 rx0 rx1 ha hb'
  rw [p1] at q1
  cases q1
  rw [p3] at q3
  cases q3
  rw [p2] at q2
  cases q2
  rw [p4] at q4
  cases q4
  have h0 : hid0 = false := by
    cases hid0 with
    | false => rfl
    | true => exact absurd (k1 (.inl rfl)).1 (by simp)
  have h1 : hid1 = false := by
    cases hid1 with
    | false => rfl
    | true => exact absurd (k1 (.inr rfl)).1 (by simp)
  obtain ⟨r0, r1, stamp, ns, vs, z0, z1, hd, hmsr, hlen, hval⟩ := k2 h0 h1
  obtain ⟨r0', r1', stamp', ns', vs', z0', z1', hd', hmsr', hlen', hval'⟩ := j2 h0 h1
  have e0 := z0.2.2
  rw [z0'.2.2] at e0
  cases e0
  have e0 := z1.2.2
  rw [z1'.2.2] at e0
  cases e0
  cases hmsr
  cases hmsr'
  obtain ⟨n, v0, v1, f1, f2, f3, f4⟩ := hval i k hi
  obtain ⟨n', v0', v1', f1', f2', f3', f4'⟩ := hval' i k hi
  rw [f2] at f2'
  cases f2'
  rw [f3] at f3'
  cases f3'
  have hz := drawn_zero hd' f1'
  have hcn := drawn_constant hd hm hi hfind
  rw [f1] at hcn
  cases hcn
  subst hz
  refine ⟨_, _, find_zip hn hlen i _ _ hi f4, find_zip hn hlen' i _ _ hi f4', hb, by ring, ?_⟩
  intro hne heq
  have hs : c / Real.sqrt 2 = c := by
    have : (v0 + v1) / 2 + c / Real.sqrt 2 = (v0 + v1) / 2 + c := by rw [heq]; ring
    linarith
  have h2 : Real.sqrt 2 ≠ 0 := by positivity
  rw [div_eq_iff h2] at hs
  have h3 : Real.sqrt 2 = 1 := by
    have : c * Real.sqrt 2 = c * 1 := by linarith
    exact mul_left_cancel₀ hne this
  have h4 := Real.sq_sqrt (show (0 : ℝ) ≤ 2 by norm_num)
  rw [h3] at h4
  norm_num at h4

/-! ## The hypotheses are met -/

/-- A link whose ranges have the bias 3, over a minute or at an instant. -/
noncomputable def biasedLink (integ : Option Int) : Link Unit :=
  ⟨⟨"relay", [.range], integ, none, some [(.range, constantBias 60 3)]⟩, fun _ => some craft1, fun _ _ => some false, fun x _ => some x⟩

theorem biased_link_measures (g : Rng Unit) (rng : Option Unit) (integ : Option Int) :
    ∃ msr st' rng', (biasedLink integ).instant g (fun _ => 0) craft0 rng = .ok (some msr, st', rng') := by
  cases rng <;> exact ⟨_, _, _, rfl⟩

theorem biased_link_integrates (g : Rng Unit) (rng : Option Unit) :
    ∃ msr st' rng', (biasedLink (some 60)).measure g (fun _ => 0) (fun _ => some craft0) 100 rng = .ok (some msr, st', rng') := by
  cases rng <;> exact ⟨_, _, _, rfl⟩

example (g : Rng Unit) : ∃ y yc b, kalmanResidual y yc b = 2 * 3 := by
  obtain ⟨m1, st1, s1, h1⟩ := biased_link_measures g (some ()) none
  obtain ⟨m2, st2, s2, h2⟩ := biased_link_measures g none none
  obtain ⟨y, yc, b, -, -, -, h⟩ := link_bias_doubled g _ (biasedLink none) (by simp [biasedLink]) _ rfl (by simp) .range
    (by simp [biasedLink]) 60 3 List.mem_cons_self craft0 () m1 m2 st1 st2 s1 s2 h1 h2
  exact ⟨y, yc, b, h⟩

example (g : Rng Unit) : ∃ y ye : ℝ, y = ye + 3 / Real.sqrt 2 ∧ y ≠ ye + 3 := by
  obtain ⟨m1, st1, s1, h1⟩ := biased_link_integrates g (some ())
  obtain ⟨m2, st2, s2, h2⟩ := biased_link_integrates g none
  obtain ⟨y, ye, -, -, -, h, h'⟩ := link_bias_integrated g _ (biasedLink (some 60)) (by simp [biasedLink]) _ rfl (by simp) .range
    (by simp [biasedLink]) 60 3 List.mem_cons_self _ 60 rfl 100 () m1 m2 st1 st2 s1 s2 h1 h2
  exact ⟨y, ye, h, h' (by norm_num)⟩

end Verif.Device
