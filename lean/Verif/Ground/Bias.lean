import Verif.Ground.Measure
/-!
The covariance and the bias of the device for ground assets: nyx-core/src/od/groundpnt/trk_device.rs.
-/
namespace Verif.Ground
open Verif.Device Verif.Noise Verif.Spacecraft
open Verif.Mc (Out)

variable {S Fr : Type}

/-- `measurement_covar`, od/groundpnt/trk_device.rs:181-195: no noise at all is an error. -/
def Tx.covarOf (tx : Tx Fr) (k : MsrType) : Out ℝ :=
  tx.st.noises.elim .err fun m => (find k m).elim .err fun n => .ok n.covariance

/-- `measurement_bias`, od/groundpnt/trk_device.rs:197-211: no noise at all panics. -/
def Tx.biasOf (tx : Tx Fr) (k : MsrType) : Out ℝ :=
  tx.st.noises.elim .panic fun m => (find k m).elim .err fun n =>
    match n.bias with
    | some gm => .ok (gm.const.getD 0)
    | none => .ok 0

/-- **C261, in part.** For a type with a noise, the covariance is the sum of the squares of the white noise and of the bias, and the bias
is the constant of the bias, zero if it has none. Without a noise for the type both are errors. Missing: a device without noises, see
`no_noise_panics`; the use of the bias, see `asset_bias_doubled`. -/
theorem covar_bias_partial (tx : Tx Fr) (m : List (MsrType × Stoch)) (hm : tx.st.noises = some m) (hk : (m.map Prod.fst).Nodup)
    (k : MsrType) :
    (∀ n, (k, n) ∈ m → tx.covarOf k = .ok ((n.white.elim 0 fun w => w.sigma ^ 2) + n.bias.elim 0 fun b => b.noise ^ 2) ∧
      ∃ c, tx.biasOf k = .ok c ∧ (∀ b v, n.bias = some b → b.const = some v → c = v) ∧
        ((∀ b v, n.bias = some b → b.const ≠ some v) → c = 0)) ∧
    ((∀ n, (k, n) ∉ m) → tx.covarOf k = .err ∧ tx.biasOf k = .err) := by
  constructor
  · intro n hmem
    have hf := find_of_mem hk hmem
    unfold Tx.covarOf Tx.biasOf
    rw [hm, Option.elim_some, Option.elim_some, hf, Option.elim_some, Option.elim_some]
    refine ⟨?_, ?_⟩
    · rcases n with ⟨_ | w, _ | b⟩ <;> simp [Stoch.covariance, White.covariance, Gm.covariance]
    · rcases n with ⟨w, _ | b⟩
      · exact ⟨0, rfl, by simp, fun _ => rfl⟩
      · refine ⟨b.const.getD 0, rfl, ?_, ?_⟩
        · intro b' v h1 h2
          cases h1
          simp [h2]
        · intro h
          cases hb : b.const with
          | none => rfl
          | some v => exact absurd hb (h b v rfl)
  · intro h
    have hf : find k m = none := by
      clear hm hk
      induction m with
      | nil => rfl
      | cons a m ih =>
        obtain ⟨j, n⟩ := a
        have hj : j ≠ k := by
          rintro rfl
          exact h n (by simp)
        rw [find, if_neg hj]
        exact ih fun n hn => h n (by simp [hn])
    unfold Tx.covarOf Tx.biasOf
    rw [hm, Option.elim_some, Option.elim_some, hf]
    exact ⟨rfl, rfl⟩

/-- **C261.** A device without noises: the covariance is an error, as documented, but the bias panics. -/
theorem no_noise_panics (tx : Tx Fr) (hm : tx.st.noises = none) (k : MsrType) : tx.covarOf k = .err ∧ tx.biasOf k = .panic := by
  unfold Tx.covarOf Tx.biasOf
  rw [hm]
  exact ⟨rfl, rfl⟩

/-- **C261.** An asset which measures a type with the only noise being the constant bias `c`: at the true state the residual of the Kalman
filter is `2 c`, as the bias is subtracted from the computed observation. -/
theorem asset_bias_doubled (g : Rng S) (durOf : ℝ → Int) (tx : Tx Fr) (hn : tx.st.types.Nodup) (m : List (MsrType × Stoch))
    (hm : tx.st.noises = some m) (hkeys : (m.map Prod.fst).Nodup) (k : MsrType) (hkt : k ∈ tx.st.types) (tau : Int) (c : ℝ)
    (hk : (k, constantBias tau c) ∈ m) (rx : Asset ℝ Fr) (s : S) (real computed : Msr) (st1 st2 : Station) (s1 s2 : Option S)
    (hr : tx.instant g durOf rx (some s) = .ok (some real, st1, s1)) (hc : tx.instant g durOf rx none = .ok (some computed, st2, s2)) :
    ∃ y yc, find k real.data = some y ∧ find k computed.data = some yc ∧ tx.biasOf k = .ok c ∧ kalmanResidual y yc c = 2 * c := by
  have hfind : find k m = some (constantBias tau c) := find_of_mem hkeys hk
  obtain ⟨i, hi⟩ := List.mem_iff_getElem?.1 hkt
  obtain ⟨veh, a, hv, ha, hv1, hv2⟩ := instant_ground g durOf tx hn rx _ _ _ _ hr
  have hvis : 0 ≤ a.mask := by
    by_contra hcon
    have := (hv1 (not_le.1 hcon)).1
    cases this
  obtain ⟨stamp, ns, vs, hd, hmsr, hlen, hval⟩ := hv2 hvis
  cases hmsr
  obtain ⟨n, v, e1, e2, e3⟩ := hval i k hi
  obtain ⟨m2, s0, hm2, -, -, -, -, -, -, -, -, m3, -, -, hs⟩ := hd
  rw [hm] at hm2
  cases hm2
  obtain ⟨n2, f1, f2, -⟩ := hs i k hi
  rw [hfind] at f1
  cases f1
  rw [e1] at f2
  have hnc : n = c := by
    cases f2
    simp [Stoch.sample, Stoch.whitePart, Stoch.biasPart, constantBias, Gm.sample, Gm.start, Gm.steady]
  subst hnc
  obtain ⟨veh', a', hv', ha', -, hv2'⟩ := instant_ground g durOf tx hn rx _ _ _ _ hc
  rw [hv] at hv'
  cases hv'
  rw [ha] at ha'
  cases ha'
  obtain ⟨stamp', ns', vs', hd', hmsr', hlen', hval'⟩ := hv2' hvis
  cases hmsr'
  obtain ⟨n', v', e1', e2', e3'⟩ := hval' i k hi
  have hn' : n' = 0 := by
    rw [hd'.2.1] at e1'
    exact (List.mem_replicate.1 (List.mem_of_getElem? e1')).2
  rw [e2] at e2'
  cases e2'
  refine ⟨v + n, v + n', find_zip hn hlen i k _ hi e3, find_zip hn hlen' i k _ hi e3', ?_, ?_⟩
  · unfold Tx.biasOf
    rw [hm, Option.elim_some, hfind]
    rfl
  · rw [hn', kalmanResidual]; ring

/-! ### The hypotheses can be met -/

/-- A transmitter seen five units away whose ranges have the bias 3. -/
noncomputable def biasedTx : Tx Unit :=
  ⟨⟨"relay", [.range], none, none, some [(.range, constantBias 60 3)]⟩,
   fun t => some ⟨(), t, 0, 0, 0, 0, 0, 0, 0, 0, 0, none, .coast, none, none⟩, fun _ _ _ _ _ => some ⟨5, 1, 0, 30, 30, false⟩⟩

example := (covar_bias_partial biasedTx _ rfl (by simp) .range).1 _ List.mem_cons_self
example := (covar_bias_partial biasedTx _ rfl (by simp) .doppler).2 (by simp)
example := no_noise_panics (⟨⟨"relay", [.range], none, none, none⟩, biasedTx.at', biasedTx.aer⟩ : Tx Unit) rfl .range

theorem biased_seen (g : Rng Unit) (rng : Option Unit) :
    ∃ msr st' rng', biasedTx.instant g (fun _ => 0) someAsset rng = .ok (some msr, st', rng') := by
  obtain ⟨⟨msr, st', rng'⟩, hr⟩ := instant_total_partial g (fun _ => 0) biasedTx
    ⟨by simp [biasedTx], by simp [biasedTx], by intro k; simp [biasedTx]⟩ someAsset rng _ rfl _ rfl (by simp [biasedTx]) (by simp [biasedTx])
  obtain ⟨veh, a, -, ha, -, h⟩ := instant_ground g _ _ (by simp [biasedTx]) _ rng rng' msr st' hr
  cases ha
  obtain ⟨_, _, _, _, h, _⟩ := h (by norm_num)
  subst h
  exact ⟨_, st', rng', hr⟩

example (g : Rng Unit) : ∃ y yc, kalmanResidual y yc 3 = 6 := by
  obtain ⟨m1, st1, s1, h1⟩ := biased_seen g (some ())
  obtain ⟨m2, st2, s2, h2⟩ := biased_seen g none
  obtain ⟨y, yc, -, -, -, h⟩ := asset_bias_doubled g _ biasedTx (by simp [biasedTx]) _ rfl (by simp) .range (by simp [biasedTx]) 60 3
    List.mem_cons_self someAsset () m1 m2 st1 st2 s1 s2 h1 h2
  exact ⟨y, yc, by rw [h]; norm_num⟩

end Verif.Ground
