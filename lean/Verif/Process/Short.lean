import Verif.Process.Theorems
import Verif.Kalman.Info
import Verif.Kalman.Chol
import Verif.Device.Sens
import Verif.Noise.Theorems
/-!
C205 and C206: windows of measurement types that the measurement does not fill. The sensitivity of a tracking
device starts from the identity, its covariance and its bias from zero, and a missing observation is zero; a row
without a measurement is thus an observation of a component of the position.
-/
namespace Verif.Process
open Verif.Kalman Verif.Device Matrix
open Verif.Mc (Out)

/-! ### Model -/

/-- Results of the models of the devices as results of the models of the process. -/
def toRes {α : Type} : Out α → Res α
  | .ok x => .ok x
  | .err => .err
  | .panic => .panic

/-- The loop of `measurement_covar_matrix`; an index outside of the matrix panics.
od/simulator/trackdata.rs:95-99. -/
def covarLoop {m : Nat} (enabled : List MsrType) (covar : MsrType → Out ℝ) :
    Nat → List MsrType → Matrix (Fin m) (Fin m) ℝ → Out (Matrix (Fin m) (Fin m) ℝ)
  | _, [], R => .ok R
  | o, k :: ks, R =>
    if k ∈ enabled then
      (covar k).bind fun v =>
        if h : o < m then covarLoop enabled covar (o + 1) ks (R.updateRow ⟨o, h⟩ (Function.update (R ⟨o, h⟩) ⟨o, h⟩ v))
        else .panic
    else covarLoop enabled covar (o + 1) ks R

/-- `measurement_covar_matrix`. od/simulator/trackdata.rs:84-102. -/
def covarMat (m : Nat) (enabled : List MsrType) (covar : MsrType → Out ℝ) (types : List MsrType) :
    Out (Matrix (Fin m) (Fin m) ℝ) := covarLoop enabled covar 0 types 0

/-- The loop of `measurement_bias_vector`. od/simulator/trackdata.rs:115-119. -/
def biasLoop {m : Nat} (enabled : List MsrType) (bias : MsrType → Out ℝ) :
    Nat → List MsrType → (Fin m → ℝ) → Out (Fin m → ℝ)
  | _, [], b => .ok b
  | o, k :: ks, b =>
    if k ∈ enabled then
      (bias k).bind fun v =>
        if h : o < m then biasLoop enabled bias (o + 1) ks (Function.update b ⟨o, h⟩ v) else .panic
    else biasLoop enabled bias (o + 1) ks b

/-- `measurement_bias_vector`. od/simulator/trackdata.rs:104-122. -/
def biasVec (m : Nat) (enabled : List MsrType) (bias : MsrType → Out ℝ) (types : List MsrType) :
    Out (Fin m → ℝ) := biasLoop enabled bias 0 types 0

variable {T F Ω : Type} {a m : Nat}

/-- A tracking device of a spacecraft, as `process_arc` uses it: `h_tilde` (od/msr/sensitivity.rs:88-115,
od/interlink/sensitivity.rs:50-77), the covariance matrix and the vector of biases
(od/simulator/trackdata.rs:84-122). The rows of the sensitivity, the variance and the bias of a type and the
computed measurement are parameters. -/
noncomputable def trackerDev (types : List MsrType) (covar bias : MsrType → Out ℝ)
    (row : Meas T MsrType → Nominal Ω 9 → MsrType → Out (Fin 9 → ℝ))
    (measure : Int → List (Nominal Ω 9) → Res (Option (List (MsrType × ℝ)))) : Dev T MsrType Ω 9 m where
  types := types
  hTilde z ks x := toRes (hTilde m (row z x) (z.data.map fun p => (p.1, p.2.getD 0)) ks)
  covar ks _ := toRes (covarMat m types covar ks)
  bias ks _ := toRes (biasVec m types bias ks)
  measure := measure

/-- A ground station (od/ground_station/trk_device.rs): the variance and the bias of a type come from its noise. -/
noncomputable def stationDev (st : Station)
    (row : Meas T MsrType → Nominal Ω 9 → MsrType → Out (Fin 9 → ℝ))
    (measure : Int → List (Nominal Ω 9) → Res (Option (List (MsrType × ℝ)))) : Dev T MsrType Ω 9 m :=
  trackerDev st.types st.covar st.biasOf row measure

/-! ### Lemmas -/

theorem toRes_ok {α : Type} {o : Out α} {x : α} : toRes o = .ok x ↔ o = .ok x := by
  cases o <;> simp [toRes]

theorem covarLoop_entries {enabled : List MsrType} {covar : MsrType → Out ℝ} :
    ∀ {ks : List MsrType} {o : Nat} {R0 R : Matrix (Fin m) (Fin m) ℝ},
      covarLoop enabled covar o ks R0 = .ok R → ∀ i : Fin m,
      (∀ j, i ≠ j → R i j = R0 i j) ∧ (i.val < o → R i i = R0 i i) ∧
      (o + ks.length ≤ i.val → R i i = R0 i i) ∧
      (∀ k, o ≤ i.val → ks[i.val - o]? = some k → (k ∉ enabled → R i i = R0 i i) ∧
        (k ∈ enabled → covar k = .ok (R i i)))
  | [], o, R0, R, h, i => by
    cases h
    exact ⟨fun _ _ => rfl, fun _ => rfl, fun _ => rfl, by simp⟩
  | k :: ks, o, R0, R, h, i => by
    rw [covarLoop] at h
    split at h
    · rename_i hk
      obtain ⟨v, hv, h⟩ := bind_ok.1 h
      split at h
      · rename_i ho
        obtain ⟨h0, h1, h2, h3⟩ := covarLoop_entries h i
        have off : i.val ≠ o → R0.updateRow ⟨o, ho⟩ (Function.update (R0 ⟨o, ho⟩) ⟨o, ho⟩ v) i = R0 i := by
          intro hne
          exact Matrix.updateRow_ne (by intro he; exact hne (by rw [he]))
        refine ⟨fun j hj => ?_, fun hi => ?_, fun hi => ?_, fun j hj hkj => ?_⟩
        · rw [h0 j hj]
          by_cases e : i.val = o
          · have ei : i = ⟨o, ho⟩ := Fin.ext e
            subst ei
            rw [Matrix.updateRow_self, Function.update_of_ne (Ne.symm hj)]
          · rw [off e]
        · rw [h1 (by omega), off (by omega)]
        · simp only [List.length_cons] at hi
          rw [h2 (by omega), off (by omega)]
        · rcases Nat.eq_or_lt_of_le hj with e | hlt
          · have e0 : i.val - o = 0 := by omega
            rw [e0] at hkj
            cases hkj
            refine ⟨fun hn => absurd hk hn, fun _ => ?_⟩
            have ei : i = ⟨o, ho⟩ := Fin.ext e.symm
            rw [h1 (by omega), ei, Matrix.updateRow_self, Function.update_self, hv]
          · have e0 : i.val - o = (i.val - (o + 1)) + 1 := by omega
            rw [e0, List.getElem?_cons_succ] at hkj
            have := h3 j (by omega) hkj
            rwa [off (by omega)] at this
      · cases h
    · rename_i hk
      obtain ⟨h0, h1, h2, h3⟩ := covarLoop_entries h i
      refine ⟨h0, fun hi => h1 (by omega), fun hi => h2 (by simp only [List.length_cons] at hi; omega),
        fun j hj hkj => ?_⟩
      rcases Nat.eq_or_lt_of_le hj with e | hlt
      · have e0 : i.val - o = 0 := by omega
        rw [e0] at hkj
        cases hkj
        exact ⟨fun _ => h1 (by omega), fun hn => absurd hn hk⟩
      · have e0 : i.val - o = (i.val - (o + 1)) + 1 := by omega
        rw [e0, List.getElem?_cons_succ] at hkj
        exact h3 j (by omega) hkj

theorem biasLoop_entries {enabled : List MsrType} {bias : MsrType → Out ℝ} :
    ∀ {ks : List MsrType} {o : Nat} {b0 b : Fin m → ℝ},
      biasLoop enabled bias o ks b0 = .ok b → ∀ i : Fin m,
      (i.val < o → b i = b0 i) ∧ (o + ks.length ≤ i.val → b i = b0 i) ∧
      (∀ k, o ≤ i.val → ks[i.val - o]? = some k → (k ∉ enabled → b i = b0 i) ∧
        (k ∈ enabled → bias k = .ok (b i)))
  | [], o, b0, b, h, i => by
    cases h
    exact ⟨fun _ => rfl, fun _ => rfl, by simp⟩
  | k :: ks, o, b0, b, h, i => by
    rw [biasLoop] at h
    split at h
    · rename_i hk
      obtain ⟨v, hv, h⟩ := bind_ok.1 h
      split at h
      · rename_i ho
        obtain ⟨h1, h2, h3⟩ := biasLoop_entries h i
        have off : i.val ≠ o → Function.update b0 ⟨o, ho⟩ v i = b0 i := by
          intro hne
          exact Function.update_of_ne (by intro he; exact hne (by rw [he])) _ _
        refine ⟨fun hi => ?_, fun hi => ?_, fun j hj hkj => ?_⟩
        · rw [h1 (by omega), off (by omega)]
        · simp only [List.length_cons] at hi
          rw [h2 (by omega), off (by omega)]
        · rcases Nat.eq_or_lt_of_le hj with e | hlt
          · have e0 : i.val - o = 0 := by omega
            rw [e0] at hkj
            cases hkj
            refine ⟨fun hn => absurd hk hn, fun _ => ?_⟩
            have ei : i = ⟨o, ho⟩ := Fin.ext e.symm
            rw [h1 (by omega), ei, Function.update_self, hv]
          · have e0 : i.val - o = (i.val - (o + 1)) + 1 := by omega
            rw [e0, List.getElem?_cons_succ] at hkj
            have := h3 j (by omega) hkj
            rwa [off (by omega)] at this
      · cases h
    · rename_i hk
      obtain ⟨h1, h2, h3⟩ := biasLoop_entries h i
      refine ⟨fun hi => h1 (by omega), fun hi => h2 (by simp only [List.length_cons] at hi; omega),
        fun j hj hkj => ?_⟩
      rcases Nat.eq_or_lt_of_le hj with e | hlt
      · have e0 : i.val - o = 0 := by omega
        rw [e0] at hkj
        cases hkj
        exact ⟨fun _ => h1 (by omega), fun hn => absurd hn hk⟩
      · have e0 : i.val - o = (i.val - (o + 1)) + 1 := by omega
        rw [e0, List.getElem?_cons_succ] at hkj
        exact h3 j (by omega) hkj

theorem covarMat_psd {enabled types : List MsrType} {covar : MsrType → Out ℝ}
    (hcov : ∀ k v, covar k = .ok v → 0 ≤ v) {R : Matrix (Fin m) (Fin m) ℝ}
    (h : covarMat m enabled covar types = .ok R) : R.PosSemidef := by
  have e : R = diagonal fun i => R i i := by
    ext i j
    by_cases hij : i = j
    · subst hij; simp
    · rw [diagonal_apply_ne _ hij, (covarLoop_entries h i).1 j hij]; rfl
  rw [e]
  refine posSemidef_diagonal_iff.2 fun i => ?_
  obtain ⟨_, _, h2, h3⟩ := covarLoop_entries h i
  cases hk : types[i.val]? with
  | none =>
    rw [List.getElem?_eq_none_iff] at hk
    rw [h2 (by omega)]; exact le_refl _
  | some k =>
    have h4 := h3 k (Nat.zero_le _) (by rw [Nat.sub_zero]; exact hk)
    by_cases hm : k ∈ enabled
    · exact hcov _ _ (h4.2 hm)
    · rw [h4.1 hm]; exact le_refl _

/-- The gain and the covariance when one row observes a component. -/
theorem pinned {n : Nat} {P C : Matrix (Fin n) (Fin n) ℝ} {H : Matrix (Fin m) (Fin n) ℝ}
    {R S : Matrix (Fin m) (Fin m) ℝ} {G : Matrix (Fin n) (Fin m) ℝ} (hS : S = H * (P * Hᵀ) + R)
    (hSd : IsUnit S.det) (hRs : Rᵀ = R) (hG : G = P * Hᵀ * S⁻¹) (hC : C = (1 - G * H) * P)
    (i : Fin m) (j : Fin n) (r : ℝ) (hH : H i = Pi.single j 1) (hR : R i = Pi.single i r) :
    (∀ y, (G *ᵥ y) j = y i - r * (S⁻¹ *ᵥ y) i) ∧
    (∀ l, C j l = r * (S⁻¹ * (H * P)) i l) ∧ C j j = r - r ^ 2 * S⁻¹ i i := by
  have e1 : H * G = 1 - R * S⁻¹ := by
    rw [hG, ← Matrix.mul_assoc H, show H * (P * Hᵀ) = S - R by rw [hS]; simp, Matrix.sub_mul,
      Matrix.mul_nonsing_inv _ hSd]
  have row : ∀ {k : Nat} (M : Matrix (Fin n) (Fin k) ℝ) (l : Fin k), (H * M) i l = M j l := by
    intro k M l
    rw [Matrix.mul_apply, hH]
    simp [Pi.single_apply]
  have rowR : ∀ {k : Nat} (M : Matrix (Fin m) (Fin k) ℝ) (l : Fin k), (R * M) i l = r * M i l := by
    intro k M l
    rw [Matrix.mul_apply, hR]
    simp [Pi.single_apply]
  have hK : ∀ l, G j l = (1 : Matrix (Fin m) (Fin m) ℝ) i l - r * S⁻¹ i l := by
    intro l
    rw [← row G l, e1, Matrix.sub_apply, rowR]
  have hc : ∀ l, C j l = r * (S⁻¹ * (H * P)) i l := by
    intro l
    rw [hC, Matrix.sub_mul, Matrix.one_mul, Matrix.sub_apply, Matrix.mul_assoc _ H P, Matrix.mul_apply]
    simp only [hK, sub_mul, Finset.sum_sub_distrib]
    rw [← Matrix.mul_apply, Matrix.one_mul, row]
    simp only [mul_assoc]
    rw [← Finset.mul_sum, ← Matrix.mul_apply]
    ring
  refine ⟨fun y => ?_, hc, ?_⟩
  · simp only [Matrix.mulVec, dotProduct, hK, sub_mul, Finset.sum_sub_distrib, mul_assoc]
    rw [← Finset.mul_sum]
    simp [Matrix.one_apply]
  · rw [hc]
    have col : (S⁻¹ * (H * P)) i j = (S⁻¹ * (H * (P * Hᵀ))) i i := by
      have e : S⁻¹ * (H * (P * Hᵀ)) = S⁻¹ * (H * P) * Hᵀ := by simp only [Matrix.mul_assoc]
      rw [e, Matrix.mul_apply (M := S⁻¹ * (H * P)) (N := Hᵀ)]
      simp only [transpose_apply, hH]
      simp [Pi.single_apply]
    have e2 : S⁻¹ * (H * (P * Hᵀ)) = 1 - S⁻¹ * R := by
      rw [show H * (P * Hᵀ) = S - R by rw [hS]; simp, Matrix.mul_sub, Matrix.nonsing_inv_mul _ hSd]
    have colR : (S⁻¹ * R) i i = S⁻¹ i i * r := by
      rw [← hRs, Matrix.mul_apply]
      simp only [transpose_apply, hR]
      simp [Pi.single_apply]
    rw [col, e2, Matrix.sub_apply, colR, Matrix.one_apply_eq]
    ring

/-- Cauchy-Schwarz for the inverse of the innovation covariance. -/
theorem cauchy_row {S : Matrix (Fin m) (Fin m) ℝ} (hS : S.PosDef) (i : Fin m) (y : Fin m → ℝ) :
    (S⁻¹ *ᵥ y) i ^ 2 ≤ S⁻¹ i i * (y ⬝ᵥ (S⁻¹ *ᵥ y)) := by
  set W := S⁻¹ with hW
  have hWp : W.PosSemidef := hS.inv.posSemidef
  have hWs : Wᵀ = W := PosSemidef.symm hWp
  have q : ∀ t : ℝ, 0 ≤ t * t * W i i + 2 * t * (W *ᵥ y) i + y ⬝ᵥ (W *ᵥ y) := by
    intro t
    have h := hWp.dotProduct_mulVec_nonneg (t • Pi.single i 1 + y)
    have e1 : (W *ᵥ (Pi.single i (1 : ℝ))) ⬝ᵥ y = (W *ᵥ y) i := by
      rw [dotProduct_comm, dotProduct_mulVec, ← mulVec_transpose, hWs, dotProduct_single, mul_one]
    have e2 : y ⬝ᵥ (W *ᵥ (Pi.single i (1 : ℝ))) = (W *ᵥ y) i := by rw [dotProduct_comm, e1]
    have e3 : (Pi.single i (1 : ℝ)) ⬝ᵥ (W *ᵥ y) = (W *ᵥ y) i := by rw [single_dotProduct, one_mul]
    have e4 : (Pi.single i (1 : ℝ)) ⬝ᵥ (W *ᵥ (Pi.single i (1 : ℝ))) = W i i := by
      rw [single_dotProduct, one_mul, mulVec_single, MulOpposite.op_one, one_smul]; rfl
    simp only [star_trivial, mulVec_add, mulVec_smul, add_dotProduct, dotProduct_add, smul_dotProduct,
      dotProduct_smul, smul_eq_mul, e2, e3, e4] at h
    linarith
  have hii : 0 < W i i := by
    have := hS.inv.diag_pos (i := i)
    exact this
  have h := q (-((W *ᵥ y) i / W i i))
  have e : -((W *ᵥ y) i / W i i) * -((W *ᵥ y) i / W i i) * W i i + 2 * -((W *ᵥ y) i / W i i) * (W *ᵥ y) i
      + y ⬝ᵥ (W *ᵥ y) = y ⬝ᵥ (W *ᵥ y) - (W *ᵥ y) i ^ 2 / W i i := by
    field_simp
    ring
  rw [e, sub_nonneg, div_le_iff₀ hii] at h
  linarith

/-- The filter when one row observes a component of the state with the variance `v`. -/
theorem pinned_update {s : Nat} {chol : Chol} {dcm : F → Ω → Option (Matrix (Fin 3) (Fin 3) ℝ)}
    (hc : CholSpec chol) {kf kf' : KF F Ω s a} {x : Nominal Ω s} {z : MsrIn s m}
    {t : Option ℝ} {e : Est Ω s} {r : Resid m} {g : Option (Matrix (Fin s) (Fin m) ℝ)}
    (hP : SymPsd kf.prev.covar) (hq : ∀ q ∈ kf.noises, ∀ i, 0 ≤ q.diag i) (hR : SymPsd z.R)
    (h : kf.measurementUpdate chol dcm x z t = .ok (kf', e, r, g)) (hr : r.rejected = false)
    (i : Fin m) (j : Fin s) (v : ℝ) (hHi : z.H i = Pi.single j 1) (hRi : z.R i = Pi.single i v) :
    (v = 0 → (∀ l, e.covar j l = 0 ∧ e.covar l j = 0) ∧ e.dev j = z.real i - z.computed i) ∧
    (0 < v → 0 ≤ e.covar j j ∧ e.covar j j < v) ∧
    (kf.variant = .referenceUpdate →
      (e.dev j - (z.real i - z.computed i)) ^ 2 ≤ v * m * r.ratio ^ 2) := by
  obtain ⟨kb, eb, S, hb, hbar, hPp, hS, hSd, hg, hdev, hcov, _⟩ := accepted_form hc hP hq hR h hr
  obtain ⟨p1, p2, p3⟩ := pinned hS (detUnit hSd) (PosSemidef.symm ((symPsd_iff _).1 hR)) rfl hcov i j v hHi hRi
  have hcs : e.covar.PosSemidef := by
    rw [symPsd_iff] at hP hR
    have := (msr_psd hP hq hR h)
    rw [← this.2.2]; exact this.1
  have hHd : ∀ d : Fin s → ℝ, (z.H *ᵥ d) i = d j := by
    intro d
    rw [Matrix.mulVec, hHi, single_dotProduct, one_mul]
  have hd : e.dev j = (z.real i - z.computed i) -
      v * (S⁻¹ *ᵥ ((z.real - z.computed) - z.H *ᵥ eb.dev)) i := by
    rw [hdev, Pi.add_apply, p1, Pi.sub_apply, Pi.sub_apply, hHd]
    ring
  have hWi : 0 < S⁻¹ i i := hSd.inv.diag_pos
  refine ⟨fun h0 => ⟨fun l => ?_, ?_⟩, fun h0 => ⟨?_, ?_⟩, fun hv => ?_⟩
  · have e1 : ∀ l, e.covar j l = 0 := fun l => by rw [p2 l, h0, zero_mul]
    have e2 : e.covar l j = e.covar j l := by
      have := PosSemidef.symm hcs
      exact congrFun (congrFun this j) l
    exact ⟨e1 l, by rw [e2, e1]⟩
  · rw [hd, h0, zero_mul, sub_zero]
  · exact hcs.diag_nonneg
  · rw [p3]
    have : 0 < v ^ 2 * S⁻¹ i i := by positivity
    linarith
  · have hbd : eb.dev = 0 := by
      obtain ⟨stm, pu, _, _, _, hee⟩ := timeUpdate_ok hb
      rw [hee]
      simp [hv]
    have hvn : 0 ≤ v := by
      have := ((symPsd_iff _).1 hR).diag_nonneg (i := i)
      rwa [hRi, Pi.single_eq_same] at this
    rw [hbd, mulVec_zero, sub_zero] at hd
    have hm : 0 < m := i.pos
    have hmah := (ratio_mahalanobis hc kf kf' x z t e r g hm hP hq hR h).2
    rw [← hbar, Matrix.mul_assoc, ← hS] at hmah
    have hcz := cauchy_row hSd i (z.real - z.computed)
    rw [← hmah] at hcz
    have e1 : (e.dev j - (z.real i - z.computed i)) ^ 2 = v * (v * (S⁻¹ *ᵥ (z.real - z.computed)) i ^ 2) := by
      rw [hd]; ring
    have hjj : 0 ≤ v - v ^ 2 * S⁻¹ i i := by rw [← p3]; exact hcs.diag_nonneg
    rw [e1, mul_assoc]
    refine mul_le_mul_of_nonneg_left ?_ hvn
    rcases hvn.eq_or_lt with h0 | h0
    · rw [← h0, zero_mul]; positivity
    · have h1 : v * S⁻¹ i i ≤ 1 := by
        by_contra hcon
        push Not at hcon
        nlinarith
      have h2 : (0 : ℝ) ≤ r.ratio ^ 2 * m := by positivity
      nlinarith [mul_le_mul_of_nonneg_left hcz hvn, mul_le_mul_of_nonneg_right h1 h2]

/-! ### C205 -/

theorem short_rows {types enabled : List MsrType} {covar bias : MsrType → Out ℝ}
    {row : MsrType → Out (Fin 9 → ℝ)} {data : List (MsrType × ℝ)} {H : Matrix (Fin m) (Fin 9) ℝ}
    {R : Matrix (Fin m) (Fin m) ℝ} {b : Fin m → ℝ} (hH : hTilde m row data types = .ok H)
    (hR : covarMat m enabled covar types = .ok R) (hb : biasVec m enabled bias types = .ok b)
    (i : Fin m) (j : Fin 9) (hi : types.length ≤ i.val) (hij : i.val = j.val) :
    H i = Pi.single j 1 ∧ R i = Pi.single i 0 ∧ b i = 0 := by
  refine ⟨?_, ?_, ?_⟩
  · rw [(hLoop_rows hH i).2.1 (by omega)]
    funext l
    simp only [rectId, Matrix.of_apply, Pi.single_apply, hij, Fin.ext_iff, eq_comm]
  · obtain ⟨h0, _, h2, _⟩ := covarLoop_entries hR i
    funext l
    by_cases hl : i = l
    · subst hl; rw [h2 (by omega)]; simp
    · rw [h0 l hl]; simp
  · rw [(biasLoop_entries hb i).2.1 (by omega)]; rfl

/-- All the devices of the process are tracking devices with non negative variances. -/
def Trackers (cfg : Cfg T MsrType F Ω 9 a m) : Prop :=
  ∀ t d, cfg.devices t = some d → ∃ types covar bias row measure,
    d = trackerDev types covar bias row measure ∧ ∀ k v, covar k = .ok v → 0 ≤ v

/-- C205, refuted for short windows. When a device has fewer types left for a window than the size of the measurements of the process, every
accepted measurement of that window makes the filter certain of a component of the position which was not
measured: for each row `i` that the types do not fill, the variance of component `i` of the state and all its
covariances are exactly zero, and its estimated deviation is exactly zero. -/
theorem short_window_certain (cfg : Cfg T MsrType F Ω 9 a m) (hc : CholSpec cfg.chol) (hd : Trackers cfg)
    (fuel : Nat) (e0 : Est Ω 9) (arc : PArc T MsrType) (sol : List (Entry T MsrType Ω 9 m))
    (hP : SymPsd e0.covar) (hq : ∀ q ∈ cfg.noises, ∀ i, 0 ≤ q.diag i)
    (h : processArc cfg fuel e0 arc = some (.ok sol)) (e : Est Ω 9) (r : Resid m)
    (g : Option (Matrix (Fin 9) (Fin m) ℝ)) (t : T) (types : List MsrType)
    (he : Entry.msr e r g t types ∈ sol) (hr : r.rejected = false) (i : Fin m) (j : Fin 9)
    (hi : types.length ≤ i.val) (hij : i.val = j.val) :
    (∀ l, e.covar j l = 0 ∧ e.covar l j = 0) ∧ e.dev j = 0 := by
  obtain ⟨st, hst, rfl⟩ := processArc_ok h
  have hR : ∀ t dev types e R, cfg.devices t = some dev → dev.covar types e = .ok R → R.PosSemidef := by
    intro t dev types e R h1 h2
    obtain ⟨ts, covar, bias, row, measure, rfl, hv⟩ := hd t dev h1
    exact covarMat_psd hv (toRes_ok.1 h2)
  have key := processAll_invariant
    (fun st => st.kf.prev.covar.PosSemidef ∧ GoodNoises st.kf ∧ ∀ e r g t types,
      Entry.msr e r g t types ∈ st.sol → r.rejected = false → ∀ (i : Fin m) (j : Fin 9),
      types.length ≤ i.val → i.val = j.val →
      (∀ l, e.covar j l = 0 ∧ e.covar l j = 0) ∧ e.dev j = 0)
    (cfg := cfg) (arc := arc) ?_ fuel arc.measurements ?_ hst
  · exact key.2.2 e r g t types he hr i j hi hij
  · rintro st st' ⟨h1, h2, h3⟩ hact
    have htime : ∀ (x : Nominal Ω 9) (st st' : PSt T MsrType F Ω 9 a m), st.kf.prev.covar.PosSemidef →
        GoodNoises st.kf → timeUp cfg x st = .ok st' →
        st'.kf.prev.covar.PosSemidef ∧ GoodNoises st'.kf ∧ ∃ e, st'.sol = st.sol ++ [.time e] := by
      intro x st st' h1 h2 ht
      obtain ⟨kf', e, hu, rfl⟩ := timeUp_ok ht
      obtain ⟨k1, k2, k3⟩ := time_psd h1 h2 hu
      exact ⟨k1, k2, e, rfl⟩
    cases hact with
    | adv z p states h => exact ⟨h1, h2, h3⟩
    | tick _ h =>
      obtain ⟨k1, k2, e, k3⟩ := htime _ _ _ h1 h2 h
      refine ⟨k1, k2, fun e r g t types hm => h3 e r g t types ?_⟩
      rw [k3] at hm
      simpa using hm
    | reject _ z _ h =>
      obtain ⟨k1, k2, e, k3⟩ := htime _ _ _ (by exact h1) (by exact h2) h
      refine ⟨k1, k2, fun e r g t types hm => h3 e r g t types ?_⟩
      rw [k3] at hm
      simpa using hm
    | arrive z _ => exact ⟨h1, h2, h3⟩
    | window _ z dev types hdv h =>
      rcases oneWindow_ok h with ⟨rfl, _⟩ |
        ⟨real, H, R, comp, b, kf', e, r, g, _, hreal, hH, hcov, _, hb, hu, rfl⟩
      · exact ⟨h1, h2, h3⟩
      · have hRp := hR _ _ _ _ _ hdv hcov
        obtain ⟨k1, k2, k3⟩ := msr_psd h1 h2 hRp hu
        refine ⟨k1, k2, ?_⟩
        intro e' r' g' t' types' hx hr' i j hi hij
        rcases List.mem_append.1 hx with hx | hx
        · exact h3 e' r' g' t' types' hx hr' i j hi hij
        · rw [List.mem_singleton] at hx
          cases hx
          obtain ⟨ts, covar, bias, row, measure, rfl, hv⟩ := hd _ _ hdv
          obtain ⟨s1, s2, s3⟩ := short_rows (toRes_ok.1 hH) (toRes_ok.1 hcov) (toRes_ok.1 hb) i j hi hij
          have hn : types[i.val]? = none := List.getElem?_eq_none_iff.2 hi
          have hp := (pinned_update hc ((symPsd_iff _).2 h1) h2 ((symPsd_iff _).2 hRp) hu hr' i j 0 s1 s2).1 rfl
          refine ⟨hp.1, hp.2.trans ?_⟩
          have e1 : real i = 0 := by
            unfold observation at hreal
            split at hreal
            · cases hreal; simp only [hn]
            · cases hreal
          have e2 : obsOf m comp types i = 0 := by simp only [obsOf, hn]
          have e3 : resolve arc.moduli types (obsOf m comp types - b) real i = 0 := by
            cases hm : arc.moduli with
            | none => exact e1
            | some ms => simp only [resolve, hn, e1, add_zero]
          show resolve arc.moduli types (obsOf m comp types - b) real i - (obsOf m comp types - b) i = 0
          rw [e3, Pi.sub_apply, e2, s3]
          norm_num
  · refine ⟨(symPsd_iff _).1 hP, ?_, by simp [start]⟩
    intro q hq'
    simp only [start, KF.initNoises, List.mem_map] at hq'
    obtain ⟨q', h1, rfl⟩ := hq'
    exact hq q' h1

/-! A process of measurements of size two, whose only device measures ranges. -/

/-- The device of the example. -/
noncomputable def exShortDev : Dev Nat MsrType Unit 9 2 :=
  trackerDev [.range] (fun _ => .ok 1) (fun _ => .ok 0) (fun _ _ _ => .ok (Pi.single 0 1))
    (fun _ _ => .ok (some [(.range, 7)]))

/-- The process of the example. -/
noncomputable def exShort : Cfg Nat MsrType Unit Unit 9 3 2 where
  maxStep := 10
  precision := 2
  sigmaReject := none
  variant := .deviationTracking
  noises := []
  fixed := false
  propStep := 5
  devices t := if t = 1 then some exShortDev else none
  adv p d := .ok (⟨⟨p.state.orbit, p.state.epoch + d, p.state.stm⟩, p.step⟩, [])
  plus x _ := x
  chol := someChol
  dcm _ _ := none

/-- One measurement of the range, one from an unknown tracker. -/
noncomputable def exShortArc : PArc Nat MsrType where
  measurements := [⟨1, 5, [(.range, some 8)], false⟩, ⟨7, 9, [], false⟩]
  moduli := none
  forceReject := false

noncomputable def exShortEst : Est Unit 9 := ⟨⟨(), 0, none⟩, 0, 1, 1, 1, false⟩

theorem exShort_trackers : Trackers exShort := by
  intro t d h
  simp only [exShort] at h
  split at h
  · cases h
    exact ⟨_, _, _, _, _, rfl, fun k v hv => by cases hv; norm_num⟩
  · cases h

/-- The inputs of the filter. -/
noncomputable def exShortIn : MsrIn 9 2 :=
  ⟨resolve none [MsrType.range] (obsOf 2 [(MsrType.range, (7 : ℝ))] [MsrType.range] - Function.update (0 : Fin 2 → ℝ) 0 0)
      (fun i : Fin 2 => match [MsrType.range][i.val]? with
        | none => 0
        | some t => match look [(MsrType.range, some (8 : ℝ))] t with
          | some (some v) => v
          | _ => 0),
    obsOf 2 [(MsrType.range, (7 : ℝ))] [MsrType.range] - Function.update (0 : Fin 2 → ℝ) 0 0,
    (0 : Matrix (Fin 2) (Fin 2) ℝ).updateRow 0 (Function.update ((0 : Matrix (Fin 2) (Fin 2) ℝ) 0) 0 1),
    (rectId 2).updateRow 0 (Pi.single 0 1)⟩

theorem exShort_innovation :
    (exShortIn.H * ((1 : Matrix (Fin 9) (Fin 9) ℝ) * exShortIn.Hᵀ) + exShortIn.R).PosDef ∧ exShortIn.R.PosSemidef := by
  have e1 : exShortIn.H * ((1 : Matrix (Fin 9) (Fin 9) ℝ) * exShortIn.Hᵀ) + exShortIn.R = diagonal ![2, 1] := by
    rw [Matrix.one_mul]
    ext i j
    rw [Matrix.add_apply, Matrix.mul_apply, sum9]
    fin_cases i <;> fin_cases j <;>
      simp [exShortIn, Matrix.updateRow_apply, rectId, Pi.single_apply, Function.update_apply] <;> norm_num
  have e2 : exShortIn.R = diagonal ![1, 0] := by
    ext i j
    fin_cases i <;> fin_cases j <;> simp [exShortIn, Matrix.updateRow_apply, Function.update_apply]
  rw [e1, e2]
  refine ⟨posDef_diagonal_iff.2 fun i => ?_, posSemidef_diagonal_iff.2 fun i => ?_⟩ <;> fin_cases i <;> norm_num

theorem exShort_runs : ∃ e r g, processArc exShort 5 exShortEst exShortArc =
    some (.ok [.msr e r g 1 [.range]]) ∧ r.rejected = false := by
  obtain ⟨hS, hR⟩ := exShort_innovation
  have hp : (⟨exShortEst, [], .deviationTracking, 0⟩ : KF Unit Unit 9 3).predict (fun _ _ => none)
      ⟨(), 5, some 1⟩ 1 = .ok (1, 0) := by
    simp [KF.predict, exShortEst, sncLoop, Res.bind]
  obtain ⟨⟨kf', e, r, g⟩, ho⟩ := (singular_innovation (F := Unit) (a := 3) (dcm := fun _ _ => none) someChol_spec
    ⟨exShortEst, [], .deviationTracking, 0⟩ ⟨(), 5, some 1⟩ exShortIn none 1 (1, 0)
    (symPsd_one 9) (by simp) ((symPsd_iff _).2 hR) rfl hp).2 hS
  have hr : r.rejected = false := by
    have := (rejected_is_time_update _ _ _ _ _ _ _ _ ho).1
    simpa using this
  have h1 : oneWindow exShort exShortArc ⟨1, 5, [(.range, some 8)], false⟩ exShortDev [.range]
      ⟨⟨⟨(), 5, some 1⟩, 10⟩, 5, ⟨exShortEst, [], .deviationTracking, 0⟩, [], []⟩ =
      ((⟨exShortEst, [], .deviationTracking, 0⟩ : KF Unit Unit 9 3).measurementUpdate someChol
        (fun _ _ => none) ⟨(), 5, some 1⟩ exShortIn none).bind
          fun r => .ok ⟨⟨⟨(), 5, some 1⟩, 10⟩, 5, r.1, [], [.msr r.2.1 r.2.2.1 r.2.2.2 1 [.range]]⟩ := by
    have a1 : exShortDev.hTilde ⟨1, 5, [(.range, some 8)], false⟩ [.range] ⟨(), 5, some 1⟩ =
      .ok exShortIn.H := rfl
    have a2 : exShortDev.covar [.range] 5 = .ok exShortIn.R := rfl
    have a3 : exShortDev.bias [.range] 5 = .ok (Function.update (0 : Fin 2 → ℝ) 0 0) := rfl
    unfold oneWindow
    rw [if_pos (by rfl)]
    have a0 : observation 2 [(MsrType.range, some 8)] [.range] = some exShortIn.real := by
      unfold observation
      rw [if_pos (by rfl)]
      congr 1
      funext i
      fin_cases i <;> rfl
    have a4 : exShortDev.measure 5 [] = .ok (some [(.range, 7)]) := rfl
    simp only [a0, a1, a2, a3, a4, Res.bind_ok]
    rfl
  have h2 : advanceTo exShort exShortArc ⟨1, 5, [(.range, some 8)], false⟩ 5 (start exShort exShortEst) =
      some (allWindows exShort exShortArc ⟨1, 5, [(.range, some 8)], false⟩ exShortDev [[.range]]
        ⟨⟨⟨(), 5, some 1⟩, 10⟩, 5, ⟨exShortEst, [], .deviationTracking, 0⟩, [], []⟩) := rfl
  rw [allWindows, h1, ho, Res.bind_ok, Res.bind_ok, allWindows] at h2
  have h3 : processAll exShort exShortArc 5 exShortArc.measurements (start exShort exShortEst) =
      some (.ok ⟨⟨⟨(), 9, some 1⟩, 10⟩, 9, kf', [], [.msr e r g 1 [.range]]⟩) := by
    rw [show exShortArc.measurements =
      [⟨1, 5, [(.range, some 8)], false⟩, ⟨7, 9, [], false⟩] from rfl, processAll, h2]
    rfl
  refine ⟨e, r, g, ?_, hr⟩
  unfold processArc
  rw [if_neg (by simp [exShortArc, exShort]), h3]

/-- The variance of the second component of the position is one before and zero after one range. -/
example : ∃ e r g, processArc exShort 5 exShortEst exShortArc = some (.ok [.msr e r g 1 [.range]]) ∧
    exShortEst.covar 1 1 = 1 ∧ e.covar 1 1 = 0 := by
  obtain ⟨e, r, g, h, hr⟩ := exShort_runs
  have := short_window_certain exShort someChol_spec exShort_trackers 5 exShortEst exShortArc _ (symPsd_one 9)
    (by simp [exShort]) h e r g 1 [.range] (by simp) hr 1 1 (by simp) rfl
  exact ⟨e, r, g, h, by simp [exShortEst], (this.1 1).1⟩

/-! ### C205, missing types -/

/-- What a window pushes comes from an update of the filter. -/
theorem pushed {cfg : Cfg T MsrType F Ω 9 a m} {arc : PArc T MsrType} {z : Meas T MsrType}
    {dev : Dev T MsrType Ω 9 m} {types : List MsrType} {st st' : PSt T MsrType F Ω 9 a m}
    (h : oneWindow cfg arc z dev types st = .ok st') {x : Entry T MsrType Ω 9 m}
    (hs : st'.sol = st.sol ++ [x]) :
    ∃ real H R comp b kf' e r g, observation m z.data types = some real ∧
      dev.hTilde z types st.inst.state = .ok H ∧
      dev.covar types st.epoch = .ok R ∧ dev.measure st.epoch st.traj = .ok (some comp) ∧
      dev.bias types st.epoch = .ok b ∧
      st.kf.measurementUpdate cfg.chol cfg.dcm st.inst.state
        ⟨resolve arc.moduli types (obsOf m comp types - b) real, obsOf m comp types - b, R, H⟩
        (threshold cfg arc) = .ok (kf', e, r, g) ∧ st'.kf = kf' ∧ x = .msr e r g z.tracker types := by
  rcases oneWindow_ok h with ⟨rfl, _⟩ |
    ⟨real, H, R, comp, b, kf', e, r, g, _, h1, h2, h3, h4, h5, h6, rfl⟩
  · have := congrArg List.length hs
    simp at this
  · refine ⟨real, H, R, comp, b, kf', e, r, g, h1, h2, h3, h4, h5, h6, rfl, ?_⟩
    have := List.append_cancel_left hs
    simpa using this.symm

/-- C205, refuted when a type is missing. The window holds an enabled type `k` which the measurement does not
have. When the measurement is accepted, the filter has taken the value of row `i` for an observation of component `i` of
the state, with the variance `v` of the type: the observation is zero, the variance of this component is now less
than `v`, and when the reference is updated the estimated deviation of the component is, up to the residual ratio times
`√(v m)`, the opposite of the computed value of the type. -/
theorem missing_type_observed (cfg : Cfg T MsrType F Ω 9 a m) (hc : CholSpec cfg.chol) (arc : PArc T MsrType)
    (z : Meas T MsrType) (types enabled : List MsrType) (covar bias : MsrType → Out ℝ)
    (row : Meas T MsrType → Nominal Ω 9 → MsrType → Out (Fin 9 → ℝ))
    (measure : Int → List (Nominal Ω 9) → Res (Option (List (MsrType × ℝ))))
    (st st' : PSt T MsrType F Ω 9 a m) (hP : SymPsd st.kf.prev.covar)
    (hq : ∀ q ∈ st.kf.noises, ∀ i, 0 ≤ q.diag i) (hv : ∀ k v, covar k = .ok v → 0 ≤ v)
    (hmod : arc.moduli = none)
    (h : oneWindow cfg arc z (trackerDev enabled covar bias row measure) types st = .ok st')
    (e : Est Ω 9) (r : Resid m) (g : Option (Matrix (Fin 9) (Fin m) ℝ))
    (hs : st'.sol = st.sol ++ [.msr e r g z.tracker types]) (hr : r.rejected = false)
    (i : Fin m) (j : Fin 9) (hij : i.val = j.val) (k : MsrType) (v : ℝ) (hk : types[i.val]? = some k)
    (hen : k ∈ enabled) (hmiss : k ∉ z.data.map Prod.fst) (hkv : covar k = .ok v) :
    r.realObs i = 0 ∧ (0 < v → e.covar j j < v) ∧
    (st.kf.variant = .referenceUpdate → (e.dev j - -r.computedObs i) ^ 2 ≤ v * m * r.ratio ^ 2) := by
  obtain ⟨real, H, R, comp, b, kf', e', r', g', hreal, hH, hcov, _, hb, hu, _, hx⟩ := pushed h hs
  cases hx
  have hR := covarMat_psd hv (toRes_ok.1 hcov)
  have hm' : k ∉ (z.data.map fun p => (p.1, p.2.getD 0)).map Prod.fst := by
    simpa [List.map_map, Function.comp_def] using hmiss
  have hHi : H i = Pi.single j 1 := by
    funext l
    rw [(missing_row m _ _ types H (toRes_ok.1 hH) i k hk hm').1 l]
    simp only [Pi.single_apply, hij, Fin.ext_iff, eq_comm]
  have hRi : R i = Pi.single i v := by
    obtain ⟨h0, _, _, h3⟩ := covarLoop_entries (toRes_ok.1 hcov) i
    have h4 := (h3 k (Nat.zero_le _) (by rw [Nat.sub_zero]; exact hk)).2 hen
    rw [hkv] at h4
    injection h4 with h4
    funext l
    by_cases hl : i = l
    · subst hl; rw [← h4]; simp
    · rw [h0 l hl]; simp [Pi.single_apply, Ne.symm hl]
  obtain ⟨_, _, _, _, _, _, _, _, k1, k2, _⟩ := measurementUpdate_ok hu
  have hl : look z.data k = none := by
    clear hreal hu h hs
    generalize z.data = l at hmiss
    induction l with
    | nil => rfl
    | cons p l ih =>
      simp only [List.map_cons, List.mem_cons, not_or] at hmiss
      rw [look, if_neg (Ne.symm hmiss.1), ih hmiss.2]
  have e1 : real i = 0 := by
    unfold observation at hreal
    split at hreal
    · cases hreal; simp only [hk, hl]
    · cases hreal
  have e2 : r.realObs i = 0 := by
    rw [k1, hmod]
    exact e1
  have hp := pinned_update hc hP hq ((symPsd_iff _).2 hR) hu hr i j v hHi hRi
  refine ⟨e2, fun h0 => (hp.2.1 h0).2, fun hvar => ?_⟩
  have := hp.2.2 hvar
  rw [← k1, ← k2, e2, zero_sub] at this
  exact this

/-- C205 (partial). When the types of the window fill the measurement size and the measurement and the device have
all of them, the update of the filter has, in each row, the sensitivity, the variance, the observation and the
computed value less the bias of the type of that row, and no covariance between rows.
What is missing: other windows, see `missing_type_observed` and `short_window_certain`. -/
theorem full_window_partial (cfg : Cfg T MsrType F Ω 9 a m) (arc : PArc T MsrType)
    (z : Meas T MsrType) (types enabled : List MsrType) (covar bias : MsrType → Out ℝ)
    (row : Meas T MsrType → Nominal Ω 9 → MsrType → Out (Fin 9 → ℝ))
    (measure : Int → List (Nominal Ω 9) → Res (Option (List (MsrType × ℝ))))
    (st st' : PSt T MsrType F Ω 9 a m) (hmod : arc.moduli = none)
    (h : oneWindow cfg arc z (trackerDev enabled covar bias row measure) types st = .ok st')
    (x : Entry T MsrType Ω 9 m) (hs : st'.sol = st.sol ++ [x]) (hlen : types.length = m)
    (hall : ∀ k ∈ types, k ∈ enabled ∧ k ∈ z.data.map Prod.fst) :
    ∃ (H : Matrix (Fin m) (Fin 9) ℝ) (v b real : Fin m → ℝ) (comp : List (MsrType × ℝ)) (e : Est Ω 9)
      (r : Resid m) (g : Option (Matrix (Fin 9) (Fin m) ℝ)),
      measure st.epoch st.traj = .ok (some comp) ∧
      (∀ i k, types[i.val]? = some k → row z st.inst.state k = .ok (H i) ∧ covar k = .ok (v i) ∧
        bias k = .ok (b i) ∧ (∃ o, look z.data k = some o ∧ o = some (real i))) ∧
      st.kf.measurementUpdate cfg.chol cfg.dcm st.inst.state
        ⟨real, fun i => obsOf m comp types i - b i, diagonal v, H⟩ (threshold cfg arc) = .ok (st'.kf, e, r, g) ∧
      x = .msr e r g z.tracker types := by
  obtain ⟨real, H, R, comp, b, kf', e', r', g', hreal, hH, hcov, hme, hb, hu, hkf, hx⟩ := pushed h hs
  have hR : R = diagonal fun i => R i i := by
    ext i j
    by_cases hij : i = j
    · subst hij; simp
    · rw [diagonal_apply_ne _ hij, (covarLoop_entries (toRes_ok.1 hcov) i).1 j hij]; rfl
  refine ⟨H, fun i => R i i, b, real, comp, e', r', g', hme, fun i k hk => ⟨?_, ?_, ?_, ?_⟩, ?_, hx⟩
  · have h3 := (hLoop_rows (toRes_ok.1 hH) i).2.2 k (Nat.zero_le _) (by rw [Nat.sub_zero]; exact hk)
    refine h3.2 ?_
    have := (hall k (List.mem_of_getElem? hk)).2
    simpa [List.map_map, Function.comp_def] using this
  · exact ((covarLoop_entries (toRes_ok.1 hcov) i).2.2.2 k (Nat.zero_le _) (by rw [Nat.sub_zero]; exact hk)).2
      (hall k (List.mem_of_getElem? hk)).1
  · exact ((biasLoop_entries (toRes_ok.1 hb) i).2.2 k (Nat.zero_le _) (by rw [Nat.sub_zero]; exact hk)).2
      (hall k (List.mem_of_getElem? hk)).1
  · have hmem := (hall k (List.mem_of_getElem? hk)).2
    have hsome : ∃ o, look z.data k = some o := by
      clear hreal hu h hs hH hall
      generalize z.data = l at hmem ⊢
      induction l with
      | nil => simp at hmem
      | cons p l ih =>
        rw [look]
        split
        · exact ⟨_, rfl⟩
        · rename_i hne
          simp only [List.map_cons, List.mem_cons] at hmem
          exact ih (hmem.resolve_left (Ne.symm hne))
    obtain ⟨o, ho⟩ := hsome
    refine ⟨o, ho, ?_⟩
    unfold observation at hreal
    split at hreal
    · rename_i hfin
      have hf := List.all_eq_true.1 hfin k (List.mem_of_getElem? hk)
      cases hreal
      simp only [ho, hk] at hf ⊢
      cases o with
      | none => simp at hf
      | some y => rfl
    · cases hreal
  · rw [hkf, ← hu, ← hR, hmod]
    rfl

/-! A device which measures the range and the Doppler. -/

/-- The device of the example. -/
noncomputable def exTwoDev : Dev Nat MsrType Unit 9 2 :=
  trackerDev [.range, .doppler] (fun _ => .ok 1) (fun _ => .ok 0) (fun _ _ _ => .ok (Pi.single 0 1))
    (fun _ _ => .ok (some [(.range, 7), (.doppler, 3)]))

/-- The process of the example. -/
noncomputable def exTwo : Cfg Nat MsrType Unit Unit 9 3 2 :=
  ⟨10, 2, none, .referenceUpdate, [], false, 5, fun _ => some exTwoDev, exShort.adv, exShort.plus, someChol,
    fun _ _ => none⟩

/-- The state of the process at the measurement. -/
noncomputable def exTwoSt : PSt Nat MsrType Unit Unit 9 3 2 :=
  ⟨⟨⟨(), 5, some 1⟩, 10⟩, 5, ⟨exShortEst, [], .referenceUpdate, 0⟩, [], []⟩

theorem exTwo_covar : covarMat 2 [.range, .doppler] (fun _ => .ok 1) [.range, .doppler] = .ok 1 := by
  have e : covarMat 2 [.range, .doppler] (fun _ => .ok 1) [.range, .doppler] =
    .ok (((0 : Matrix (Fin 2) (Fin 2) ℝ).updateRow 0 (Function.update ((0 : Matrix (Fin 2) (Fin 2) ℝ) 0) 0 1)).updateRow 1
      (Function.update (((0 : Matrix (Fin 2) (Fin 2) ℝ).updateRow 0
        (Function.update ((0 : Matrix (Fin 2) (Fin 2) ℝ) 0) 0 1)) 1) 1 1)) := rfl
  rw [e]
  congr 1
  ext i j
  fin_cases i <;> fin_cases j <;> simp [Matrix.updateRow_apply, Function.update_apply]

theorem exTwo_runs (z : Meas Nat MsrType) (hav : z.anyAvailable [.range, .doppler] = true) (real : Fin 2 → ℝ)
    (hreal : observation 2 z.data [.range, .doppler] = some real) (H : Matrix (Fin 2) (Fin 9) ℝ)
    (hH : exTwoDev.hTilde z [.range, .doppler] ⟨(), 5, some 1⟩ = .ok H) :
    ∃ st' e r g, oneWindow exTwo exShortArc z exTwoDev [.range, .doppler] exTwoSt = .ok st' ∧
      st'.sol = exTwoSt.sol ++ [.msr e r g z.tracker [.range, .doppler]] ∧ r.rejected = false := by
  obtain ⟨b, hb⟩ : ∃ b, exTwoDev.bias [.range, .doppler] 5 = .ok b := ⟨_, rfl⟩
  have hp : (⟨exShortEst, [], .referenceUpdate, 0⟩ : KF Unit Unit 9 3).predict (fun _ _ => none)
      ⟨(), 5, some 1⟩ 1 = .ok (1, 0) := by
    simp [KF.predict, exShortEst, sncLoop, Res.bind]
  have hS : (H * ((1 : Matrix (Fin 9) (Fin 9) ℝ) * Hᵀ) + 1).PosDef := by
    rw [← Matrix.mul_assoc]
    exact PosDef.posSemidef_add (posSemidef_conj PosSemidef.one H) PosDef.one
  obtain ⟨⟨kf', e, r, g⟩, ho⟩ := (singular_innovation (F := Unit) (a := 3) (dcm := fun _ _ => none) someChol_spec
    ⟨exShortEst, [], .referenceUpdate, 0⟩ ⟨(), 5, some 1⟩
    ⟨resolve none [MsrType.range, .doppler] (obsOf 2 [(MsrType.range, 7), (.doppler, 3)] [.range, .doppler] - b) real,
      obsOf 2 [(MsrType.range, 7), (.doppler, 3)] [.range, .doppler] - b, 1, H⟩ none 1 (1, 0)
    (symPsd_one 9) (by simp) (symPsd_one 2) rfl hp).2 hS
  have hr : r.rejected = false := by
    have := (rejected_is_time_update _ _ _ _ _ _ _ _ ho).1
    simpa using this
  have a2 : exTwoDev.covar [.range, .doppler] 5 = .ok 1 := by
    show toRes (covarMat 2 [.range, .doppler] (fun _ => .ok 1) [.range, .doppler]) = _
    rw [exTwo_covar]
    rfl
  have a4 : exTwoDev.measure 5 [] = .ok (some [(.range, 7), (.doppler, 3)]) := rfl
  refine ⟨⟨(applyUpdate exTwo exTwoSt.inst [] e r.rejected).1, 5, kf', (applyUpdate exTwo exTwoSt.inst [] e r.rejected).2,
    [.msr e r g z.tracker [.range, .doppler]]⟩, e, r, g, ?_, rfl, hr⟩
  unfold oneWindow
  rw [if_pos hav]
  simp only [hreal, exTwoSt, hH, a2, a4, hb, Res.bind_ok]
  rw [show exTwo.chol = someChol from rfl, show exTwo.dcm = fun _ _ => none from rfl,
    show exShortArc.moduli = none from rfl, show threshold exTwo exShortArc = none from rfl, ho]
  rfl

/-- A range without a Doppler, when both are expected: the variance of the second component of the position was one
and the variance of the Doppler is one. -/
example : ∃ st' e r g, oneWindow exTwo exShortArc ⟨1, 5, [(.range, some 8)], false⟩ exTwoDev [.range, .doppler]
    exTwoSt = .ok st' ∧ st'.sol = [.msr e r g 1 [.range, .doppler]] ∧ r.realObs 1 = 0 ∧ e.covar 1 1 < 1 := by
  obtain ⟨st', e, r, g, h1, h2, h3⟩ := exTwo_runs ⟨1, 5, [(.range, some 8)], false⟩ rfl _ rfl _ rfl
  have := missing_type_observed exTwo someChol_spec exShortArc _ _ _ _ _ _ _ exTwoSt st' (symPsd_one 9)
    (by simp [exTwoSt]) (fun k v hv => by cases hv; norm_num) rfl h1 e r g h2 h3 1 1 rfl .doppler 1 rfl
    (by simp) (by simp) rfl
  exact ⟨st', e, r, g, h1, h2, this.1, this.2.1 (by norm_num)⟩

/-- Both are measured. -/
example : ∃ st' x, oneWindow exTwo exShortArc ⟨1, 5, [(.range, some 8), (.doppler, some 2)], false⟩ exTwoDev
    [.range, .doppler] exTwoSt = .ok st' ∧ st'.sol = exTwoSt.sol ++ [x] ∧
    (∀ k ∈ [MsrType.range, .doppler], k ∈ [MsrType.range, .doppler] ∧
      k ∈ [(MsrType.range, some (8 : ℝ)), (.doppler, some 2)].map Prod.fst) := by
  obtain ⟨st', e, r, g, h1, h2, h3⟩ :=
    exTwo_runs ⟨1, 5, [(.range, some 8), (.doppler, some 2)], false⟩ rfl _ rfl _ rfl
  exact ⟨st', _, h1, h2, by simp⟩

/-- Ground stations are such devices: their variances are not negative. -/
theorem station_variance_nonneg (st : Station) (k : MsrType) (v : ℝ) (h : st.covar k = .ok v) : 0 ≤ v := by
  unfold Station.covar at h
  cases hn : st.noises with
  | none => rw [hn] at h; cases h
  | some ns =>
    rw [hn] at h
    simp only [Option.elim_some] at h
    cases hf : find k ns with
    | none => rw [hf] at h; cases h
    | some n =>
      rw [hf] at h
      cases h
      exact (Noise.covariance_nonneg n).1

/-! ### C206 -/

/-- C206. The covariance of the noise of a window: it is the diagonal of the variances of the enabled types, zero in the
rows without a type; it is symmetric and positive semi-definite. -/
theorem noise_covariance (types enabled : List MsrType) (covar : MsrType → Out ℝ)
    (hv : ∀ k v, covar k = .ok v → 0 ≤ v) (R : Matrix (Fin m) (Fin m) ℝ)
    (h : covarMat m enabled covar types = .ok R) :
    SymPsd R ∧ (∀ i j, i ≠ j → R i j = 0) ∧
    (∀ i k, types[i.val]? = some k → k ∈ enabled → covar k = .ok (R i i)) ∧
    (∀ i k, types[i.val]? = some k → k ∉ enabled → R i i = 0) ∧
    (∀ i : Fin m, types.length ≤ i.val → R i i = 0) := by
  refine ⟨(symPsd_iff _).2 (covarMat_psd hv h), fun i j hij => ?_, fun i k hk he => ?_, fun i k hk he => ?_,
    fun i hi => ?_⟩
  · rw [(covarLoop_entries h i).1 j hij]; rfl
  · exact ((covarLoop_entries h i).2.2.2 k (Nat.zero_le _) (by rw [Nat.sub_zero]; exact hk)).2 he
  · rw [((covarLoop_entries h i).2.2.2 k (Nat.zero_le _) (by rw [Nat.sub_zero]; exact hk)).1 he]; rfl
  · rw [(covarLoop_entries h i).2.2.1 (by omega)]; rfl

/-- C206. With tracking devices, the covariances of all the estimates of a solution are symmetric positive
semi-definite: nothing needs to be supposed of the covariances of the measurements. -/
theorem trackers_covariances_psd (cfg : Cfg T MsrType F Ω 9 a m) (hd : Trackers cfg) (fuel : Nat) (e0 : Est Ω 9)
    (arc : PArc T MsrType) (sol : List (Entry T MsrType Ω 9 m)) (hP : SymPsd e0.covar)
    (hq : ∀ q ∈ cfg.noises, ∀ i, 0 ≤ q.diag i) (h : processArc cfg fuel e0 arc = some (.ok sol)) :
    ∀ x ∈ sol, SymPsd x.est.covar := by
  refine solution_covariances_psd cfg fuel e0 arc sol hP hq ?_ h
  intro t dev types e R h1 h2
  obtain ⟨ts, covar, bias, row, measure, rfl, hv⟩ := hd t dev h1
  exact (symPsd_iff _).2 (covarMat_psd hv (toRes_ok.1 h2))

example : SymPsd (1 : Matrix (Fin 2) (Fin 2) ℝ) :=
  (noise_covariance [.range, .doppler] [.range, .doppler] (fun _ => .ok 1) (fun k v h => by cases h; norm_num) 1
    exTwo_covar).1

example : ∃ sol, processArc exShort 5 exShortEst exShortArc = some (.ok sol) ∧ sol.length = 1 ∧
    ∀ x ∈ sol, SymPsd x.est.covar := by
  obtain ⟨e, r, g, h, _⟩ := exShort_runs
  exact ⟨_, h, rfl, trackers_covariances_psd exShort exShort_trackers 5 exShortEst exShortArc _ (symPsd_one 9)
    (by simp [exShort]) h⟩

end Verif.Process
