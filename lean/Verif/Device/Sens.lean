import Verif.Device.PosLink
import Mathlib.Analysis.SpecialFunctions.Trigonometric.InverseDeriv
import Mathlib.Analysis.SpecialFunctions.Trigonometric.ArctanDeriv
import Mathlib.Analysis.InnerProductSpace.Basic
/-!
C43: the sensitivity matrices.
-/
namespace Verif.Device
open Verif.Noise Verif.Spacecraft
open Verif.Mc (Out)

variable {Fr : Type}

/-! ### Specification -/

/-- `row` is the gradient of `f` at `x`: it gives the derivative of `f` in every direction. -/
def IsGradient (f : (Fin 9 → ℝ) → ℝ) (x row : Fin 9 → ℝ) : Prop :=
  ∀ d : Fin 9 → ℝ, HasDerivAt (fun s : ℝ => f (fun j => x j + s * d j)) (∑ j, row j * d j) 0

/-- The position in a vector of the state. -/
def posPart (x : Fin 9 → ℝ) : Fin 3 → ℝ := ![x 0, x 1, x 2]

/-- The velocity in a vector of the state. -/
def velPart (x : Fin 9 → ℝ) : Fin 3 → ℝ := ![x 3, x 4, x 5]

/-- The vector of the state which is estimated: position, velocity, coefficients of reflectivity and of drag,
mass of propellant. -/
def estimated (rx : Craft ℝ Fr) : Fin 9 → ℝ :=
  ![rx.pos 0, rx.pos 1, rx.pos 2, rx.vel 0, rx.vel 1, rx.vel 2, rx.cr, rx.cd, rx.prop]

/-- The range from the point `a`. -/
noncomputable def rangeFrom (a : Fin 3 → ℝ) (x : Fin 9 → ℝ) : ℝ := distance (posPart x) a

/-- The rate of the range from the point `a` which moves with the velocity `w`. -/
noncomputable def rateFrom (a w : Fin 3 → ℝ) (x : Fin 9 → ℝ) : ℝ :=
  ((x 0 - a 0) * (x 3 - w 0) + (x 1 - a 1) * (x 4 - w 1) + (x 2 - a 2) * (x 5 - w 2)) / distance (posPart x) a

/-- The elevation in degrees seen from `a`, above the plane of the first two axes. -/
noncomputable def elevationFrom (a : Fin 3 → ℝ) (x : Fin 9 → ℝ) : ℝ :=
  Real.arcsin ((x 2 - a 2) / distance (posPart x) a) * (180 / Real.pi)

/-- The azimuth in degrees seen from `a`, measured from the first axis towards the second, where the first
coordinate is larger. -/
noncomputable def azimuthFrom (a : Fin 3 → ℝ) (x : Fin 9 → ℝ) : ℝ :=
  Real.arctan ((x 1 - a 1) / (x 0 - a 0)) * (180 / Real.pi)

theorem IsGradient.unique {f : (Fin 9 → ℝ) → ℝ} {x r r' : Fin 9 → ℝ} (h : IsGradient f x r) (h' : IsGradient f x r') :
    r = r' := by
  funext i
  have e := (h (Pi.single i 1)).unique (h' (Pi.single i 1))
  simpa [Pi.single_apply] using e

theorem sum9 (f : Fin 9 → ℝ) : ∑ j, f j = f 0 + f 1 + f 2 + f 3 + f 4 + f 5 + f 6 + f 7 + f 8 := by
  simp only [Fin.sum_univ_succ, Fin.sum_univ_zero]
  simp only [Fin.succ_zero_eq_one, add_zero]
  simp only [← add_assoc]
  rfl

theorem line (a b : ℝ) : HasDerivAt (fun s : ℝ => a + s * b) b 0 :=
  (((hasDerivAt_id (0 : ℝ)).mul_const b).const_add a).congr_deriv (one_mul b)

theorem posPart_sub (rx : Craft ℝ Fr) : posPart (estimated rx) = rx.pos := by
  funext i; fin_cases i <;> rfl

/-- The derivative of the range along a line of states. -/
theorem range_line (a : Fin 3 → ℝ) (x d : Fin 9 → ℝ) (hne : distance (posPart x) a ≠ 0) :
    HasDerivAt (fun s : ℝ => distance (posPart fun j => x j + s * d j) a)
      (((x 0 - a 0) * d 0 + (x 1 - a 1) * d 1 + (x 2 - a 2) * d 2) / distance (posPart x) a) 0 := by
  have e0 : (posPart fun j => x j + (0 : ℝ) * d j) = posPart x := by simp
  have h := distance_deriv (fun s => posPart fun j => x j + s * d j) (fun _ => a) (posPart d) 0 0
    (by intro i; fin_cases i <;> exact line _ _) (fun i => hasDerivAt_const 0 (a i)) (by rw [e0]; exact hne)
  refine h.congr_deriv ?_
  rw [e0]
  congr 1
  simp only [dot3, Pi.sub_apply, posPart, Matrix.cons_val, Pi.zero_apply]
  ring

theorem range_gradient (a : Fin 3 → ℝ) (x : Fin 9 → ℝ) (hne : distance (posPart x) a ≠ 0) :
    IsGradient (rangeFrom a) x (rangeRow (posPart x - a) (distance (posPart x) a)) := by
  intro d
  refine (range_line a x d hne).congr_deriv ?_
  rw [sum9]
  simp only [rangeRow, Matrix.cons_val, Pi.sub_apply, posPart]
  ring

theorem doppler_gradient (a w : Fin 3 → ℝ) (x : Fin 9 → ℝ) (hne : distance (posPart x) a ≠ 0) :
    IsGradient (rateFrom a w) x
      (dopplerRow (posPart x - a) (velPart x - w) (distance (posPart x) a) (rateFrom a w x)) := by
  intro d
  have e0 : (posPart fun j => x j + (0 : ℝ) * d j) = posPart x := by simp
  have p : ∀ i j k : Fin 9, ∀ u v : ℝ, HasDerivAt (fun s : ℝ => (x i + s * d i - u) * (x j + s * d j - v))
      (d i * (x j - v) + (x i - u) * d j) 0 := by
    intro i j _ u v
    refine (((line (x i) (d i)).sub_const u).fun_mul ((line (x j) (d j)).sub_const v)).congr_deriv ?_
    simp
  have h := (((p 0 3 0 (a 0) (w 0)).fun_add (p 1 4 0 (a 1) (w 1))).fun_add (p 2 5 0 (a 2) (w 2))).fun_div
    (range_line a x d hne) (by rw [e0]; exact hne)
  refine h.congr_deriv ?_
  rw [e0, sum9]
  simp only [dopplerRow, rateFrom, Matrix.cons_val, Pi.sub_apply, posPart, velPart, zero_mul, add_zero] at hne ⊢
  field_simp
  ring

/-! ### The matrix -/

/-- The rows of the matrix. -/
theorem hLoop_rows {m : Nat} {row : MsrType → Out (Fin 9 → ℝ)} {data : List (MsrType × ℝ)} :
    ∀ {ks : List MsrType} {o : Nat} {mat H : Matrix (Fin m) (Fin 9) ℝ}, hLoop row data o ks mat = .ok H →
      ∀ i : Fin m, (i.val < o → H i = mat i) ∧ (o + ks.length ≤ i.val → H i = mat i) ∧
        (∀ k, o ≤ i.val → ks[i.val - o]? = some k → (k ∉ data.map Prod.fst → H i = mat i) ∧
          (k ∈ data.map Prod.fst → row k = .ok (H i)))
  | [], o, mat, H, h, i => by
    cases h
    exact ⟨fun _ => rfl, fun _ => rfl, by simp⟩
  | k :: ks, o, mat, H, h, i => by
    rw [hLoop] at h
    split at h
    · rename_i hk
      obtain ⟨r, hr, h⟩ := bind_ok.1 h
      split at h
      · rename_i ho
        obtain ⟨h1, h2, h3⟩ := hLoop_rows h i
        have off : i.val ≠ o → mat.updateRow ⟨o, ho⟩ r i = mat i := by
          intro hne
          exact Matrix.updateRow_ne (by intro he; exact hne (by rw [he]))
        refine ⟨fun hi => ?_, fun hi => ?_, fun j hj hkj => ?_⟩
        · rw [h1 (by omega), off (by omega)]
        · simp only [List.length_cons] at hi
          rw [h2 (by omega), off (by omega)]
        · rcases Nat.eq_or_lt_of_le hj with e | hlt
          · have e0 : i.val - o = 0 := by omega
            rw [e0] at hkj
            cases hkj
            refine ⟨fun hn => absurd (find_isSome.1 hk) hn, fun _ => ?_⟩
            have ei : i = ⟨o, ho⟩ := Fin.ext e.symm
            rw [h1 (by omega), ei, Matrix.updateRow_self, hr]
          · have e0 : i.val - o = (i.val - (o + 1)) + 1 := by omega
            rw [e0, List.getElem?_cons_succ] at hkj
            have := h3 j (by omega) hkj
            rwa [off (by omega)] at this
      · cases h
    · rename_i hk
      obtain ⟨h1, h2, h3⟩ := hLoop_rows h i
      refine ⟨fun hi => h1 (by omega), fun hi => h2 (by simp only [List.length_cons] at hi; omega), fun j hj hkj => ?_⟩
      rcases Nat.eq_or_lt_of_le hj with e | hlt
      · have e0 : i.val - o = 0 := by omega
        rw [e0] at hkj
        cases hkj
        exact ⟨fun _ => h1 (by omega), fun hn => absurd (find_isSome.2 hn) hk⟩
      · have e0 : i.val - o = (i.val - (o + 1)) + 1 := by omega
        rw [e0, List.getElem?_cons_succ] at hkj
        exact h3 j (by omega) hkj

/-- C43 (partial), for a ground station. `tx` is the location and the velocity of the station in the frame of
the receiver, `range` the range that the station computes. The row of a range in the measurement is the
gradient of the range when the range in the measurement is the geometric one; the row of a Doppler is the
gradient of the rate when the Doppler in the measurement is the geometric rate.
What is missing: other values in the measurement (`range_row_scaled`), angles (`elevation_row_unit`,
`azimuth_row_unit`) and rows without a measurement (`missing_row`). -/
theorem station_sensitivity_partial (m : Nat) (a w : Fin 3 → ℝ) (range : ℝ) (data : List (MsrType × ℝ))
    (rx : Craft ℝ Fr) (types : List MsrType) (H : Matrix (Fin m) (Fin 9) ℝ)
    (hH : hTilde m (stationRow (some (a, w)) (some range) data rx) data types = .ok H)
    (hne : distance rx.pos a ≠ 0) (hrange : range = distance rx.pos a)
    (hd1 : ∀ v, find .range data = some v → v = rangeFrom a (estimated rx))
    (hd2 : ∀ v, find .doppler data = some v → v = rateFrom a w (estimated rx)) (i : Fin m) :
    (types[i.val]? = some .range → MsrType.range ∈ data.map Prod.fst →
      IsGradient (rangeFrom a) (estimated rx) (H i)) ∧
    (types[i.val]? = some .doppler → MsrType.doppler ∈ data.map Prod.fst →
      IsGradient (rateFrom a w) (estimated rx) (H i)) := by
  have hrow := (hLoop_rows hH i).2.2
  rw [Nat.sub_zero] at hrow
  have hp := posPart_sub rx
  have hv : velPart (estimated rx) = rx.vel := by funext i; fin_cases i <;> rfl
  constructor
  · intro ht hm
    have h := (hrow _ (Nat.zero_le _) ht).2 hm
    obtain ⟨v, hf⟩ := Option.isSome_iff_exists.1 (find_isSome.2 hm)
    simp only [stationRow, Option.elim_some, hf, Out.ok.injEq] at h
    rw [← h, hd1 v hf]
    have := range_gradient a (estimated rx) (by rw [hp]; exact hne)
    unfold rangeFrom at this ⊢
    rw [hp] at this ⊢
    exact this
  · intro ht hm
    have h := (hrow _ (Nat.zero_le _) ht).2 hm
    obtain ⟨v, hf⟩ := Option.isSome_iff_exists.1 (find_isSome.2 hm)
    simp only [stationRow, Option.elim_some, hf, Out.ok.injEq] at h
    rw [← h, hd2 v hf, hrange]
    have := doppler_gradient a w (estimated rx) (by rw [hp]; exact hne)
    rw [hp, hv] at this
    exact this

/-- C43 (partial), for a link: the rows are the gradients of the range and of its rate when both values in the
measurement are the geometric ones. What is missing: see `link_doppler_row`. -/
theorem link_sensitivity_partial (m : Nat) (a w : Fin 3 → ℝ) (data : List (MsrType × ℝ))
    (rx : Craft ℝ Fr) (types : List MsrType) (H : Matrix (Fin m) (Fin 9) ℝ)
    (hH : hTilde m (linkRow (some (a, w)) data rx) data types = .ok H)
    (hne : distance rx.pos a ≠ 0)
    (hd1 : ∀ v, find .range data = some v → v = rangeFrom a (estimated rx))
    (hd2 : ∀ v, find .doppler data = some v → v = rateFrom a w (estimated rx)) (i : Fin m) :
    (types[i.val]? = some .range → MsrType.range ∈ data.map Prod.fst →
      IsGradient (rangeFrom a) (estimated rx) (H i)) ∧
    (types[i.val]? = some .doppler → MsrType.doppler ∈ data.map Prod.fst →
      IsGradient (rateFrom a w) (estimated rx) (H i)) := by
  have hrow := (hLoop_rows hH i).2.2
  rw [Nat.sub_zero] at hrow
  have hp := posPart_sub rx
  have hv : velPart (estimated rx) = rx.vel := by funext i; fin_cases i <;> rfl
  constructor
  · intro ht hm
    have h := (hrow _ (Nat.zero_le _) ht).2 hm
    obtain ⟨v, hf⟩ := Option.isSome_iff_exists.1 (find_isSome.2 hm)
    simp only [linkRow, Option.elim_some, hf, Out.ok.injEq] at h
    rw [← h, hd1 v hf]
    have := range_gradient a (estimated rx) (by rw [hp]; exact hne)
    unfold rangeFrom at this ⊢
    rw [hp] at this ⊢
    exact this
  · intro ht hm
    have h := (hrow _ (Nat.zero_le _) ht).2 hm
    obtain ⟨v, hf⟩ := Option.isSome_iff_exists.1 (find_isSome.2 hm)
    simp only [linkRow, Option.elim_some, hf] at h
    obtain ⟨rho, hrho, h⟩ := elim_err.1 h
    rw [Out.ok.injEq] at h
    rw [← h, hd2 v hf, hd1 rho hrho, rangeFrom, hp]
    have := doppler_gradient a w (estimated rx) (by rw [hp]; exact hne)
    rw [hp, hv] at this
    exact this

/-- C43, refuted for the range. The row of the range is the gradient times the ratio of the geometric range to
the one in the measurement; with any other value in the measurement it is not the gradient. -/
theorem range_row_scaled (m : Nat) (a w : Fin 3 → ℝ) (range : Option ℝ) (data : List (MsrType × ℝ)) (v : ℝ)
    (rx : Craft ℝ Fr) (types : List MsrType) (H : Matrix (Fin m) (Fin 9) ℝ)
    (hH : hTilde m (stationRow (some (a, w)) range data rx) data types = .ok H)
    (hne : distance rx.pos a ≠ 0) (hv : find .range data = some v) (hv0 : v ≠ 0) (i : Fin m)
    (hi : types[i.val]? = some .range) :
    (∃ grad, IsGradient (rangeFrom a) (estimated rx) grad ∧
      ∀ j, H i j = (distance rx.pos a / v) * grad j) ∧
    (IsGradient (rangeFrom a) (estimated rx) (H i) ↔ v = rangeFrom a (estimated rx)) := by
  have hp := posPart_sub rx
  have h := ((hLoop_rows hH i).2.2 _ (Nat.zero_le _) (by rw [Nat.sub_zero]; exact hi)).2
    (find_isSome.1 (by rw [hv]; rfl))
  simp only [stationRow, Option.elim_some, hv, Out.ok.injEq] at h
  have hg := range_gradient a (estimated rx) (by rw [hp]; exact hne)
  rw [hp] at hg
  have hrow : ∀ j, H i j = (distance rx.pos a / v) * rangeRow (rx.pos - a) (distance rx.pos a) j := by
    intro j
    rw [← h]
    have c : ∀ y : ℝ, y / v = distance rx.pos a / v * (y / distance rx.pos a) := by
      intro y; field_simp
    fin_cases j <;> first | exact c _ | exact (mul_zero _).symm
  refine ⟨⟨_, hg, hrow⟩, fun hH' => ?_, fun e => ?_⟩
  · have e := hH'.unique hg
    by_contra hvne
    have hz : ∀ j, rangeRow (rx.pos - a) (distance rx.pos a) j = 0 := by
      intro j
      have h1 := hrow j
      rw [e] at h1
      have : (distance rx.pos a / v - 1) * rangeRow (rx.pos - a) (distance rx.pos a) j = 0 := by linarith
      rcases mul_eq_zero.1 this with h0 | h0
      · exact absurd (by
          rw [sub_eq_zero, div_eq_one_iff_eq hv0] at h0
          rw [rangeFrom, hp]; exact h0.symm) hvne
      · exact h0
    apply hne
    have z : ∀ y : ℝ, y / distance rx.pos a = 0 → y = 0 := by
      intro y hy
      rwa [div_eq_zero_iff, or_iff_left hne] at hy
    have h0 := z _ (hz 0)
    have h1 := z _ (hz 1)
    have h2 := z _ (hz 2)
    simp only [Pi.sub_apply] at h0 h1 h2
    unfold distance
    rw [h0, h1, h2]
    simp
  · have : distance rx.pos a / v = 1 := by
      rw [e, rangeFrom, hp, div_self hne]
    rw [show H i = rangeRow (rx.pos - a) (distance rx.pos a) from funext fun j => by rw [hrow j, this, one_mul]]
    exact hg

/-- C43, refuted. For a station and for a link, the row of a type which is not in the measurement is not zero:
it is the row of the identity. -/
theorem missing_row (m : Nat) (row : MsrType → Out (Fin 9 → ℝ)) (data : List (MsrType × ℝ))
    (types : List MsrType) (H : Matrix (Fin m) (Fin 9) ℝ) (hH : hTilde m row data types = .ok H) (i : Fin m) (k : MsrType)
    (hi : types[i.val]? = some k) (hk : k ∉ data.map Prod.fst) :
    (∀ j, H i j = if i.val = j.val then 1 else 0) ∧ (i.val < 9 → H i ≠ 0) := by
  have h := ((hLoop_rows hH i).2.2 k (Nat.zero_le _) (by rw [Nat.sub_zero]; exact hi)).1 hk
  have hj : ∀ j, H i j = if i.val = j.val then 1 else 0 := fun j => by rw [h]; rfl
  refine ⟨hj, fun h9 h0 => ?_⟩
  have := hj ⟨i.val, h9⟩
  rw [h0] at this
  simp at this

/-- C43, refuted for the elevation. Even when the horizon of the station is the plane of the first two axes,
the row is not the gradient of the elevation, which is in degrees: it is the gradient divided by `180 / π`. -/
theorem elevation_row_unit (m : Nat) (a w : Fin 3 → ℝ) (range : Option ℝ) (data : List (MsrType × ℝ))
    (rx : Craft ℝ Fr) (types : List MsrType) (H : Matrix (Fin m) (Fin 9) ℝ)
    (hH : hTilde m (stationRow (some (a, w)) range data rx) data types = .ok H)
    (hxy : rx.pos 0 ≠ a 0) (i : Fin m) (hi : types[i.val]? = some .elevation) (hm : MsrType.elevation ∈ data.map Prod.fst) :
    IsGradient (elevationFrom a) (estimated rx) (fun j => (180 / Real.pi) * H i j) ∧
    ¬ IsGradient (elevationFrom a) (estimated rx) (H i) := by
  have h := ((hLoop_rows hH i).2.2 _ (Nat.zero_le _) (by rw [Nat.sub_zero]; exact hi)).2 hm
  simp only [stationRow, Option.elim_some, Out.ok.injEq] at h
  have hp := posPart_sub rx
  set X := rx.pos 0 - a 0 with hX
  set Y := rx.pos 1 - a 1 with hY
  set Z := rx.pos 2 - a 2 with hZ
  have hX0 : X ≠ 0 := sub_ne_zero.2 hxy
  have hxy2 : 0 < X ^ 2 + Y ^ 2 := by positivity
  set q := Real.sqrt (X ^ 2 + Y ^ 2) with hq
  have hqpos : 0 < q := Real.sqrt_pos.2 hxy2
  have hq2 : q ^ 2 = X ^ 2 + Y ^ 2 := Real.sq_sqrt hxy2.le
  set D := distance rx.pos a with hD
  have hD2 : D ^ 2 = X ^ 2 + Y ^ 2 + Z ^ 2 := by
    rw [hD, distance, Real.sq_sqrt (by positivity)]
  have hDpos : 0 < D := Real.sqrt_pos.2 (by positivity)
  have hN : norm3 (rx.pos - a) = D := norm3_sub _ _
  have hrow : elevationRow (rx.pos - a) = ![-(X * Z) / (D ^ 2 * q), -(Y * Z) / (D ^ 2 * q), q / D ^ 2, 0, 0, 0, 0, 0, 0] := by
    unfold elevationRow
    rw [hN]
    simp only [Pi.sub_apply, ← hX, ← hY, ← hZ]
    rw [hD2, show X ^ 2 + Y ^ 2 + Z ^ 2 - Z ^ 2 = X ^ 2 + Y ^ 2 by ring, ← hq]
  have hlt : (Z / D) ^ 2 < 1 := by
    rw [div_pow, div_lt_one (by positivity), hD2]
    linarith
  have hroot : Real.sqrt (1 - (Z / D) ^ 2) = q / D := by
    rw [Real.sqrt_eq_iff_mul_self_eq (by linarith) (by positivity)]
    have : q / D * (q / D) = (X ^ 2 + Y ^ 2) / D ^ 2 := by
      rw [div_mul_div_comm, ← hq2]; ring
    rw [this, div_pow]
    field_simp
    rw [hD2]; ring
  have hgrad : IsGradient (elevationFrom a) (estimated rx) (fun j => (180 / Real.pi) * H i j) := by
    intro d
    have e0 : (posPart fun j => estimated rx j + (0 : ℝ) * d j) = rx.pos := by simp [hp]
    have h1 := ((line (estimated rx 2) (d 2)).sub_const (a 2)).fun_div
      (range_line a (estimated rx) d (by rw [hp]; exact hDpos.ne')) (by rw [e0]; exact hDpos.ne')
    have e1 : (estimated rx 2 + 0 * d 2 - a 2) / distance (posPart fun j => estimated rx j + (0 : ℝ) * d j) a = Z / D := by
      rw [e0, zero_mul, add_zero]; rfl
    have hlo : |Z / D| < 1 := (sq_lt_one_iff_abs_lt_one _).1 hlt
    rw [abs_lt] at hlo
    have h2 := ((Real.hasDerivAt_arcsin (by rw [e1]; linarith) (by rw [e1]; linarith)).comp (0 : ℝ) h1).mul_const
      (180 / Real.pi)
    refine h2.congr_deriv ?_
    rw [e1, e0, hp, hroot, ← hD]
    rw [sum9, ← h, hrow]
    simp only [Matrix.cons_val]
    have c0 : estimated rx 0 = rx.pos 0 := rfl
    have c1 : estimated rx 1 = rx.pos 1 := rfl
    have c2 : estimated rx 2 = rx.pos 2 := rfl
    rw [c0, c1, c2, zero_mul, add_zero, ← hX, ← hY, ← hZ]
    have hz : (1 / (q / D)) * ((d 2 * D - Z * ((X * d 0 + Y * d 1 + Z * d 2) / D)) / D ^ 2) =
        -(X * Z) / (D ^ 2 * q) * d 0 + -(Y * Z) / (D ^ 2 * q) * d 1 + q / D ^ 2 * d 2 := by
      have hk : D ^ 2 - Z ^ 2 = q ^ 2 := by rw [hD2, hq2]; ring
      field_simp
      linear_combination (d 2) * hk
    rw [hz]
    ring
  refine ⟨hgrad, fun hbad => ?_⟩
  have e := congrFun (hbad.unique hgrad) 2
  have h2 : H i 2 = q / D ^ 2 := by rw [← h, hrow]; rfl
  have hpos : 0 < H i 2 := by rw [h2]; positivity
  have hpi : (1 : ℝ) < 180 / Real.pi := by
    rw [lt_div_iff₀ Real.pi_pos]
    linarith [Real.pi_le_four]
  have : H i 2 < 180 / Real.pi * H i 2 := by nlinarith
  exact absurd e this.ne

/-- C43, refuted for the azimuth. Even for an azimuth measured from the first axis towards the second one, the
row is the gradient divided by `180 / π`. -/
theorem azimuth_row_unit (m : Nat) (a w : Fin 3 → ℝ) (range : Option ℝ) (data : List (MsrType × ℝ))
    (rx : Craft ℝ Fr) (types : List MsrType) (H : Matrix (Fin m) (Fin 9) ℝ)
    (hH : hTilde m (stationRow (some (a, w)) range data rx) data types = .ok H)
    (hx : a 0 < rx.pos 0) (i : Fin m) (hi : types[i.val]? = some .azimuth) (hm : MsrType.azimuth ∈ data.map Prod.fst) :
    IsGradient (azimuthFrom a) (estimated rx) (fun j => (180 / Real.pi) * H i j) ∧
    ¬ IsGradient (azimuthFrom a) (estimated rx) (H i) := by
  have h := ((hLoop_rows hH i).2.2 _ (Nat.zero_le _) (by rw [Nat.sub_zero]; exact hi)).2 hm
  simp only [stationRow, Option.elim_some, Out.ok.injEq] at h
  set X := rx.pos 0 - a 0 with hX
  set Y := rx.pos 1 - a 1 with hY
  have hX0 : 0 < X := sub_pos.2 hx
  have hrow : azimuthRow (rx.pos - a) = ![-Y / (X ^ 2 + Y ^ 2), X / (X ^ 2 + Y ^ 2), 0, 0, 0, 0, 0, 0, 0] := by
    unfold azimuthRow
    simp only [Pi.sub_apply, ← hX, ← hY]
  have hgrad : IsGradient (azimuthFrom a) (estimated rx) (fun j => (180 / Real.pi) * H i j) := by
    intro d
    have c0 : estimated rx 0 = rx.pos 0 := rfl
    have c1 : estimated rx 1 = rx.pos 1 := rfl
    have h1 := ((line (estimated rx 1) (d 1)).sub_const (a 1)).fun_div ((line (estimated rx 0) (d 0)).sub_const (a 0))
      (by rw [c0, zero_mul, add_zero, ← hX]; exact hX0.ne')
    have h2 := (h1.arctan).mul_const (180 / Real.pi)
    refine h2.congr_deriv ?_
    rw [sum9, ← h, hrow, c0, c1, zero_mul, zero_mul, add_zero, add_zero, ← hX, ← hY]
    simp only [Matrix.cons_val]
    have hne : X ^ 2 + Y ^ 2 ≠ 0 := by positivity
    field_simp
    ring
  refine ⟨hgrad, fun hbad => ?_⟩
  have e := congrFun (hbad.unique hgrad) 1
  have h2 : H i 1 = X / (X ^ 2 + Y ^ 2) := by rw [← h, hrow]; rfl
  have hpos : 0 < H i 1 := by rw [h2]; positivity
  have hpi : (1 : ℝ) < 180 / Real.pi := by
    rw [lt_div_iff₀ Real.pi_pos]
    linarith [Real.pi_le_four]
  have : H i 1 < 180 / Real.pi * H i 1 := by nlinarith
  exact absurd e this.ne

/-- C43, refuted for the Doppler of a link. The Doppler the link computes has a gradient, which differs from the
row built with its own noiseless measurement by the velocity of the transmitter across the line of sight. -/
theorem link_doppler_row (m : Nat) (tx rx : Craft ℝ Fr) (data : List (MsrType × ℝ)) (types : List MsrType)
    (H : Matrix (Fin m) (Fin 9) ℝ)
    (hH : hTilde m (linkRow (some (tx.pos, tx.vel)) data rx) data types = .ok H)
    (hne : distance rx.pos tx.pos ≠ 0) (rho rate : ℝ) (h1 : find .range data = some rho) (h2 : find .doppler data = some rate)
    (h1' : linkValue tx rx .range 0 = .ok rho) (h2' : linkValue tx rx .doppler 0 = .ok rate) (i : Fin m)
    (hi : types[i.val]? = some .doppler) :
    ∃ grad : Fin 9 → ℝ, IsGradient (rateFrom tx.pos 0) (estimated rx) grad ∧
      rateFrom tx.pos 0 (estimated rx) = rate ∧
      (∀ j : Fin 3, H i (j.castLE (by decide)) = grad (j.castLE (by decide)) - tx.vel j / distance rx.pos tx.pos) ∧
      (IsGradient (rateFrom tx.pos 0) (estimated rx) (H i) ↔ tx.vel = 0) := by
  have hp := posPart_sub rx
  have hv : velPart (estimated rx) = rx.vel := by funext i; fin_cases i <;> rfl
  have h := ((hLoop_rows hH i).2.2 _ (Nat.zero_le _) (by rw [Nat.sub_zero]; exact hi)).2
    (find_isSome.1 (by rw [h2]; rfl))
  simp only [linkRow, Option.elim_some, h1, h2, Out.ok.injEq] at h
  simp only [linkValue, Out.ok.injEq, add_zero, norm3_sub] at h1' h2'
  have hg := doppler_gradient tx.pos 0 (estimated rx) (by rw [hp]; exact hne)
  have hr : rateFrom tx.pos 0 (estimated rx) = rate := by
    rw [← h2', rateFrom, hp]
    simp only [estimated, Matrix.cons_val, dot3, Pi.sub_apply, Pi.zero_apply, sub_zero]
  rw [hr, hp, hv, sub_zero, h1'] at hg
  have hd : ∀ j : Fin 3, H i (j.castLE (by decide)) =
      dopplerRow (rx.pos - tx.pos) rx.vel rho rate (j.castLE (by decide)) - tx.vel j / distance rx.pos tx.pos := by
    intro j
    rw [← h, h1']
    fin_cases j
    · show (rx.vel 0 - tx.vel 0) / rho - rate * (rx.pos - tx.pos) 0 / rho ^ 2 = rx.vel 0 / rho -
        rate * (rx.pos - tx.pos) 0 / rho ^ 2 - tx.vel 0 / rho
      ring
    · show (rx.vel 1 - tx.vel 1) / rho - rate * (rx.pos - tx.pos) 1 / rho ^ 2 = rx.vel 1 / rho -
        rate * (rx.pos - tx.pos) 1 / rho ^ 2 - tx.vel 1 / rho
      ring
    · show (rx.vel 2 - tx.vel 2) / rho - rate * (rx.pos - tx.pos) 2 / rho ^ 2 = rx.vel 2 / rho -
        rate * (rx.pos - tx.pos) 2 / rho ^ 2 - tx.vel 2 / rho
      ring
  refine ⟨_, hg, hr, hd, fun hbad => ?_, fun h0 => ?_⟩
  · have e := hbad.unique hg
    funext j
    have hj := hd j
    rw [e] at hj
    have : tx.vel j / distance rx.pos tx.pos = 0 := by linarith
    rwa [div_eq_zero_iff, or_iff_left hne] at this
  · rw [← h, h0, sub_zero]
    exact hg

/-- C43, for the position device: the row of a coordinate in the measurement is the gradient of this coordinate
of the state, and the other rows are zero. -/
theorem position_sensitivity (m : Nat) (data : List (MsrType × ℝ)) (rx : Craft ℝ Fr) (types : List MsrType)
    (H : Matrix (Fin m) (Fin 9) ℝ) (hH : hTildePos m data types = .ok H) (i : Fin m) :
    (∀ k, types[i.val]? = some k → k ∈ data.map Prod.fst → ∃ c : Fin 3, [MsrType.x, .y, .z][c.val]? = some k ∧
      IsGradient (fun x => posPart x c) (estimated rx) (H i)) ∧
    (∀ k, types[i.val]? = some k → k ∉ data.map Prod.fst → H i = 0) ∧
    (types.length ≤ i.val → H i = 0) := by
  have hrow := (hLoop_rows hH i).2.2
  rw [Nat.sub_zero] at hrow
  have g : ∀ c : Fin 9, IsGradient (fun x => x c) (estimated rx) (Pi.single c 1) := by
    intro c d
    refine (line (estimated rx c) (d c)).congr_deriv ?_
    simp [Pi.single_apply]
  refine ⟨fun k hk hm => ?_, fun k hk hm => (hrow k (Nat.zero_le _) hk).1 hm, fun hl => (hLoop_rows hH i).2.1 (by omega)⟩
  have h := (hrow k (Nat.zero_le _) hk).2 hm
  cases k <;> simp only [posRow, reduceCtorEq, Out.ok.injEq] at h
  · exact ⟨0, rfl, h ▸ g 0⟩
  · exact ⟨1, rfl, h ▸ g 1⟩
  · exact ⟨2, rfl, h ▸ g 2⟩

/-- C43, refuted for a position device with the only type Y: the value it computes is the first coordinate of
the state, and the row says that it depends on the second one only. -/
theorem position_sensitivity_mismatch {S : Type} (g : Rng S) (name : String) (rx : Craft ℝ Fr) :
    ∃ p' v H, PosDevice.instant g (PosDevice.withNoise ⟨name, [], none⟩ .y Stoch.zero) rx none =
        .ok (some ⟨name, rx.epoch, [(.y, v)], false⟩, p', none) ∧
      hTildePos 1 [(.y, v)] [.y] = .ok H ∧ v = estimated rx 0 ∧ IsGradient (fun x => x 1) (estimated rx) (H 0) ∧
      ¬ IsGradient (fun x => x 0) (estimated rx) (H 0) := by
  obtain ⟨p', h⟩ := (position_wrong_axis g name rx).1
  have hH : hTildePos 1 [(MsrType.y, rx.pos 0)] [.y] = .ok ((0 : Matrix (Fin 1) (Fin 9) ℝ).updateRow 0 (Pi.single 1 1)) := by
    simp [hTildePos, hLoop, find, posRow, Out.bind]
  have c : ∀ c : Fin 9, IsGradient (fun x => x c) (estimated rx) (Pi.single c 1) := by
    intro c d
    refine (line (estimated rx c) (d c)).congr_deriv ?_
    simp [Pi.single_apply]
  refine ⟨p', _, _, h, hH, rfl, ?_, fun hbad => ?_⟩
  · rw [Matrix.updateRow_self]; exact c 1
  · rw [Matrix.updateRow_self] at hbad
    have := congrFun (hbad.unique (c 0)) 0
    simp at this

/-! ### The hypotheses can be met -/

/-- A spacecraft seen from the origin at the distance 5. -/
noncomputable def craft2 : Craft ℝ Unit :=
  ⟨(), 0, ![3, 0, 4], ![1, 2, 3], 100, 50, 0, 1, 1, 1, 2, none, .coast, none, none⟩

theorem craft2_distance : distance craft2.pos 0 = 5 := by
  unfold distance craft2
  simp only [Matrix.cons_val, Pi.zero_apply]
  rw [show ((3 : ℝ) - 0) ^ 2 + (0 - 0) ^ 2 + (4 - 0) ^ 2 = 5 ^ 2 by norm_num]
  exact Real.sqrt_sq (by norm_num)

theorem craft2_rate : rateFrom 0 0 (estimated craft2) = 3 := by
  unfold rateFrom
  rw [posPart_sub, craft2_distance]
  simp only [estimated, craft2, Matrix.cons_val, Pi.zero_apply]
  norm_num

example : ∃ H, hTilde 2 (stationRow (some (0, 0)) (some 5) [(.range, 5), (.doppler, 3)] craft2)
      [(.range, 5), (.doppler, 3)] [.doppler, .range] = .ok H ∧
    IsGradient (rateFrom 0 0) (estimated craft2) (H 0) ∧ IsGradient (rangeFrom 0) (estimated craft2) (H 1) := by
  obtain ⟨H, hH⟩ : ∃ H, hTilde 2 (stationRow (some (0, 0)) (some 5) [(.range, 5), (.doppler, 3)] craft2)
      [(.range, 5), (.doppler, 3)] [.doppler, .range] = .ok H := ⟨_, rfl⟩
  have key := station_sensitivity_partial 2 0 0 5 _ craft2 _ H hH (by rw [craft2_distance]; norm_num) craft2_distance.symm
    (by intro v hv; rw [rangeFrom, posPart_sub, craft2_distance]; simpa [find] using hv.symm)
    (by intro v hv; rw [craft2_rate]; simpa [find] using hv.symm)
  exact ⟨H, hH, (key 0).2 rfl (by simp), (key 1).1 rfl (by simp)⟩

example : ∃ H, hTilde 2 (linkRow (some (0, 0)) [(.range, 5), (.doppler, 3)] craft2)
      [(.range, 5), (.doppler, 3)] [.doppler, .range] = .ok H ∧
    IsGradient (rateFrom 0 0) (estimated craft2) (H 0) ∧ IsGradient (rangeFrom 0) (estimated craft2) (H 1) := by
  obtain ⟨H, hH⟩ : ∃ H, hTilde 2 (linkRow (some (0, 0)) [(.range, 5), (.doppler, 3)] craft2)
      [(.range, 5), (.doppler, 3)] [.doppler, .range] = .ok H := ⟨_, rfl⟩
  have key := link_sensitivity_partial 2 0 0 _ craft2 _ H hH (by rw [craft2_distance]; norm_num)
    (by intro v hv; rw [rangeFrom, posPart_sub, craft2_distance]; simpa [find] using hv.symm)
    (by intro v hv; rw [craft2_rate]; simpa [find] using hv.symm)
  exact ⟨H, hH, (key 0).2 rfl (by simp), (key 1).1 rfl (by simp)⟩

/-- A range of 10 instead of 5: the row is half of the gradient. -/
example : ∃ H, hTilde 1 (stationRow (some (0, 0)) none [(.range, 10)] craft2) [(.range, 10)] [.range] = .ok H ∧
    ¬ IsGradient (rangeFrom 0) (estimated craft2) (H 0) := by
  obtain ⟨H, hH⟩ : ∃ H, hTilde 1 (stationRow (some (0, 0)) none [(.range, 10)] craft2) [(.range, 10)] [.range] = .ok H :=
    ⟨_, rfl⟩
  refine ⟨H, hH, fun h => ?_⟩
  have := (range_row_scaled 1 0 0 none _ 10 craft2 _ H hH (by rw [craft2_distance]; norm_num) rfl (by norm_num) 0 rfl).2.1 h
  rw [rangeFrom, posPart_sub, craft2_distance] at this
  norm_num at this

/-- A measurement of the Doppler only, for a station with both types. -/
example : ∃ H, hTilde 2 (stationRow (some (0, 0)) (some 5) [(.doppler, 3)] craft2) [(.doppler, 3)] [.range, .doppler] = .ok H ∧
    H 0 0 = 1 := by
  obtain ⟨H, hH⟩ : ∃ H, hTilde 2 (stationRow (some (0, 0)) (some 5) [(.doppler, 3)] craft2) [(.doppler, 3)]
      [.range, .doppler] = .ok H := ⟨_, rfl⟩
  exact ⟨H, hH, by simpa using (missing_row 2 _ _ _ H hH 0 .range rfl (by simp)).1 0⟩

example : ∃ H, hTilde 2 (stationRow (some (0, 0)) none [(.azimuth, 0), (.elevation, 3)] craft2) [(.azimuth, 0), (.elevation, 3)]
      [.azimuth, .elevation] = .ok H ∧ ¬ IsGradient (azimuthFrom 0) (estimated craft2) (H 0) ∧
    ¬ IsGradient (elevationFrom 0) (estimated craft2) (H 1) := by
  obtain ⟨H, hH⟩ : ∃ H, hTilde 2 (stationRow (some (0, 0)) none [(.azimuth, 0), (.elevation, 3)] craft2)
      [(.azimuth, 0), (.elevation, 3)] [.azimuth, .elevation] = .ok H := ⟨_, rfl⟩
  exact ⟨H, hH, (azimuth_row_unit 2 0 0 none _ craft2 _ H hH (by simp [craft2]) 0 rfl (by simp)).2,
    (elevation_row_unit 2 0 0 none _ craft2 _ H hH (by simp [craft2]) 1 rfl (by simp)).2⟩

/-- A transmitter at the origin which moves. -/
example (tx : Craft ℝ Unit) (h0 : tx.pos = 0) (h1 : tx.vel 1 = 1) : ∃ data H,
    hTilde 1 (linkRow (some (tx.pos, tx.vel)) data craft2) data [.doppler] = .ok H ∧
    ¬ IsGradient (rateFrom tx.pos 0) (estimated craft2) (H 0) := by
  obtain ⟨rho, hr⟩ : ∃ rho, linkValue tx craft2 .range 0 = .ok rho := ⟨_, rfl⟩
  obtain ⟨rate, hd⟩ : ∃ rate, linkValue tx craft2 .doppler 0 = .ok rate := ⟨_, rfl⟩
  obtain ⟨H, hH⟩ : ∃ H, hTilde 1 (linkRow (some (tx.pos, tx.vel)) [(.range, rho), (.doppler, rate)] craft2)
    [(.range, rho), (.doppler, rate)] [.doppler] = .ok H := ⟨_, rfl⟩
  refine ⟨_, H, hH, fun h => ?_⟩
  obtain ⟨grad, -, -, -, hiff⟩ := link_doppler_row 1 tx craft2 _ _ H hH (by rw [h0, craft2_distance]; norm_num) rho rate rfl rfl
    hr hd 0 rfl
  have := congrFun (hiff.1 h) 1
  rw [h1] at this
  norm_num at this

example : ∃ H, hTildePos 3 [(.z, 1), (.x, 2)] [.x, .y, .z] = .ok H ∧ (H 1 = 0) ∧
    IsGradient (fun x => posPart x 2) (estimated craft2) (H 2) := by
  obtain ⟨H, hH⟩ : ∃ H, hTildePos 3 [(.z, 1), (.x, 2)] [.x, .y, .z] = .ok H := ⟨_, rfl⟩
  obtain ⟨c, hc, hg⟩ := (position_sensitivity 3 _ craft2 _ H hH 2).1 .z rfl (by simp)
  have : c = 2 := by
    fin_cases c <;> simp at hc ⊢
  subst this
  exact ⟨H, hH, (position_sensitivity 3 _ craft2 _ H hH 1).2.1 .y rfl (by simp), hg⟩

end Verif.Device
