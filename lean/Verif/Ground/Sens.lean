import Verif.Ground.Coords
import Verif.Device.Sens
/-!
# The sensitivity of the measurements of an asset
-/
namespace Verif.Ground
open Verif.Force Verif.Device Verif.Noise Verif.Spacecraft
open Verif.MathU (V3 nrm)
open Verif.Mc (Out)

variable {Fr : Type}

section
variable {a b : ℝ}

theorem tr_dr (ha : 0 < a) (hb : 0 < b) (x : Fin 6 → ℝ) (q : V3) (i : Fin 3) :
    Tracks x (fun y => (placeOf a b y - q) i) (cartesian a b x ⟨i.val, by omega⟩ - Dual.ofReal (q i)) := by
  refine ((cartesian_tracks ha hb x ⟨i.val, by omega⟩).sub (Tracks.ofReal (q i))).congr fun y => ?_
  fin_cases i <;> rfl

theorem tr_dv (ha : 0 < a) (hb : 0 < b) (x : Fin 6 → ℝ) (w : V3) (i : Fin 3) :
    Tracks x (fun y => (velOf a b y - w) i) (cartesian a b x ⟨i.val + 3, by omega⟩ - Dual.ofReal (w i)) := by
  refine ((cartesian_tracks ha hb x ⟨i.val + 3, by omega⟩).sub (Tracks.ofReal (w i))).congr fun y => ?_
  fin_cases i <;> rfl

theorem range_row_fderiv (ha : 0 < a) (hb : 0 < b) (x : Fin 6 → ℝ) (q : V3) (h0 : placeOf a b x - q ≠ 0) :
    HasFDerivAt (fun y => nrm (placeOf a b y - q)) (lin (rangeRow6 (placeOf a b x - q) (nrm (placeOf a b x - q)) (jac a b x))) x := by
  have h := Tracks.norm3 (tr_dr ha hb x q) h0
  have e0 : (cartesian a b x 0 - Dual.ofReal (q 0)).re = (placeOf a b x - q) 0 := (tr_dr ha hb x q 0).1
  have e1 : (cartesian a b x 1 - Dual.ofReal (q 1)).re = (placeOf a b x - q) 1 := (tr_dr ha hb x q 1).1
  have e2 : (cartesian a b x 2 - Dual.ofReal (q 2)).re = (placeOf a b x - q) 2 := (tr_dr ha hb x q 2).1
  refine h.2.congr_fderiv (congrArg lin (funext fun j => ?_))
  have hn : Real.sqrt ((placeOf a b x - q) 0 ^ 2 + (placeOf a b x - q) 1 ^ 2 + (placeOf a b x - q) 2 ^ 2) = nrm (placeOf a b x - q) := by
    simp only [nrm, dotProduct, Fin.sum_univ_three]; congr 1; ring
  have hp := Verif.MathU.nrm_pos _ h0
  show (↑(2 : ℕ) * (cartesian a b x 0 - Dual.ofReal (q 0)).re ^ 1 * (_ - 0) + ↑(2 : ℕ) * (cartesian a b x 1 - Dual.ofReal (q 1)).re ^ 1 * (_ - 0) +
    ↑(2 : ℕ) * (cartesian a b x 2 - Dual.ofReal (q 2)).re ^ 1 * (_ - 0)) / (2 * Real.sqrt ((cartesian a b x 0 - Dual.ofReal (q 0)).re ^ 2 +
      (cartesian a b x 1 - Dual.ofReal (q 1)).re ^ 2 + (cartesian a b x 2 - Dual.ofReal (q 2)).re ^ 2)) = _
  rw [e0, e1, e2, hn]
  simp only [rangeRow6, Matrix.vecMul, dotProduct, Fin.sum_univ_six, Matrix.cons_val, jac, Matrix.of_apply]
  rw [show (⟨((0 : Fin 3) : ℕ), by decide⟩ : Fin 6) = 0 from rfl, show (⟨((1 : Fin 3) : ℕ), by decide⟩ : Fin 6) = 1 from rfl,
    show (⟨((2 : Fin 3) : ℕ), by decide⟩ : Fin 6) = 2 from rfl]
  push_cast
  field_simp
  ring

theorem doppler_row_fderiv (ha : 0 < a) (hb : 0 < b) (x : Fin 6 → ℝ) (q w : V3) (h0 : placeOf a b x - q ≠ 0) :
    HasFDerivAt (fun y => (placeOf a b y - q) ⬝ᵥ (velOf a b y - w) / nrm (placeOf a b y - q))
      (lin (dopplerRow6 (placeOf a b x - q) (velOf a b x - w) (nrm (placeOf a b x - q))
        ((placeOf a b x - q) ⬝ᵥ (velOf a b x - w) / nrm (placeOf a b x - q)) (jac a b x))) x := by
  have hp := Verif.MathU.nrm_pos _ h0
  have hn : Tracks x (fun y => nrm (placeOf a b y - q))
      ⟨nrm (placeOf a b x - q), rangeRow6 (placeOf a b x - q) (nrm (placeOf a b x - q)) (jac a b x)⟩ := ⟨rfl, range_row_fderiv ha hb x q h0⟩
  have r0 : Tracks x _ (cartesian a b x 0 - Dual.ofReal (q 0)) := tr_dr ha hb x q 0
  have r1 : Tracks x _ (cartesian a b x 1 - Dual.ofReal (q 1)) := tr_dr ha hb x q 1
  have r2 : Tracks x _ (cartesian a b x 2 - Dual.ofReal (q 2)) := tr_dr ha hb x q 2
  have v0 : Tracks x _ (cartesian a b x 3 - Dual.ofReal (w 0)) := tr_dv ha hb x w 0
  have v1 : Tracks x _ (cartesian a b x 4 - Dual.ofReal (w 1)) := tr_dv ha hb x w 1
  have v2 : Tracks x _ (cartesian a b x 5 - Dual.ofReal (w 2)) := tr_dv ha hb x w 2
  have h := ((((r0.mul v0).add (r1.mul v1)).add (r2.mul v2)).div hn hp.ne').congr
    (g := fun y => (placeOf a b y - q) ⬝ᵥ (velOf a b y - w) / nrm (placeOf a b y - q))
    (fun y => by simp only [dotProduct, Fin.sum_univ_three])
  refine h.2.congr_fderiv (congrArg lin (funext fun j => ?_))
  have e0 := r0.1
  have e1 := r1.1
  have e2 := r2.1
  have e3 := v0.1
  have e4 := v1.1
  have e5 := v2.1
  beta_reduce at e0 e1 e2 e3 e4 e5
  show ((((cartesian a b x 0 - Dual.ofReal (q 0)).re * ((cartesian a b x 3).eps j - 0) + ((cartesian a b x 0).eps j - 0) * (cartesian a b x 3 - Dual.ofReal (w 0)).re) +
    ((cartesian a b x 1 - Dual.ofReal (q 1)).re * ((cartesian a b x 4).eps j - 0) + ((cartesian a b x 1).eps j - 0) * (cartesian a b x 4 - Dual.ofReal (w 1)).re) +
    ((cartesian a b x 2 - Dual.ofReal (q 2)).re * ((cartesian a b x 5).eps j - 0) + ((cartesian a b x 2).eps j - 0) * (cartesian a b x 5 - Dual.ofReal (w 2)).re)) *
      nrm (placeOf a b x - q) -
    ((cartesian a b x 0 - Dual.ofReal (q 0)).re * (cartesian a b x 3 - Dual.ofReal (w 0)).re +
     (cartesian a b x 1 - Dual.ofReal (q 1)).re * (cartesian a b x 4 - Dual.ofReal (w 1)).re +
     (cartesian a b x 2 - Dual.ofReal (q 2)).re * (cartesian a b x 5 - Dual.ofReal (w 2)).re) *
      rangeRow6 (placeOf a b x - q) (nrm (placeOf a b x - q)) (jac a b x) j) / (nrm (placeOf a b x - q) * nrm (placeOf a b x - q)) = _
  rw [e0, e1, e2, e3, e4, e5]
  clear h hn e0 e1 e2 e3 e4 e5 r0 r1 r2 v0 v1 v2
  generalize placeOf a b x - q = dr at *
  generalize velOf a b x - w = dv at *
  generalize nrm dr = ρ at *
  simp only [dopplerRow6, rangeRow6, Matrix.vecMul, dotProduct, Fin.sum_univ_six, Fin.sum_univ_three, Matrix.cons_val, jac, Matrix.of_apply]
  field_simp
  ring

section Eps
variable {n : ℕ} (p q : Dual n) (j : Fin n) (c : ℝ)
theorem eps_add : (p + q).eps j = p.eps j + q.eps j := rfl
theorem eps_sub : (p - q).eps j = p.eps j - q.eps j := rfl
theorem eps_mul : (p * q).eps j = p.re * q.eps j + p.eps j * q.re := rfl
theorem eps_div : (p / q).eps j = (p.eps j * q.re - p.re * q.eps j) / (q.re * q.re) := rfl
theorem eps_ofReal : (Dual.ofReal c : Dual n).eps j = 0 := rfl
theorem eps_sqrt : p.sqrt.eps j = p.eps j / (2 * Real.sqrt p.re) := rfl
theorem re_mul : (p * q).re = p.re * q.re := rfl
theorem re_add : (p + q).re = p.re + q.re := rfl
end Eps

/-- The columns of the height and of its rate. -/
theorem jac_height (a b : ℝ) (x : Fin 6 → ℝ) (i : Fin 3) : jac a b x ⟨i.val, by omega⟩ 2 = up (x 0) (x 1) i := by
  fin_cases i <;>
    simp [jac, cartesian, eps_add, eps_sub, eps_mul, eps_div, eps_ofReal, eps_sqrt, re_mul, dsin, dcos, dscale, Dual.vars, up]

theorem jac_heightRate (a b : ℝ) (x : Fin 6 → ℝ) (i : Fin 3) : jac a b x ⟨i.val, by omega⟩ 5 = 0 ∧
    jac a b x ⟨i.val + 3, by omega⟩ 5 = up (x 0) (x 1) i := by
  fin_cases i <;>
    simp [jac, cartesian, eps_add, eps_sub, eps_mul, eps_div, eps_ofReal, eps_sqrt, re_mul, dsin, dcos, dscale, dneg, Dual.vars, up]

end

/-! ### The rows -/

/-- The range of the asset from the transmitter, as it is known: that of the measurement, or the computed one when the measurement has none. -/
def KnownRange (tx : Tx Fr) (data : List (MsrType × ℝ)) (rx : Asset ℝ Fr) (veh : Craft ℝ Fr) (rho : ℝ) : Prop :=
  find .range data = some rho ∨
    find .range data = none ∧ ∃ p, tx.aer veh rx.lat rx.lon rx.height rx.frame = some p ∧ p.range = rho

theorem rangeFor_known {tx : Tx Fr} {data : List (MsrType × ℝ)} {rx : Asset ℝ Fr} {veh : Craft ℝ Fr} {rho : ℝ}
    (h : KnownRange tx data rx veh rho) : tx.rangeFor data rx veh = .ok rho := by
  rcases h with h | ⟨h, p, hp, rfl⟩
  · simp [Tx.rangeFor, h]
  · simp [Tx.rangeFor, h, hp]

theorem row_range {g : Geo Fr} {tx : Tx Fr} {data : List (MsrType × ℝ)} {rx : Asset ℝ Fr} {a b rho : ℝ} {v : V3} {veh : Craft ℝ Fr}
    (hs : g.shape rx.frame = some (a, b)) (ho : g.orbit rx.lat rx.lon rx.height rx.epoch rx.frame = some (place a b rx.lat rx.lon rx.height, v))
    (hv : tx.at' rx.epoch = some veh) (hd : find .range data = some rho) :
    tx.row g data rx .range = .ok (rangeRow6 (place a b rx.lat rx.lon rx.height - veh.pos) rho (jac a b rx.vars)) := by
  simp [Tx.row, Asset.orbit, ho, Out.bind, hv, Asset.jacobian, hs, hd]

theorem row_doppler {g : Geo Fr} {tx : Tx Fr} {data : List (MsrType × ℝ)} {rx : Asset ℝ Fr} {a b rho rate : ℝ} {v : V3} {veh : Craft ℝ Fr}
    (hs : g.shape rx.frame = some (a, b)) (ho : g.orbit rx.lat rx.lon rx.height rx.epoch rx.frame = some (place a b rx.lat rx.lon rx.height, v))
    (hv : tx.at' rx.epoch = some veh) (hd : find .doppler data = some rate) (hr : tx.rangeFor data rx veh = .ok rho) :
    tx.row g data rx .doppler = .ok (dopplerRow6 (place a b rx.lat rx.lon rx.height - veh.pos) (v - veh.vel) rho rate (jac a b rx.vars)) := by
  simp [Tx.row, Asset.orbit, ho, Out.bind, hv, Asset.jacobian, hs, hd, hr]

/-- C180, for a transmitter whose trajectory is in the frame of the asset. `pos` is where the transmitter is in the
frame of the asset: the row of a range is the derivative of the distance to it with respect to the six
variables of the asset, when the range in the measurement is that distance. Missing: other frames, for
which this is false (`range_row_frame`), and noise in the measurement. -/
theorem range_row_partial (g : Geo Fr) (tx : Tx Fr) (data : List (MsrType × ℝ)) (rx : Asset ℝ Fr) (a b : ℝ) (ha : 0 < a) (hb : 0 < b)
    (hf : Faithful g rx a b) (veh : Craft ℝ Fr) (hv : tx.at' rx.epoch = some veh) (pos : V3) (hpos : veh.pos = pos)
    (h0 : placeOf a b rx.vars ≠ pos) (hd : find .range data = some (nrm (placeOf a b rx.vars - pos))) :
    ∃ r, tx.row g data rx .range = .ok r ∧ HasFDerivAt (fun y => nrm (placeOf a b y - pos)) (lin r) rx.vars := by
  obtain ⟨v, ho⟩ := hf.orbit
  refine ⟨_, row_range hf.shape ho hv hd, ?_⟩
  rw [hpos]
  exact range_row_fderiv ha hb rx.vars pos (sub_ne_zero.2 h0)

/-- C180, for a transmitter whose trajectory is in the frame of the asset, and for an asset whose velocity in the
orbit of ANISE is its own. The row of a Doppler is the derivative of the rate of change of the distance.
Missing: an asset that moves, since the orbit has no velocity from its rates, and other frames. -/
theorem doppler_row_partial (g : Geo Fr) (tx : Tx Fr) (data : List (MsrType × ℝ)) (rx : Asset ℝ Fr) (a b : ℝ) (ha : 0 < a) (hb : 0 < b)
    (V : (Fin 6 → ℝ) → V3) (hV : IsVelocity a b V) (hs : g.shape rx.frame = some (a, b))
    (ho : g.orbit rx.lat rx.lon rx.height rx.epoch rx.frame = some (placeOf a b rx.vars, V rx.vars))
    (veh : Craft ℝ Fr) (hv : tx.at' rx.epoch = some veh) (pos vel : V3) (hpos : veh.pos = pos) (hvel : veh.vel = vel)
    (h0 : placeOf a b rx.vars ≠ pos)
    (hr : KnownRange tx data rx veh (nrm (placeOf a b rx.vars - pos)))
    (hd : find .doppler data = some ((placeOf a b rx.vars - pos) ⬝ᵥ (V rx.vars - vel) / nrm (placeOf a b rx.vars - pos))) :
    ∃ r, tx.row g data rx .doppler = .ok r ∧
      HasFDerivAt (fun y => (placeOf a b y - pos) ⬝ᵥ (V y - vel) / nrm (placeOf a b y - pos)) (lin r) rx.vars := by
  have e : V = velOf a b := funext fun y => (hV y).unique (velOf_velocity ha hb y)
  refine ⟨_, row_doppler hs ho hv hd (rangeFor_known hr), ?_⟩
  rw [hpos, hvel, e]
  exact doppler_row_fderiv ha hb rx.vars pos vel (sub_ne_zero.2 h0)

theorem lin_single {n : ℕ} (r : Fin n → ℝ) (j : Fin n) : lin r (Pi.single j 1) = r j := by
  rw [lin_apply, dotProduct_single_one]

/-- A quarter of a turn about the third axis. -/
def quarter (p : V3) : V3 := ![p 1, -p 0, p 2]

/-- An asset where the first axis leaves the unit sphere. -/
def still : Asset ℝ Unit := ⟨0, 0, 0, 0, 0, 0, 0, (), none⟩

/-- A transmitter on the second axis. -/
noncomputable def turned : Craft ℝ Unit :=
  ⟨(), 0, ![0, 2, 0], 0, 0, 0, 0, 0, 0, 0, 0, none, .coast, none, none⟩

/-- Its device, with a range. -/
noncomputable def turnedTx : Tx Unit := ⟨⟨"", [.range, .doppler], none, none, none⟩, fun _ => some turned, fun _ _ _ _ _ => none⟩

/-- The unit sphere, with the conversions for `still`. -/
noncomputable def sphere1 : Geo Unit :=
  ⟨fun _ => some (1, 1), fun la lo he _ _ => some (place 1 1 la lo he, 0), fun _ _ _ => some (0, 0, 0)⟩

/-- C180 is false for a transmitter whose trajectory is in another frame, such as one turned by a quarter: the row
is not the derivative of the distance, even though the measurement is exact. -/
theorem range_row_frame : ∃ (g : Geo Unit) (tx : Tx Unit) (rx : Asset ℝ Unit) (veh : Craft ℝ Unit) (a b : ℝ) (turn : V3 → V3) (r : Fin 6 → ℝ),
    (∀ p, nrm (turn p) = nrm p) ∧ Faithful g rx a b ∧ tx.at' rx.epoch = some veh ∧
    tx.row g [(.range, nrm (placeOf a b rx.vars - turn veh.pos))] rx .range = .ok r ∧
    ¬ HasFDerivAt (fun y => nrm (placeOf a b y - turn veh.pos)) (lin r) rx.vars := by
  have hJ : jac 1 1 still.vars 0 2 = 1 ∧ jac 1 1 still.vars 1 2 = 0 ∧ jac 1 1 still.vars 2 2 = 0 := by
    have h0 := jac_height 1 1 still.vars 0
    have h1 := jac_height 1 1 still.vars 1
    have h2 := jac_height 1 1 still.vars 2
    exact ⟨h0.trans (by simp [up, still, Asset.vars]), h1.trans (by simp [up, still, Asset.vars]), h2.trans (by simp [up, still, Asset.vars])⟩
  have hpl : placeOf 1 1 still.vars = ![1, 0, 0] := by
    funext i
    fin_cases i <;> simp [placeOf, place, up, still, Asset.vars]
  have hsub : placeOf 1 1 still.vars - quarter (![0, 2, 0] : V3) = ![-1, 0, 0] := by
    rw [hpl]
    funext i
    fin_cases i <;> simp [quarter]
    norm_num
  have hne : placeOf 1 1 still.vars - quarter (![0, 2, 0] : V3) ≠ 0 := by
    rw [hsub]
    intro h
    have := congrFun h 0
    simp at this
  have hn : nrm (![-1, 0, 0] : V3) = 1 := by simp [nrm, dotProduct, Fin.sum_univ_three]
  have hrow := row_range (g := sphere1) (tx := turnedTx) (data := [(.range, nrm (placeOf 1 1 still.vars - quarter turned.pos))])
    (rx := still) (a := 1) (b := 1) (v := 0) (veh := turned) rfl rfl rfl rfl
  refine ⟨sphere1, turnedTx, still, turned, 1, 1, quarter, _, ?_, ⟨rfl, ⟨0, rfl⟩, fun _ => ⟨0, rfl⟩⟩, rfl, hrow, ?_⟩
  · intro p
    simp only [quarter, nrm, dotProduct, Fin.sum_univ_three, Matrix.cons_val]
    congr 1
    ring
  · intro hd
    have h2 := hd.unique (range_row_fderiv one_pos one_pos still.vars _ hne)
    have h3 := congrArg (fun L => L (Pi.single 2 1)) h2
    simp only [lin_single] at h3
    rw [show (quarter turned.pos) = quarter (![0, 2, 0] : V3) from rfl, hsub, hn,
      show place 1 1 still.lat still.lon still.height = placeOf 1 1 still.vars from rfl, hpl] at h3
    simp [rangeRow6, Matrix.vecMul, dotProduct, Fin.sum_univ_six, hJ, turned] at h3
    norm_num at h3

/-- C180 is false for an asset whose height changes, when the orbit of ANISE has no such velocity: the row of a
Doppler is not the derivative of the rate of change of the distance, even though the measurement is exact. -/
theorem doppler_row_moving (g : Geo Fr) (tx : Tx Fr) (data : List (MsrType × ℝ)) (rx : Asset ℝ Fr) (a b : ℝ) (ha : 0 < a) (hb : 0 < b)
    (V : (Fin 6 → ℝ) → V3) (hV : IsVelocity a b V) (hs : g.shape rx.frame = some (a, b)) (v : V3)
    (ho : g.orbit rx.lat rx.lon rx.height rx.epoch rx.frame = some (placeOf a b rx.vars, v))
    (hne : (V rx.vars - v) ⬝ᵥ up rx.lat rx.lon ≠ 0)
    (veh : Craft ℝ Fr) (hv : tx.at' rx.epoch = some veh) (h0 : placeOf a b rx.vars ≠ veh.pos)
    (hr : KnownRange tx data rx veh (nrm (placeOf a b rx.vars - veh.pos)))
    (hd : find .doppler data = some ((placeOf a b rx.vars - veh.pos) ⬝ᵥ (V rx.vars - veh.vel) / nrm (placeOf a b rx.vars - veh.pos))) :
    ∃ r, tx.row g data rx .doppler = .ok r ∧
      ¬ HasFDerivAt (fun y => (placeOf a b y - veh.pos) ⬝ᵥ (V y - veh.vel) / nrm (placeOf a b y - veh.pos)) (lin r) rx.vars := by
  have e : V = velOf a b := funext fun y => (hV y).unique (velOf_velocity ha hb y)
  refine ⟨_, row_doppler hs ho hv hd (rangeFor_known hr), fun hc => hne ?_⟩
  rw [e] at hc ⊢
  have hp := Verif.MathU.nrm_pos _ (sub_ne_zero.2 h0)
  have h2 := hc.unique (doppler_row_fderiv ha hb rx.vars veh.pos veh.vel (sub_ne_zero.2 h0))
  have h3 := congrArg (fun L => L (Pi.single 2 1)) h2
  simp only [lin_single] at h3
  have j0 : jac a b rx.vars 0 2 = up rx.lat rx.lon 0 := jac_height a b rx.vars 0
  have j1 : jac a b rx.vars 1 2 = up rx.lat rx.lon 1 := jac_height a b rx.vars 1
  have j2 : jac a b rx.vars 2 2 = up rx.lat rx.lon 2 := jac_height a b rx.vars 2
  rw [show place a b rx.lat rx.lon rx.height = placeOf a b rx.vars from rfl] at h3
  simp only [dopplerRow6, Matrix.vecMul, dotProduct, Fin.sum_univ_six, Matrix.cons_val, j0, j1, j2, Pi.sub_apply] at h3
  simp only [dotProduct, Fin.sum_univ_three, Pi.sub_apply]
  generalize nrm (placeOf a b rx.vars - veh.pos) = ρ at *
  have h4 : ((velOf a b rx.vars 0 - v 0) * up rx.lat rx.lon 0 + (velOf a b rx.vars 1 - v 1) * up rx.lat rx.lon 1 +
      (velOf a b rx.vars 2 - v 2) * up rx.lat rx.lon 2) / ρ = 0 := by
    linear_combination -h3
  rcases div_eq_zero_iff.1 h4 with h5 | h5
  · exact h5
  · exact absurd h5 hp.ne'

/-- C181. What an asset measures does not depend on its rates. -/
theorem measure_ignores_rates {S : Type} (g : Rng S) (durOf : ℝ → Int) (tx : Tx Fr) (x y : Asset ℝ Fr)
    (h : x.lat = y.lat ∧ x.lon = y.lon ∧ x.height = y.height ∧ x.epoch = y.epoch ∧ x.frame = y.frame) (rng : Option S) :
    tx.instant g durOf x rng = tx.instant g durOf y rng := by
  obtain ⟨h1, h2, h3, h4, h5⟩ := h
  simp only [Tx.instant, h1, h2, h3, h4, h5]

/-- C181 is false: whenever the transmitter is above or below the horizontal plane of the asset, the row of a Doppler
is not the derivative of any quantity which, as the measurement, does not depend on the rates. -/
theorem doppler_row_rates (g : Geo Fr) (tx : Tx Fr) (data : List (MsrType × ℝ)) (rx : Asset ℝ Fr) (a b : ℝ)
    (hf : Faithful g rx a b) (veh : Craft ℝ Fr) (hv : tx.at' rx.epoch = some veh) (r : Fin 6 → ℝ)
    (hr : tx.row g data rx .doppler = .ok r) (rho : ℝ) (hrho : KnownRange tx data rx veh rho) (h0 : rho ≠ 0)
    (hup : (placeOf a b rx.vars - veh.pos) ⬝ᵥ up rx.lat rx.lon ≠ 0) (f : (Fin 6 → ℝ) → ℝ)
    (hfr : ∀ y z : Fin 6 → ℝ, y 0 = z 0 → y 1 = z 1 → y 2 = z 2 → f y = f z) : ¬ HasFDerivAt f (lin r) rx.vars := by
  replace hrho := rangeFor_known hrho
  intro hd
  obtain ⟨v, ho⟩ := hf.orbit
  have hrate : ∃ rate, find .doppler data = some rate := by
    simp only [Tx.row, Asset.orbit, ho, Out.bind, Option.elim_some, hv, Asset.jacobian, hf.shape, Option.map_some, hrho] at hr
    cases hq : find .doppler data with
    | none => rw [hq] at hr; cases hr
    | some q => exact ⟨q, rfl⟩
  obtain ⟨rate, hrate⟩ := hrate
  rw [row_doppler hf.shape ho hv hrate hrho] at hr
  cases hr
  have hline : HasDerivAt (fun t : ℝ => rx.vars + t • (Pi.single 5 1 : Fin 6 → ℝ)) (Pi.single 5 1) 0 := by
    simpa using ((hasDerivAt_id (0 : ℝ)).smul_const (Pi.single 5 1 : Fin 6 → ℝ)).const_add rx.vars
  have hc : HasDerivAt (fun t : ℝ => f (rx.vars + t • (Pi.single 5 1 : Fin 6 → ℝ))) _ 0 :=
    HasFDerivAt.comp_hasDerivAt (0 : ℝ) (by simpa using hd) hline
  have h1 : (fun t : ℝ => f (rx.vars + t • (Pi.single 5 1 : Fin 6 → ℝ))) = fun _ => f rx.vars := by
    funext t
    exact hfr _ _ (by simp) (by simp) (by simp)
  rw [h1] at hc
  have h2 := hc.unique (hasDerivAt_const (0 : ℝ) (f rx.vars))
  rw [lin_single] at h2
  obtain ⟨a0, b0⟩ := jac_heightRate a b rx.vars 0
  obtain ⟨a1, b1⟩ := jac_heightRate a b rx.vars 1
  obtain ⟨a2, b2⟩ := jac_heightRate a b rx.vars 2
  apply hup
  simp only [dopplerRow6, Matrix.vecMul, dotProduct, Fin.sum_univ_six, Matrix.cons_val] at h2
  rw [show jac a b rx.vars 0 5 = 0 from a0, show jac a b rx.vars 1 5 = 0 from a1, show jac a b rx.vars 2 5 = 0 from a2,
    show jac a b rx.vars 3 5 = _ from b0, show jac a b rx.vars 4 5 = _ from b1, show jac a b rx.vars 5 5 = _ from b2] at h2
  simp only [dotProduct, Fin.sum_univ_three]
  simp only [mul_zero, zero_add] at h2
  field_simp at h2
  simp only [Asset.vars, Matrix.cons_val] at h2
  have h3 : place a b rx.lat rx.lon rx.height = placeOf a b rx.vars := rfl
  rw [h3] at h2
  linear_combination h2

/-! ### The matrix -/

/-- The rows of the matrix. -/
theorem hLoop6_rows {m : Nat} {row : MsrType → Out (Fin 6 → ℝ)} {data : List (MsrType × ℝ)} :
    ∀ {ks : List MsrType} {o : Nat} {mat H : Matrix (Fin m) (Fin 6) ℝ}, hLoop6 row data o ks mat = .ok H →
      ∀ i : Fin m, (i.val < o → H i = mat i) ∧
        (∀ k, o ≤ i.val → ks[i.val - o]? = some k → (k ∉ data.map Prod.fst → H i = mat i) ∧
          (k ∈ data.map Prod.fst → row k = .ok (H i)))
  | [], o, mat, H, h, i => by
    cases h
    exact ⟨fun _ => rfl, by simp⟩
  | k :: ks, o, mat, H, h, i => by
    rw [hLoop6] at h
    split at h
    · rename_i hk
      obtain ⟨r, hr, h⟩ := bind_ok.1 h
      split at h
      · rename_i ho
        obtain ⟨h1, h3⟩ := hLoop6_rows h i
        have off : i.val ≠ o → mat.updateRow ⟨o, ho⟩ r i = mat i := by
          intro hne
          exact Matrix.updateRow_ne (by intro he; exact hne (by rw [he]))
        refine ⟨fun hi => ?_, fun j hj hkj => ?_⟩
        · rw [h1 (by omega), off (by omega)]
        · rcases Nat.eq_or_lt_of_le hj with e | hlt
          · have e0 : i.val - o = 0 := by omega
            rw [e0] at hkj
            cases hkj
            refine ⟨fun hn => absurd (find_isSome.1 hk) hn, fun _ => ?_⟩
            have ei : i = ⟨o, ho⟩ := Fin.ext e.symm
            rw [h1 (by omega), ei, Matrix.updateRow_self, hr]
          · have e0 : i.val - o = (i.val - (o + 1)) + 1 := by omega
            rw [e0, List.getElem?_cons_succ] at hkj
            have := h3 j (by omega) hkj
            rwa [off (by omega)] at this
      · cases h
    · rename_i hk
      obtain ⟨h1, h3⟩ := hLoop6_rows h i
      refine ⟨fun hi => h1 (by omega), fun j hj hkj => ?_⟩
      rcases Nat.eq_or_lt_of_le hj with e | hlt
      · have e0 : i.val - o = 0 := by omega
        rw [e0] at hkj
        cases hkj
        exact ⟨fun _ => h1 (by omega), fun hm => absurd (find_isSome.2 hm) hk⟩
      · have e0 : i.val - o = (i.val - (o + 1)) + 1 := by omega
        rw [e0, List.getElem?_cons_succ] at hkj
        exact h3 j (by omega) hkj

/-- C182, for the types in the measurement. Each row of the matrix is the row of the type at that place. Missing: the
types which are not in the measurement, whose rows should be zero (`missing_row6`). -/
theorem h_tilde_rows_partial (m : Nat) (row : MsrType → Out (Fin 6 → ℝ)) (data : List (MsrType × ℝ)) (types : List MsrType)
    (H : Matrix (Fin m) (Fin 6) ℝ) (hH : hTilde6 m row data types = .ok H) (i : Fin m) (k : MsrType)
    (hi : types[i.val]? = some k) (hk : k ∈ data.map Prod.fst) : row k = .ok (H i) :=
  ((hLoop6_rows hH i).2 k (Nat.zero_le _) (by rw [Nat.sub_zero]; exact hi)).2 hk

/-- C182 is false: the row of a type which is not in the measurement is that of the identity. -/
theorem missing_row6 (m : Nat) (row : MsrType → Out (Fin 6 → ℝ)) (data : List (MsrType × ℝ)) (types : List MsrType)
    (H : Matrix (Fin m) (Fin 6) ℝ) (hH : hTilde6 m row data types = .ok H) (i : Fin m) (k : MsrType)
    (hi : types[i.val]? = some k) (hk : k ∉ data.map Prod.fst) :
    (∀ j, H i j = if i.val = j.val then 1 else 0) ∧ (i.val < 6 → H i ≠ 0) := by
  have h := ((hLoop6_rows hH i).2 k (Nat.zero_le _) (by rw [Nat.sub_zero]; exact hi)).1 hk
  have hj : ∀ j, H i j = if i.val = j.val then 1 else 0 := fun j => by rw [h]; rfl
  refine ⟨hj, fun h6 h0 => ?_⟩
  have := hj ⟨i.val, h6⟩
  rw [h0] at this
  simp at this

/-! ### The hypotheses are met -/

/-- A transmitter two units along the first axis, which moves away. -/
noncomputable def above : Craft ℝ Unit :=
  ⟨(), 0, ![3, 0, 0], ![1, 0, 0], 0, 0, 0, 0, 0, 0, 0, none, .coast, none, none⟩

noncomputable def aboveTx : Tx Unit := ⟨⟨"", [.range, .doppler], none, none, none⟩, fun _ => some above, fun _ _ _ _ _ => none⟩

theorem still_place : placeOf 1 1 still.vars = ![1, 0, 0] := by
  funext i
  fin_cases i <;> simp [placeOf, place, up, still, Asset.vars]

theorem still_ne : placeOf 1 1 still.vars ≠ above.pos := by
  rw [still_place]
  intro h
  have := congrFun h 0
  simp [above] at this

theorem still_velocity : velOf 1 1 still.vars = 0 := by
  funext i
  fin_cases i <;> simp [velOf, still, Asset.vars]

noncomputable example := range_row_partial sphere1 aboveTx [(.range, nrm (placeOf 1 1 still.vars - above.pos))] still 1 1 one_pos one_pos
  ⟨rfl, ⟨0, rfl⟩, fun _ => ⟨0, rfl⟩⟩ above rfl above.pos rfl still_ne rfl

noncomputable example := doppler_row_partial sphere1 aboveTx
  [(.range, nrm (placeOf 1 1 still.vars - above.pos)),
   (.doppler, (placeOf 1 1 still.vars - above.pos) ⬝ᵥ (velOf 1 1 still.vars - above.vel) / nrm (placeOf 1 1 still.vars - above.pos))]
  still 1 1 one_pos one_pos _ (velOf_velocity one_pos one_pos) rfl (by rw [still_velocity]; rfl) above rfl above.pos above.vel rfl rfl still_ne (Or.inl rfl) rfl

/-- The same asset on its way up. -/
def rising : Asset ℝ Unit := ⟨0, 0, 0, 0, 0, 1, 0, (), none⟩

theorem rising_velocity : velOf 1 1 rising.vars = ![1, 0, 0] := by
  funext i
  fin_cases i <;> simp [velOf, rising, Asset.vars]

noncomputable example := doppler_row_moving sphere1 aboveTx
  [(.range, nrm (placeOf 1 1 rising.vars - above.pos)),
   (.doppler, (placeOf 1 1 rising.vars - above.pos) ⬝ᵥ (velOf 1 1 rising.vars - above.vel) / nrm (placeOf 1 1 rising.vars - above.pos))]
  rising 1 1 one_pos one_pos _ (velOf_velocity one_pos one_pos) rfl 0 rfl (by rw [rising_velocity]; simp [up, rising, dotProduct, Fin.sum_univ_three])
  above rfl still_ne (Or.inl rfl) rfl

noncomputable example (f : (Fin 6 → ℝ) → ℝ) := doppler_row_rates sphere1 aboveTx [(.range, 2), (.doppler, -1)] still 1 1
  ⟨rfl, ⟨0, rfl⟩, fun _ => ⟨0, rfl⟩⟩ above rfl _ (row_doppler (v := 0) rfl rfl rfl rfl rfl) 2 (Or.inl rfl) two_ne_zero
  (by rw [still_place]; simp [up, still, above, dotProduct, Fin.sum_univ_three]; norm_num) f

example : ∃ H, hTilde6 2 (aboveTx.row sphere1 [(.doppler, 3), (.range, 2)] still) [(.doppler, 3), (.range, 2)] [.range, .doppler] = .ok H ∧
    aboveTx.row sphere1 [(.doppler, 3), (.range, 2)] still .doppler = .ok (H 1) := by
  obtain ⟨H, hH⟩ : ∃ H, hTilde6 2 (aboveTx.row sphere1 [(.doppler, 3), (.range, 2)] still) [(.doppler, 3), (.range, 2)]
      [.range, .doppler] = .ok H := ⟨_, rfl⟩
  exact ⟨H, hH, h_tilde_rows_partial 2 _ _ _ H hH 1 .doppler rfl (by simp)⟩

example : ∃ H, hTilde6 2 (aboveTx.row sphere1 [(.range, 2)] still) [(.range, 2)] [.range, .doppler] = .ok H ∧ H 1 1 = 1 := by
  obtain ⟨H, hH⟩ : ∃ H, hTilde6 2 (aboveTx.row sphere1 [(.range, 2)] still) [(.range, 2)] [.range, .doppler] = .ok H := ⟨_, rfl⟩
  exact ⟨H, hH, by simpa using (missing_row6 2 _ _ _ H hH 1 .doppler rfl (by simp)).1 1⟩

example {S : Type} (g : Rng S) (rng : Option S) := measure_ignores_rates g (fun _ => 0) aboveTx still { still with latRate := 1 } ⟨rfl, rfl, rfl, rfl, rfl⟩ rng

/-- **C181, in part.** The sensitivity of a Doppler to the rate of the height is the vertical part of the direction of the transmitter: as that
of the measurement, it is zero exactly if the transmitter is in the horizontal plane of the asset. Missing: the other transmitters
(`doppler_row_rates`). -/
theorem doppler_height_rate_partial (g : Geo Fr) (tx : Tx Fr) (data : List (MsrType × ℝ)) (rx : Asset ℝ Fr) (a b : ℝ)
    (hf : Faithful g rx a b) (veh : Craft ℝ Fr) (hv : tx.at' rx.epoch = some veh) (r : Fin 6 → ℝ)
    (hr : tx.row g data rx .doppler = .ok r) (rho : ℝ) (hrho : KnownRange tx data rx veh rho) (h0 : rho ≠ 0) :
    r 5 = (placeOf a b rx.vars - veh.pos) ⬝ᵥ up rx.lat rx.lon / rho ∧
    (r 5 = 0 ↔ (placeOf a b rx.vars - veh.pos) ⬝ᵥ up rx.lat rx.lon = 0) := by
  replace hrho := rangeFor_known hrho
  obtain ⟨v, ho⟩ := hf.orbit
  have hrate : ∃ rate, find .doppler data = some rate := by
    simp only [Tx.row, Asset.orbit, ho, Out.bind, Option.elim_some, hv, Asset.jacobian, hf.shape, Option.map_some, hrho] at hr
    cases hq : find .doppler data with
    | none => rw [hq] at hr; cases hr
    | some q => exact ⟨q, rfl⟩
  obtain ⟨rate, hrate⟩ := hrate
  rw [row_doppler hf.shape ho hv hrate hrho] at hr
  cases hr
  obtain ⟨a0, b0⟩ := jac_heightRate a b rx.vars 0
  obtain ⟨a1, b1⟩ := jac_heightRate a b rx.vars 1
  obtain ⟨a2, b2⟩ := jac_heightRate a b rx.vars 2
  have key : dopplerRow6 (placeOf a b rx.vars - veh.pos) (v - veh.vel) rho rate (jac a b rx.vars) 5 =
      (placeOf a b rx.vars - veh.pos) ⬝ᵥ up rx.lat rx.lon / rho := by
    simp only [dopplerRow6, Matrix.vecMul, dotProduct, Fin.sum_univ_six, Matrix.cons_val]
    rw [show jac a b rx.vars 0 5 = 0 from a0, show jac a b rx.vars 1 5 = 0 from a1, show jac a b rx.vars 2 5 = 0 from a2,
      show jac a b rx.vars 3 5 = _ from b0, show jac a b rx.vars 4 5 = _ from b1, show jac a b rx.vars 5 5 = _ from b2]
    simp only [Fin.sum_univ_three, mul_zero, zero_add, Asset.vars, Matrix.cons_val]
    ring
  refine ⟨key, fun h => ?_, fun h => ?_⟩
  · exact (div_eq_zero_iff.1 (key.symm.trans h)).resolve_right h0
  · exact key.trans (by rw [h, zero_div])

noncomputable example := doppler_height_rate_partial sphere1 aboveTx [(.range, 2), (.doppler, -1)] still 1 1
  ⟨rfl, ⟨0, rfl⟩, fun _ => ⟨0, rfl⟩⟩ above rfl _ (row_doppler (v := 0) rfl rfl rfl rfl rfl) 2 (Or.inl rfl) two_ne_zero

end Verif.Ground
