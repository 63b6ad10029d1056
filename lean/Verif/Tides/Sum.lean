import Verif.Tides.Potential

/-!
The coefficients of the solid tides and their potential.
-/
namespace Verif.Tides
open Verif.MathU Matrix Polynomial
open Verif.Force (Alm Orb AModel Dual M3)
open Verif.Gravity (Mat loop cdiv legendre potential surface unit har har_eq pw loop_inv loop_step loop_empty get_eq set_eq)
variable {Fr : Type}

/-! ### The direction that is used -/

/-- Specification: the position, out of the axis of the frame by more than the tolerance of the code, or on the axis. -/
def Clear (p : V3) : Prop := p 0 = 0 ∧ p 1 = 0 ∨ 1 / 10 ^ 12 * nrm p < Real.sqrt (p 0 ^ 2 + p 1 ^ 2)

open Classical in
/-- The position with which the coefficients are computed: at longitude zero if it is too close to the axis. -/
noncomputable def seen (p : V3) : V3 :=
  if 1 / 10 ^ 12 * nrm p < Real.sqrt (p 0 ^ 2 + p 1 ^ 2) then p else ![Real.sqrt (p 0 ^ 2 + p 1 ^ 2), 0, p 2]

theorem nrm_three (p : V3) : nrm p ^ 2 = p 0 ^ 2 + p 1 ^ 2 + p 2 ^ 2 := by
  rw [sq, nrm_sq, dot3]
  ring

theorem nrm_of_sq (p : V3) (x : ℝ) (hx : 0 ≤ x) (h : p 0 ^ 2 + p 1 ^ 2 + p 2 ^ 2 = x ^ 2) : nrm p = x := by
  have h1 := nrm_three p
  rw [h] at h1
  exact (sq_eq_sq₀ (nrm_nonneg p) hx).1 h1

theorem seen_nrm (p : V3) : nrm (seen p) = nrm p := by
  unfold seen
  split_ifs
  · rfl
  · apply nrm_of_sq _ _ (nrm_nonneg p)
    simp only [cons_val_zero, cons_val_one, cons_val]
    rw [Real.sq_sqrt (by positivity), nrm_three]
    ring

theorem seen_clear (p : V3) (h : Clear p) : seen p = p := by
  unfold seen
  rcases h with ⟨h0, h1⟩ | h
  · split_ifs
    · rfl
    · funext i
      fin_cases i <;> simp [h0, h1]
  · rw [if_pos h]

theorem seen_near (p : V3) : nrm (seen p - p) ≤ 2 / 10 ^ 12 * nrm p := by
  have hn := nrm_nonneg p
  unfold seen
  split_ifs with h
  · rw [sub_self]
    have : nrm (0 : V3) = 0 := nrm_of_sq _ _ le_rfl (by simp)
    rw [this]
    positivity
  · rw [not_lt] at h
    have h0 := Real.sqrt_nonneg (p 0 ^ 2 + p 1 ^ 2)
    have hs := Real.sq_sqrt (show 0 ≤ p 0 ^ 2 + p 1 ^ 2 by positivity)
    set w := Real.sqrt (p 0 ^ 2 + p 1 ^ 2) with hw
    refine le_trans ?_ (show 2 * w ≤ _ by linarith)
    have e := nrm_three (![w, 0, p 2] - p)
    simp only [Pi.sub_apply, cons_val_zero, cons_val_one, cons_val] at e
    refine (sq_le_sq₀ (nrm_nonneg _) (by positivity)).1 ?_
    rw [e]
    have ha : -w ≤ p 0 := by nlinarith [sq_nonneg (p 1), sq_nonneg (p 0 + w)]
    nlinarith

theorem cosPhi_eq (p : V3) (hp : p ≠ 0) : cosPhi (p 2 / nrm p) = Real.sqrt (p 0 ^ 2 + p 1 ^ 2) / nrm p := by
  have hn := nrm_pos p hp
  have e : 1 - (p 2 / nrm p) ^ 2 = (p 0 ^ 2 + p 1 ^ 2) / nrm p ^ 2 := by
    have := nrm_three p
    field_simp
    linarith
  rw [cosPhi, e, max_eq_left (by positivity), Real.sqrt_div (by positivity), Real.sqrt_sq hn.le]

/-- The cosine and the sine of the longitude in the code are those of the direction that is used. -/
theorem lambda_eq (p : V3) (hp : p ≠ 0) :
    cosPhi (p 2 / nrm p) * (lambda (p 0 / nrm p) (p 1 / nrm p) (cosPhi (p 2 / nrm p))).1 = seen p 0 / nrm p ∧
    cosPhi (p 2 / nrm p) * (lambda (p 0 / nrm p) (p 1 / nrm p) (cosPhi (p 2 / nrm p))).2 = seen p 1 / nrm p ∧ seen p 2 = p 2 := by
  have hn := nrm_pos p hp
  rw [cosPhi_eq p hp]
  have hiff : Real.sqrt (p 0 ^ 2 + p 1 ^ 2) / nrm p > 1 / 10 ^ 12 ↔ 1 / 10 ^ 12 * nrm p < Real.sqrt (p 0 ^ 2 + p 1 ^ 2) := by
    rw [gt_iff_lt, lt_div_iff₀ hn]
  unfold lambda seen
  by_cases h : 1 / 10 ^ 12 * nrm p < Real.sqrt (p 0 ^ 2 + p 1 ^ 2)
  · rw [if_pos h, if_pos (hiff.2 h), if_pos (hiff.2 h)]
    have hw : 0 < Real.sqrt (p 0 ^ 2 + p 1 ^ 2) := lt_of_le_of_lt (by positivity) h
    refine ⟨?_, ?_, rfl⟩ <;> field_simp
  · rw [if_neg h, if_neg (fun hh => h (hiff.1 hh)), if_neg (fun hh => h (hiff.1 hh))]
    simp

/-! ### The coefficients of one body -/

/-- The factor of the coefficients of degree `n`. -/
noncomputable def common (k2 k3 mu radius : ℝ) (b : Body) (n : ℕ) : ℝ :=
  (if n = 2 then k2 else k3) / (2 * n + 1) * (b.mu / mu) * (radius / nrm b.pos) ^ (n + 1)

/-- The direction of the body as in the code. -/
noncomputable def angle (b : Body) (m : ℕ) : ℝ × ℝ :=
  let l := lambda (b.pos 0 / nrm b.pos) (b.pos 1 / nrm b.pos) (cosPhi (b.pos 2 / nrm b.pos))
  multiple l.1 l.2 m

/-- What a body adds to the coefficients. -/
noncomputable def dC (k2 k3 mu radius : ℝ) (b : Body) (n m : ℕ) : ℝ :=
  if 2 ≤ n ∧ n ≤ (if b.degree3 then 3 else 2) ∧ m ≤ n then
    common k2 k3 mu radius b n * pnm (b.pos 2 / nrm b.pos) (cosPhi (b.pos 2 / nrm b.pos)) n m * (angle b m).1 else 0

noncomputable def dS (k2 k3 mu radius : ℝ) (b : Body) (n m : ℕ) : ℝ :=
  if 2 ≤ n ∧ n ≤ (if b.degree3 then 3 else 2) ∧ m ≤ n then
    common k2 k3 mu radius b n * pnm (b.pos 2 / nrm b.pos) (cosPhi (b.pos 2 / nrm b.pos)) n m * (angle b m).2 else 0

theorem dC_in (k2 k3 mu radius : ℝ) (b : Body) (n m : ℕ) (h1 : 2 ≤ n) (h2 : n ≤ if b.degree3 then 3 else 2) (h3 : m ≤ n) :
    dC k2 k3 mu radius b n m =
      common k2 k3 mu radius b n * pnm (b.pos 2 / nrm b.pos) (cosPhi (b.pos 2 / nrm b.pos)) n m * (angle b m).1 := if_pos ⟨h1, h2, h3⟩

theorem dC_out (k2 k3 mu radius : ℝ) (b : Body) (n m : ℕ) (h : ¬ (2 ≤ n ∧ (n ≤ if b.degree3 then 3 else 2) ∧ m ≤ n)) :
    dC k2 k3 mu radius b n m = 0 := if_neg h

theorem dS_in (k2 k3 mu radius : ℝ) (b : Body) (n m : ℕ) (h1 : 2 ≤ n) (h2 : n ≤ if b.degree3 then 3 else 2) (h3 : m ≤ n) :
    dS k2 k3 mu radius b n m =
      common k2 k3 mu radius b n * pnm (b.pos 2 / nrm b.pos) (cosPhi (b.pos 2 / nrm b.pos)) n m * (angle b m).2 := if_pos ⟨h1, h2, h3⟩

theorem dS_out (k2 k3 mu radius : ℝ) (b : Body) (n m : ℕ) (h : ¬ (2 ≤ n ∧ (n ≤ if b.degree3 then 3 else 2) ∧ m ≤ n)) :
    dS k2 k3 mu radius b n m = 0 := if_neg h

theorem dir_sq (p : V3) (hp : p ≠ 0) : (p 0 / nrm p) ^ 2 + (p 1 / nrm p) ^ 2 + (p 2 / nrm p) ^ 2 = 1 := by
  have hn := nrm_pos p hp
  have := nrm_three p
  field_simp
  linarith

theorem surface_har (C S : ℕ → ℕ → ℝ) (q : V3) (n m : ℕ) : surface C S q n m =
    unit n m * (derivative^[m] (legendre n)).eval (q 2 / nrm q) * har (C n m) (S n m) (q 0 / nrm q) (q 1 / nrm q) m := by
  rw [surface, ← har_eq]

theorem surface_zero (C S : ℕ → ℕ → ℝ) (q : V3) (n m : ℕ) (h1 : C n m = 0) (h2 : S n m = 0) : surface C S q n m = 0 := by
  rw [surface_har, h1, h2, har]
  ring

/-- The potential of what a body adds is the one of its tide. -/
theorem body_potential (k2 k3 mu radius : ℝ) (b : Body) (q : V3) (hmu : mu ≠ 0) (hb : b.pos ≠ 0) :
    potential 3 3 (dC k2 k3 mu radius b) (dS k2 k3 mu radius b) mu radius q = tidal k2 k3 radius ⟨b.mu, seen b.pos, b.degree3⟩ q := by
  by_cases hq : q = 0
  · subst hq
    have h0 : nrm (0 : V3) = 0 := nrm_of_sq _ _ le_rfl (by simp)
    simp [potential, tidal, h0]
  have hn := nrm_pos q hq
  have hnb := nrm_pos b.pos hb
  obtain ⟨e1, e2, e3⟩ := lambda_eq b.pos hb
  have hseen : seen b.pos ≠ 0 := by
    intro h
    have := seen_nrm b.pos
    rw [h] at this
    have h0 : nrm (0 : V3) = 0 := nrm_of_sq _ _ le_rfl (by simp)
    rw [h0] at this
    exact hnb.ne this
  have hdir := dir_sq (seen b.pos) hseen
  rw [seen_nrm] at hdir
  have hdq := dir_sq q hq
  have hx : q 0 / nrm q * (seen b.pos 0 / nrm b.pos) + q 1 / nrm q * (seen b.pos 1 / nrm b.pos) + q 2 / nrm q * (seen b.pos 2 / nrm b.pos) =
      q ⬝ᵥ seen b.pos / (nrm q * nrm b.pos) := by
    rw [dot3]
    field_simp
  have E2 := eval_two (q 2 / nrm q)
  have E3 := eval_three (q 2 / nrm q)
  obtain ⟨u0, u1, u2, v0, v1, v2, v3⟩ := units
  have c1 : ∀ m, surface (dC k2 k3 mu radius b) (dS k2 k3 mu radius b) q 1 m = 0 := fun m =>
    surface_zero _ _ _ _ _ (if_neg (by omega)) (if_neg (by omega))
  have D2 := degree_two (common k2 k3 mu radius b 2) (q 0 / nrm q) (q 1 / nrm q) (q 2 / nrm q) (seen b.pos 0 / nrm b.pos)
    (seen b.pos 1 / nrm b.pos) (seen b.pos 2 / nrm b.pos) _ _ _ e1 e2 (by
      rw [cosPhi_eq b.pos hb]
      have h1 := seen_nrm b.pos
      have h2 := nrm_three (seen b.pos)
      rw [h1, e3] at h2
      have h3 := nrm_three b.pos
      rw [div_pow, Real.sq_sqrt (by positivity)]
      field_simp
      linarith) hdir hdq
  have D3 := degree_three (common k2 k3 mu radius b 3) (q 0 / nrm q) (q 1 / nrm q) (q 2 / nrm q) (seen b.pos 0 / nrm b.pos)
    (seen b.pos 1 / nrm b.pos) (seen b.pos 2 / nrm b.pos) _ _ _ e1 e2 hdir hdq
  rw [hx] at D2 D3
  have s2 : surface (dC k2 k3 mu radius b) (dS k2 k3 mu radius b) q 2 0 + surface (dC k2 k3 mu radius b) (dS k2 k3 mu radius b) q 2 1 +
      surface (dC k2 k3 mu radius b) (dS k2 k3 mu radius b) q 2 2 = common k2 k3 mu radius b 2 * 5 * p2 (q ⬝ᵥ seen b.pos / (nrm q * nrm b.pos)) := by
    rw [← D2]
    simp only [surface_har, E2.1, E2.2.1, E2.2.2, u0, u1, u2]
    have hc : ∀ m, m ≤ 2 → (2 ≤ 2 ∧ 2 ≤ (if b.degree3 then 3 else 2) ∧ m ≤ 2) := fun m hm => ⟨le_rfl, by split_ifs <;> omega, hm⟩
    simp only [dC, dS, if_pos (hc 0 (by omega)), if_pos (hc 1 (by omega)), if_pos (hc 2 (by omega)), angle, multiple, e3]
  have s3 : b.degree3 = true → surface (dC k2 k3 mu radius b) (dS k2 k3 mu radius b) q 3 0 +
      surface (dC k2 k3 mu radius b) (dS k2 k3 mu radius b) q 3 1 + surface (dC k2 k3 mu radius b) (dS k2 k3 mu radius b) q 3 2 +
      surface (dC k2 k3 mu radius b) (dS k2 k3 mu radius b) q 3 3 =
        common k2 k3 mu radius b 3 * 7 * p3 (q ⬝ᵥ seen b.pos / (nrm q * nrm b.pos)) := by
    intro h3
    rw [← D3]
    simp only [surface_har, E3.1, E3.2.1, E3.2.2.1, E3.2.2.2, v0, v1, v2, v3]
    have hc : ∀ m, m ≤ 3 → (2 ≤ 3 ∧ 3 ≤ (if b.degree3 then 3 else 2) ∧ m ≤ 3) := fun m hm => ⟨by omega, by simp [h3], hm⟩
    simp only [dC, dS, if_pos (hc 0 (by omega)), if_pos (hc 1 (by omega)), if_pos (hc 2 (by omega)), if_pos (hc 3 (by omega)), angle,
      multiple, e3]
  have s3' : b.degree3 = false → ∀ m, surface (dC k2 k3 mu radius b) (dS k2 k3 mu radius b) q 3 m = 0 := fun h m =>
    surface_zero _ _ _ _ _ (if_neg (by simp [h])) (if_neg (by simp [h]))
  simp only [potential, Finset.sum_range_succ, Finset.sum_range_zero, zero_add, Nat.reduceAdd, Nat.reduceLeDiff, min_eq_left,
    show min 1 3 = 1 by rfl, show min 2 3 = 2 by rfl, show min 3 3 = 3 by rfl, c1, s2, add_zero, mul_zero]
  have w2 : mu / nrm q * (radius / nrm q) ^ 2 * (common k2 k3 mu radius b 2 * 5 * p2 (q ⬝ᵥ seen b.pos / (nrm q * nrm b.pos))) =
      k2 * b.mu * radius ^ 5 / (nrm b.pos ^ 3 * nrm q ^ 3) * p2 (q ⬝ᵥ seen b.pos / (nrm q * nrm b.pos)) := by
    rw [common, if_pos rfl]
    push_cast
    field_simp
    ring
  have w3 : mu / nrm q * (radius / nrm q) ^ 3 * (common k2 k3 mu radius b 3 * 7 * p3 (q ⬝ᵥ seen b.pos / (nrm q * nrm b.pos))) =
      k3 * b.mu * radius ^ 7 / (nrm b.pos ^ 4 * nrm q ^ 4) * p3 (q ⬝ᵥ seen b.pos / (nrm q * nrm b.pos)) := by
    rw [common, if_neg (by omega)]
    push_cast
    field_simp
    ring
  rw [w2]
  cases h3 : b.degree3 with
  | false =>
    have hz := s3' h3
    simp only [hz, add_zero, mul_zero, tidal, seen_nrm, Bool.false_eq_true, if_false]
  | true =>
    rw [s3 h3, w3]
    simp only [tidal, seen_nrm, if_true]

/-! ### The loops -/

theorem addTo_full (C : ℕ → ℕ → ℝ) (n k : ℕ) (x : ℝ) (hn : n ≤ 3) (hk : k ≤ 3) :
    addTo (full C) n k x = some (full fun a b => C a b + if a = n ∧ b = k then x else 0) := by
  unfold addTo
  rw [full_get C n k hn hk, Option.bind_some, set_eq _ (by simp only [full]; omega) (by simp only [full]; omega)]
  congr 1
  unfold full
  congr 1
  funext a b
  by_cases h : a = n ∧ b = k
  · simp only [if_pos h, h.1, h.2, and_self, if_true]
  · simp only [if_neg h, add_zero]

theorem inner_eq (X Y : ℕ → ℝ) (C S : ℕ → ℕ → ℝ) (n : ℕ) (hn : n ≤ 3) :
    loop 0 (n + 1) (fun m (d : Mat ℝ × Mat ℝ) => (addTo d.1 n m (X m)).bind fun c => (addTo d.2 n m (Y m)).map fun s => (c, s))
      (full C, full S) = some (full fun a b => C a b + if a = n ∧ b ≤ n then X b else 0,
        full fun a b => S a b + if a = n ∧ b ≤ n then Y b else 0) := by
  obtain ⟨d, h1, h2⟩ := loop_inv (lo := 0) (hi := n + 1)
    (P := fun i (d : Mat ℝ × Mat ℝ) => d = (full fun a b => C a b + if a = n ∧ b < i then X b else 0,
        full fun a b => S a b + if a = n ∧ b < i then Y b else 0))
    (f := fun m (d : Mat ℝ × Mat ℝ) => (addTo d.1 n m (X m)).bind fun c => (addTo d.2 n m (Y m)).map fun s => (c, s))
    (s := (full C, full S)) (by omega) (by simp) (by
      rintro i d - hi rfl
      simp only
      rw [addTo_full _ _ _ _ hn (by omega), Option.bind_some, addTo_full _ _ _ _ hn (by omega), Option.map_some]
      refine ⟨_, rfl, ?_⟩
      have aux : ∀ (Z : ℕ → ℝ) (a b : ℕ), ((if a = n ∧ b < i then Z b else 0) + if a = n ∧ b = i then Z i else 0) =
          if a = n ∧ b < i + 1 then Z b else 0 := by
        intro Z a b
        by_cases ha : a = n
        · rcases Nat.lt_trichotomy b i with hb | hb | hb
          · rw [if_pos ⟨ha, hb⟩, if_neg (by omega), if_pos (by omega), add_zero]
          · subst hb
            rw [if_neg (by omega), if_pos ⟨ha, rfl⟩, if_pos (by omega), zero_add]
          · rw [if_neg (by omega), if_neg (by omega), if_neg (by omega), zero_add]
        · rw [if_neg (by tauto), if_neg (by tauto), if_neg (by tauto), zero_add]
      simp only [add_assoc, aux])
  rw [h1, h2]
  simp only [Nat.lt_succ_iff]

/-- Specification: a perturber as a body, with its position in the frame of the tides and its gravitational parameter. -/
def Raises (alm : Alm Fr) (t : SolidTides Fr) (epoch : Int) (p : Perturber Fr) (b : Body) : Prop :=
  (∃ st, alm.transform p.frame t.frame epoch = some st ∧ st.pos = b.pos) ∧ alm.mu p.frame = some b.mu ∧ p.degree3 = b.degree3 ∧ b.pos ≠ 0

theorem compute_eq (alm : Alm Fr) (t : SolidTides Fr) (epoch : Int) (p : Perturber Fr) (b : Body) (mu radius : ℝ) (C S : ℕ → ℕ → ℝ)
    (h : Raises alm t epoch p b) (hmu : alm.mu t.frame = some mu) (hr : alm.radius t.frame = some radius) (h0 : mu ≠ 0) :
    p.compute alm epoch t (full C, full S) =
      some (full fun n m => C n m + dC t.k2 t.k3 mu radius b n m, full fun n m => S n m + dS t.k2 t.k3 mu radius b n m) := by
  obtain ⟨⟨st, h1, h2⟩, h3, h4, h5⟩ := h
  have hn := (nrm_pos b.pos h5).ne'
  have two := fun X Y => inner_eq X Y C S 2 (by omega)
  have three := fun X Y C S => inner_eq X Y C S 3 (by omega)
  unfold Perturber.compute
  simp only [h1, h2, Option.bind_some, cdiv, hn, if_false, hmu, hr, h3, h0, h4]
  cases hd : b.degree3 with
  | false =>
    simp only [Bool.false_eq_true, if_false]
    rw [loop_step _ _ (by omega), two, Option.bind_some, loop_empty _ _ (by omega)]
    congr 2 <;> congr 1 <;> funext n m <;> congr 1
    · have hin := @dC_in t.k2 t.k3 mu radius b
      have hout := @dC_out t.k2 t.k3 mu radius b
      by_cases hc : n = 2 ∧ m ≤ 2
      · obtain ⟨rfl, hm⟩ := hc
        rw [if_pos ⟨rfl, hm⟩, hin 2 m le_rfl (by simp [hd]) hm]
        rfl
      · rw [if_neg hc, hout n m (by simp only [hd, Bool.false_eq_true, if_false]; omega)]
    · have hin := @dS_in t.k2 t.k3 mu radius b
      have hout := @dS_out t.k2 t.k3 mu radius b
      by_cases hc : n = 2 ∧ m ≤ 2
      · obtain ⟨rfl, hm⟩ := hc
        rw [if_pos ⟨rfl, hm⟩, hin 2 m le_rfl (by simp [hd]) hm]
        rfl
      · rw [if_neg hc, hout n m (by simp only [hd, Bool.false_eq_true, if_false]; omega)]
  | true =>
    simp only [if_true]
    rw [loop_step _ _ (by omega), two, Option.bind_some, loop_step _ _ (by omega), three, Option.bind_some, loop_empty _ _ (by omega)]
    congr 2 <;> congr 1 <;> funext n m <;> rw [add_assoc] <;> congr 1
    · have hin := @dC_in t.k2 t.k3 mu radius b
      have hout := @dC_out t.k2 t.k3 mu radius b
      by_cases hc : n = 2 ∧ m ≤ 2
      · obtain ⟨rfl, hm⟩ := hc
        rw [if_pos ⟨rfl, hm⟩, hin 2 m le_rfl (by simp [hd]) hm, if_neg (show ¬ (2 = 3 ∧ m ≤ 3) by omega), add_zero]
        rfl
      · by_cases hc3 : n = 3 ∧ m ≤ 3
        · obtain ⟨rfl, hm⟩ := hc3
          rw [if_neg hc, if_pos ⟨rfl, hm⟩, hin 3 m (by omega) (by simp [hd]) hm, zero_add]
          rfl
        · rw [if_neg hc, if_neg hc3, hout n m (by simp only [hd, if_true]; omega), zero_add]
    · have hin := @dS_in t.k2 t.k3 mu radius b
      have hout := @dS_out t.k2 t.k3 mu radius b
      by_cases hc : n = 2 ∧ m ≤ 2
      · obtain ⟨rfl, hm⟩ := hc
        rw [if_pos ⟨rfl, hm⟩, hin 2 m le_rfl (by simp [hd]) hm, if_neg (show ¬ (2 = 3 ∧ m ≤ 3) by omega), add_zero]
        rfl
      · by_cases hc3 : n = 3 ∧ m ≤ 3
        · obtain ⟨rfl, hm⟩ := hc3
          rw [if_neg hc, if_pos ⟨rfl, hm⟩, hin 3 m (by omega) (by simp [hd]) hm, zero_add]
          rfl
        · rw [if_neg hc, if_neg hc3, hout n m (by simp only [hd, if_true]; omega), zero_add]

theorem surface_add (C S C' S' : ℕ → ℕ → ℝ) (q : V3) (n m : ℕ) : surface (fun n m => C n m + C' n m) (fun n m => S n m + S' n m) q n m =
    surface C S q n m + surface C' S' q n m := by
  simp only [surface_har, har]
  ring

theorem potential_add (N M : ℕ) (C S C' S' : ℕ → ℕ → ℝ) (mu radius : ℝ) (q : V3) :
    potential N M (fun n m => C n m + C' n m) (fun n m => S n m + S' n m) mu radius q =
      potential N M C S mu radius q + potential N M C' S' mu radius q := by
  simp only [potential, surface_add, Finset.sum_add_distrib, mul_add]

theorem accumulate_spec (alm : Alm Fr) (t : SolidTides Fr) (epoch : Int) (mu radius : ℝ) (hmu : alm.mu t.frame = some mu)
    (hr : alm.radius t.frame = some radius) (h0 : mu ≠ 0) (ps : List (Perturber Fr)) (bs : List Body)
    (h : List.Forall₂ (Raises alm t epoch) ps bs) (C S : ℕ → ℕ → ℝ) (h1 : ∀ m, C 1 m = 0 ∧ S 1 m = 0) :
    ∃ C' S', accumulateLoop alm epoch t ps (full C, full S) = some (full C', full S') ∧ (∀ m, C' 1 m = 0 ∧ S' 1 m = 0) ∧
      ∀ q, potential 3 3 C' S' mu radius q = potential 3 3 C S mu radius q +
        (bs.map fun b => tidal t.k2 t.k3 radius ⟨b.mu, seen b.pos, b.degree3⟩ q).sum := by
  induction h generalizing C S with
  | nil => exact ⟨C, S, rfl, h1, fun q => by simp⟩
  | @cons p b ps bs hb _ ih =>
    obtain ⟨C', S', e1, e2, e3⟩ := ih (fun n m => C n m + dC t.k2 t.k3 mu radius b n m) (fun n m => S n m + dS t.k2 t.k3 mu radius b n m)
      (fun m => by
        have a1 : dC t.k2 t.k3 mu radius b 1 m = 0 := if_neg (by omega)
        have a2 : dS t.k2 t.k3 mu radius b 1 m = 0 := if_neg (by omega)
        simp only [h1 m, a1, a2, add_zero, and_self])
    refine ⟨C', S', ?_, e2, fun q => ?_⟩
    · rw [accumulateLoop, compute_eq alm t epoch p b mu radius C S hb hmu hr h0, Option.bind_some, e1]
    · rw [e3, potential_add, body_potential _ _ _ _ _ _ h0 hb.2.2.2, List.map_cons, List.sum_cons, add_assoc]

end Verif.Tides
