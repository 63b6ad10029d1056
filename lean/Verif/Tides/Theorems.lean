import Verif.Tides.Sum

/-!
Theorems on the solid tides.
-/
namespace Verif.Tides
open Verif.MathU Matrix
open Verif.Force (Alm Orb AModel Dual M3 Exact lin linM)
open Verif.Gravity (Mat Data potential pureG Rigid)
variable {Fr : Type}

/-- Specification: the same body, at the same distance, and moved by less than two parts in 10¹² if it is close to the axis of the frame. -/
def Near (b b' : Body) : Prop :=
  b'.mu = b.mu ∧ b'.degree3 = b.degree3 ∧ nrm b'.pos = nrm b.pos ∧ nrm (b'.pos - b.pos) ≤ 2 / 10 ^ 12 * nrm b.pos ∧
    (Clear b.pos → b'.pos = b.pos)

/-- Specification: the potential of the tides of several bodies. -/
noncomputable def tides (k2 k3 radius : ℝ) (bs : List Body) (q : V3) : ℝ := (bs.map fun b => tidal k2 k3 radius b q).sum

theorem near_seen (bs : List Body) : List.Forall₂ Near bs (bs.map fun b => ⟨b.mu, seen b.pos, b.degree3⟩) := by
  induction bs with
  | nil => exact List.Forall₂.nil
  | cons b bs ih => exact List.Forall₂.cons ⟨rfl, rfl, seen_nrm _, seen_near _, seen_clear _⟩ ih

theorem accumulate_tides (alm : Alm Fr) (t : SolidTides Fr) (epoch : Int) (mu radius : ℝ) (bs : List Body) (hmu : alm.mu t.frame = some mu)
    (hr : alm.radius t.frame = some radius) (h0 : mu ≠ 0) (h : List.Forall₂ (Raises alm t epoch) t.perturbers bs) :
    ∃ C S, accumulate alm epoch t = some (full C, full S) ∧ (∀ m, C 1 m = 0 ∧ S 1 m = 0) ∧
      potential 3 3 C S mu radius = tides t.k2 t.k3 radius (bs.map fun b => ⟨b.mu, seen b.pos, b.degree3⟩) := by
  obtain ⟨C, S, h1, h2, h3⟩ := accumulate_spec alm t epoch mu radius hmu hr h0 t.perturbers bs h (fun _ _ => 0) (fun _ _ => 0)
    (fun _ => ⟨rfl, rfl⟩)
  refine ⟨C, S, h1, h2, funext fun q => ?_⟩
  have hz : potential 3 3 (fun _ _ => 0) (fun _ _ => 0) mu radius q = 0 := by
    simp [potential, surface_zero (fun _ _ => 0) (fun _ _ => 0) q _ _ rfl rfl]
  rw [h3 q, hz, zero_add, tides, List.map_map]
  rfl

/-- C170: the acceleration of the solid tides is the gradient of the potential of the tides raised by the bodies, rotated into the frame of
the orbit. -/
theorem tides_gradient (alm : Alm Fr) (t : SolidTides Fr) (bs : List Body) (mu radius : ℝ) (o st : Orb Fr) (D : M3)
    (hb : List.Forall₂ (Raises alm t o.epoch) t.perturbers bs) (hst : alm.transformTo o t.frame = some st)
    (hr : alm.radius t.frame = some radius) (hmu : alm.mu t.frame = some mu) (hD : alm.rotate t.frame o.frame o.epoch = some D)
    (hR : radius ≠ 0) (h0 : mu ≠ 0) (hq : st.pos ≠ 0) :
    ∃ a bs', List.Forall₂ Near bs bs' ∧ eom alm t o = some (D *ᵥ a) ∧ HasFDerivAt (tides t.k2 t.k3 radius bs') (lin a) st.pos := by
  obtain ⟨C, S, h1, h2, h3⟩ := accumulate_tides alm t o.epoch mu radius bs hmu hr h0 hb
  refine ⟨pureG id 3 3 C S mu radius st.pos (nrm st.pos), _, near_seen bs, ?_, ?_⟩
  · simp only [eom, h1, Option.bind_some, hst, hr, hmu, accel_tides C S mu radius st.pos hR (nrm_pos _ hq).ne' h2, hD, Option.map_some]
  · rw [← h3]
    exact Gravity.potential_tracks 3 3 C S mu radius hR st.pos hq

theorem near_clear (bs bs' : List Body) (h : List.Forall₂ Near bs bs') (hc : ∀ b ∈ bs, Clear b.pos) : bs' = bs := by
  induction h with
  | nil => rfl
  | @cons b b' bs bs' hb _ ih =>
    rw [ih fun b hb => hc b (List.mem_cons_of_mem _ hb)]
    obtain ⟨h1, h2, -, -, h3⟩ := hb
    have h4 := h3 (hc b List.mem_cons_self)
    cases b
    cases b'
    simp only at h1 h2 h4
    rw [h1, h2, h4]

/-- C170: if no body is close to the axis, it is the gradient of the tides of the bodies themselves. -/
theorem tides_gradient_clear (alm : Alm Fr) (t : SolidTides Fr) (bs : List Body) (mu radius : ℝ) (o st : Orb Fr) (D : M3)
    (hb : List.Forall₂ (Raises alm t o.epoch) t.perturbers bs) (hst : alm.transformTo o t.frame = some st)
    (hr : alm.radius t.frame = some radius) (hmu : alm.mu t.frame = some mu) (hD : alm.rotate t.frame o.frame o.epoch = some D)
    (hR : radius ≠ 0) (h0 : mu ≠ 0) (hq : st.pos ≠ 0) (hc : ∀ b ∈ bs, Clear b.pos) :
    ∃ a, eom alm t o = some (D *ᵥ a) ∧ HasFDerivAt (tides t.k2 t.k3 radius bs) (lin a) st.pos := by
  obtain ⟨a, bs', h1, h2, h3⟩ := tides_gradient alm t bs mu radius o st D hb hst hr hmu hD hR h0 hq
  rw [near_clear bs bs' h1 hc] at h3
  exact ⟨a, h2, h3⟩

/-- C170: on the sphere, the potential of the tide is the number of Love times the term of this degree of the potential of the body. -/
theorem tidal_surface (k2 k3 radius : ℝ) (b : Body) (q : V3) (hR : radius ≠ 0) (hq : nrm q = radius) :
    tidal k2 k3 radius b q = k2 * (b.mu / nrm b.pos * (nrm q / nrm b.pos) ^ 2 * p2 (q ⬝ᵥ b.pos / (nrm q * nrm b.pos))) +
      if b.degree3 then k3 * (b.mu / nrm b.pos * (nrm q / nrm b.pos) ^ 3 * p3 (q ⬝ᵥ b.pos / (nrm q * nrm b.pos))) else 0 := by
  subst hq
  by_cases hb : nrm b.pos = 0
  · simp [tidal, hb]
  · simp only [tidal]
    congr 1
    · field_simp
    · split_ifs
      · field_simp
      · rfl

theorem eom_field (alm : Alm Fr) (t : SolidTides Fr) (C S : ℕ → ℕ → ℝ) (f : Gravity.Field Fr) (o : Orb Fr) (mu radius : ℝ)
    (hf : Gravity.Field.new (asData t.frame C S) = some f) (hr : alm.radius t.frame = some radius) (hmu : alm.mu t.frame = some mu) (hR : radius ≠ 0)
    (h1 : accumulate alm o.epoch t = some (full C, full S)) (h2 : ∀ m, C 1 m = 0 ∧ S 1 m = 0) :
    eom alm t o = Gravity.eom alm f o := by
  obtain ⟨f', hf', hd, -⟩ := Gravity.new_eq (asData t.frame C S)
  obtain rfl : f' = f := Option.some.inj (hf'.symm.trans hf)
  simp only [eom, Gravity.eom, h1, Option.bind_some, hd]
  show (alm.transformTo o t.frame).bind _ = (alm.transformTo o t.frame).bind _
  congr 1
  funext st
  simp only [asData, hr, hmu, Option.bind_some]
  by_cases hq : nrm st.pos = 0
  · simp only [accel, Gravity.accel, hq, if_true]
  · rw [accel_tides C S mu radius st.pos hR hq h2, Gravity.accel_eq (asData t.frame C S) f' C S mu radius st.pos hf (asData_has _ _ _) hR hq]
    rfl

theorem gradient_field (alm : Alm Fr) (t : SolidTides Fr) (C S : ℕ → ℕ → ℝ) (f : Gravity.Field Fr) (o : Orb Fr) (mu radius : ℝ)
    (hf : Gravity.Field.new (asData t.frame C S) = some f) (hr : alm.radius t.frame = some radius) (hmu : alm.mu t.frame = some mu) (hR : radius ≠ 0)
    (h1 : accumulate alm o.epoch t = some (full C, full S)) (h2 : ∀ m, C 1 m = 0 ∧ S 1 m = 0) :
    gradient alm t o = Gravity.gradient alm f o := by
  obtain ⟨f', hf', hd, -⟩ := Gravity.new_eq (asData t.frame C S)
  obtain rfl : f' = f := Option.some.inj (hf'.symm.trans hf)
  simp only [gradient, Gravity.gradient, h1, Option.bind_some, hd]
  show (alm.transformTo o t.frame).bind _ = (alm.transformTo o t.frame).bind _
  congr 1
  funext st
  simp only [asData, hr, hmu, Option.bind_some]
  congr 1
  rw [accelD_tides Dual.ofReal zeros_dual C S mu radius _ _ hR h2,
    Gravity.accelD_eq Dual.ofReal (asData t.frame C S) f' C S mu radius _ _ hf (asData_has _ _ _) hR]
  rfl

/-- Specification: around `o`, the frame of the tides turns and moves the positions, and `rotate` undoes the turn. -/
def RigidT (alm : Alm Fr) (t : SolidTides Fr) (o : Orb Fr) (D : M3) (c : V3) : Prop :=
  alm.rotate t.frame o.frame o.epoch = some D ∧
    ∀ x, ∃ st, alm.transformTo (o.at x) t.frame = some st ∧ st.pos = Dᵀ *ᵥ (Force.posPart x - c)

/-- C171: the partials of the solid tides are exact. -/
theorem tides_exact (alm : Alm Fr) (t : SolidTides Fr) (bs : List Body) (mu radius : ℝ) (o : Orb Fr) (D : M3) (c : V3)
    (hb : List.Forall₂ (Raises alm t o.epoch) t.perturbers bs) (hr : alm.radius t.frame = some radius) (hmu : alm.mu t.frame = some mu)
    (hD : RigidT alm t o D c) (hR : radius ≠ 0) (h0 : mu ≠ 0) (hq : Dᵀ *ᵥ (o.pos - c) ≠ 0) : Exact (model alm t) o := by
  obtain ⟨C, S, h1, h2, -⟩ := accumulate_tides alm t o.epoch mu radius bs hmu hr h0 hb
  obtain ⟨f, hf, -⟩ := Gravity.new_eq (asData t.frame C S)
  obtain ⟨F, e1, G, e2, e3⟩ := Gravity.gravity_exact alm (asData t.frame C S) f C S mu radius o D c hf (asData_has _ _ _) hr hmu hD hR hq
  refine ⟨F, ?_, G, ?_, e3⟩
  · filter_upwards [e1] with x hx
    rw [← hx]
    exact eom_field alm t C S f (o.at x) mu radius hf hr hmu hR h1 h2
  · rw [← e2]
    exact gradient_field alm t C S f o mu radius hf hr hmu hR h1 h2

/-- C171: the matrix of the partials is symmetric, as for any acceleration with a potential. -/
theorem gradient_symmetric (alm : Alm Fr) (t : SolidTides Fr) (bs : List Body) (mu radius : ℝ) (o : Orb Fr) (a : V3) (G : M3)
    (hb : List.Forall₂ (Raises alm t o.epoch) t.perturbers bs) (hr : alm.radius t.frame = some radius) (hmu : alm.mu t.frame = some mu)
    (hR : radius ≠ 0) (h0 : mu ≠ 0) (h : gradient alm t o = some (a, G)) : Gᵀ = G := by
  obtain ⟨C, S, h1, h2, -⟩ := accumulate_tides alm t o.epoch mu radius bs hmu hr h0 hb
  obtain ⟨f, hf, -⟩ := Gravity.new_eq (asData t.frame C S)
  simp only [gradient, h1, Option.bind_some, hr, hmu, Option.bind_eq_some_iff] at h
  obtain ⟨st, -, h⟩ := h
  split_ifs at h with hq
  have hq' : st.pos ≠ 0 := by
    intro hp
    rw [hp] at hq
    exact hq (nrm_of_sq _ _ le_rfl (by simp))
  rw [accelD_tides Dual.ofReal zeros_dual C S mu radius _ _ hR h2] at h
  have hs := Gravity.partials_symmetric (asData t.frame C S) f C S mu radius st.pos _ hf (asData_has _ _ _) hR hq'
    (Gravity.accelD_eq Dual.ofReal (asData t.frame C S) f C S mu radius _ _ hf (asData_has _ _ _) hR)
  simp only [Option.bind_eq_some_iff, Option.some.injEq, Option.map_eq_some_iff, Prod.mk.injEq] at h
  obtain ⟨b, rfl, D, -, -, rfl⟩ := h
  have e : (of fun i j => (pureG Dual.ofReal 3 3 C S mu radius (Dual.vars st.pos) (Dual.norm3 (Dual.vars st.pos)) i).eps j : M3)ᵀ =
      of fun i j => (pureG Dual.ofReal 3 3 C S mu radius (Dual.vars st.pos) (Dual.norm3 (Dual.vars st.pos)) i).eps j := by
    ext i j
    exact hs j i
  rw [transpose_mul, transpose_mul, transpose_transpose, e, Matrix.mul_assoc]

/-- Specification: the frame given by the user, or the one of the almanac if it has no gravitational parameter. -/
def Fetched (alm : Alm Fr) (f f' : Fr) : Prop :=
  (alm.mu f ≠ none ∧ f' = f ∨ alm.mu f = none ∧ alm.info f = some f') ∧ (∃ x, alm.mu f' = some x) ∧ ∃ x, alm.radius f' = some x

theorem checked_iff (alm : Alm Fr) (f f' : Fr) : checked alm f = some f' ↔ Fetched alm f f' := by
  unfold checked Fetched
  cases h : alm.mu f with
  | some m =>
    simp only [Option.isNone_some, Bool.false_eq_true, if_false, Option.bind_some, h]
    cases h2 : alm.radius f with
    | none =>
      simp
      rintro rfl
      simp [h2]
    | some r =>
      simp
      constructor
      · rintro rfl
        simp [h, h2]
      · rintro ⟨rfl, -⟩
        rfl
  | none =>
    simp only [Option.isNone_none, if_true]
    cases h3 : alm.info f with
    | none => simp
    | some g =>
      simp only [Option.bind_some]
      cases h4 : alm.mu g with
      | none =>
        simp
        rintro rfl
        simp [h4]
      | some m =>
        simp only [Option.bind_some]
        cases h5 : alm.radius g with
        | none =>
          simp
          rintro rfl
          simp [h5]
        | some r =>
          simp
          rintro rfl
          simp [h4, h5]

/-- C172: the tides of the Earth: the frames are those of the user or of the almanac, they all have the constants that are needed, and the
Moon raises tides of degrees 2 and 3 and the Sun of degree 2. -/
theorem earth_moon (alm : Alm Fr) (sun earth moon : Fr) (t : SolidTides Fr) :
    earthMoon alm sun earth moon = some t ↔ ∃ s0 s e m, alm.info sun = some s0 ∧ Fetched alm s0 s ∧ Fetched alm earth e ∧ Fetched alm moon m ∧
      t = ⟨e, 0.3019, 0.093, [⟨m, true⟩, ⟨s, false⟩]⟩ := by
  unfold earthMoon
  simp only [Option.bind_eq_some_iff, Option.map_eq_some_iff, checked_iff]
  constructor
  · rintro ⟨s0, h0, e, he, m, hm, s, hs, rfl⟩
    exact ⟨s0, s, e, m, h0, hs, he, hm, rfl⟩
  · rintro ⟨s0, s, e, m, h0, hs, he, hm, rfl⟩
    exact ⟨s0, h0, e, he, m, hm, s, hs, rfl⟩

/-! ### Examples -/

/-- Frame 0 is the Earth, 1 the Moon and 2 the Sun; the orbits are in the frame of the Earth. -/
noncomputable def alm3 : Alm ℕ where
  mu f := some (if f = 0 then 398600 else if f = 1 then 4900 else 132712440041)
  radius f := some (if f = 0 then 6378 else if f = 1 then 1738 else 696342)
  centered _ _ := false
  body _ _ := none
  info f := some f
  transform f _ e := some ⟨0, e, if f = 1 then ![384400, 0, 0] else ![0, 149600000, 1000], 0⟩
  transformTo o _ := some o
  rotate _ _ _ := some 1
  occult _ _ _ := none

def tides3 : SolidTides ℕ := ⟨0, 3, 1, [⟨1, true⟩, ⟨2, false⟩]⟩
noncomputable def bodies3 : List Body := [⟨4900, ![384400, 0, 0], true⟩, ⟨132712440041, ![0, 149600000, 1000], false⟩]
noncomputable def orb3 : Orb ℕ := ⟨0, 0, ![7000, 0, 100], 0⟩

theorem raises3 : List.Forall₂ (Raises alm3 tides3 0) tides3.perturbers bodies3 := by
  refine List.Forall₂.cons ⟨⟨_, rfl, rfl⟩, ?_, rfl, ?_⟩ (List.Forall₂.cons ⟨⟨_, rfl, ?_⟩, ?_, rfl, ?_⟩ List.Forall₂.nil)
  · simp [alm3]
  · intro h
    simpa using congrFun h 0
  · simp
  · simp [alm3]
  · intro h
    simpa using congrFun h 1

theorem clear3 : ∀ b ∈ bodies3, Clear b.pos := by
  intro b hb
  simp only [bodies3, List.mem_cons, List.not_mem_nil, or_false] at hb
  rcases hb with rfl | rfl
  · right
    have h1 : nrm (![384400, 0, 0] : V3) = 384400 := nrm_of_sq _ _ (by norm_num) (by simp)
    rw [h1]
    refine Real.lt_sqrt_of_sq_lt ?_
    simp
    norm_num
  · right
    have h1 : nrm (![0, 149600000, 1000] : V3) ≤ 149700000 := by
      have := nrm_three (![0, 149600000, 1000] : V3)
      simp at this
      nlinarith [nrm_nonneg (![0, 149600000, 1000] : V3)]
    refine lt_of_le_of_lt (mul_le_mul_of_nonneg_left h1 (by norm_num)) (Real.lt_sqrt_of_sq_lt ?_)
    simp
    norm_num

theorem pos3 : orb3.pos ≠ 0 := by
  intro h
  simpa [orb3] using congrFun h 2

noncomputable example := tides_gradient_clear alm3 tides3 bodies3 398600 6378 orb3 orb3 1 raises3 rfl rfl rfl rfl (by norm_num) (by norm_num)
  pos3 clear3

theorem rigid3 : RigidT alm3 tides3 orb3 1 0 := by
  refine ⟨rfl, fun x => ⟨_, rfl, ?_⟩⟩
  rw [transpose_one, one_mulVec, sub_zero]
  rfl

noncomputable example := tides_exact alm3 tides3 bodies3 398600 6378 orb3 1 0 raises3 rfl rfl rigid3 (by norm_num) (by norm_num)
  (by simpa using pos3)

/-- A body over the pole, a little out of the axis: the tide is computed at longitude zero. -/
example : seen ![0, -1, 10 ^ 13] = ![1, 0, 10 ^ 13] ∧ ¬ Clear ![0, -1, 10 ^ 13] := by
  have h1 : ¬ 1 / 10 ^ 12 * nrm (![0, -1, 10 ^ 13] : V3) < Real.sqrt ((![0, -1, 10 ^ 13] : V3) 0 ^ 2 + (![0, -1, 10 ^ 13] : V3) 1 ^ 2) := by
    have h2 : (10 ^ 13 : ℝ) ≤ nrm (![0, -1, 10 ^ 13] : V3) := by
      have := nrm_three (![0, -1, 10 ^ 13] : V3)
      simp at this
      nlinarith [nrm_nonneg (![0, -1, 10 ^ 13] : V3)]
    norm_num
    norm_num at h2
    linarith
  refine ⟨?_, ?_⟩
  · rw [seen, if_neg h1]
    simp
  · rintro (⟨-, h⟩ | h)
    · simp at h
    · exact h1 h

example : ∃ t, earthMoon alm3 2 0 1 = some t := ⟨_, rfl⟩

noncomputable example (k2 k3 : ℝ) (b : Body) := tidal_surface k2 k3 6400 b ![6400, 0, 0] (by norm_num) (by
  have h := nrm_three (![6400, 0, 0] : V3)
  simp at h
  nlinarith [nrm_nonneg (![6400, 0, 0] : V3)])

end Verif.Tides
