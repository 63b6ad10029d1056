import Verif.Force.PointMass
import Verif.Guide.Modes

/-!
Solar radiation pressure (C70, C160).
-/
namespace Verif.Force
open Verif.MathU Matrix
open Verif.Spacecraft (Craft)
variable {Fr : Type}

theorem nrm_scale (a : ℝ) (v : V3) : nrm (a • v) = |a| * nrm v := by
  have h : (a • v) ⬝ᵥ (a • v) = a ^ 2 * (v ⬝ᵥ v) := by
    rw [smul_dotProduct, dotProduct_smul]; simp only [smul_eq_mul]; ring
  simp only [nrm]
  rw [h, Real.sqrt_mul (sq_nonneg a), Real.sqrt_sq_eq_abs]

/-- The force for an illumination `k` at `r` from the Sun: `Cr A (k φ / c) (AU / r)²` newtons, in kg km/s². -/
noncomputable def pressure (cr area phi k r : ℝ) : ℝ := cr * area * (k * phi / lightSpeed) * (au / r) ^ 2 / 1000

theorem lightSpeed_pos : 0 < lightSpeed := by unfold lightSpeed; norm_num

theorem au_pos : 0 < au := by unfold au; norm_num

/-- C70: the force is along the position with respect to the light source, of the inverse square magnitude, with the illumination left
by the deepest occultation. -/
theorem srp_force (alm : Alm Fr) (p : Srp Fr) (s : Craft ℝ Fr) (f : V3) (t : Orb Fr)
    (h : p.eom alm s = some f) (ht : alm.transformTo (orbitOf s) p.light = some t) (h0 : t.pos ≠ 0)
    (hocc : ∀ b ∈ p.bodies, ∀ q, alm.occult p.light b (orbitOf s) = some q → q ≤ 100) :
    ∃ q, 0 ≤ q ∧ q ≤ 100 ∧ (∀ b ∈ p.bodies, ∃ q', alm.occult p.light b (orbitOf s) = some q' ∧ q' ≤ q) ∧
      (q = 0 ∨ ∃ b ∈ p.bodies, alm.occult p.light b (orbitOf s) = some q) ∧
      f = (pressure s.cr s.srpArea p.phi (1 - q / 100) (nrm t.pos) / nrm t.pos) • t.pos := by
  simp only [Srp.eom, ht, Srp.light01] at h
  cases hq : Guide.shadow (p.bodies.map fun b => alm.occult p.light b (orbitOf s)) with
  | none => rw [hq] at h; simp at h
  | some q =>
    rw [hq] at h
    simp only [Option.map_some, Option.some.injEq] at h
    obtain ⟨h1, h2, h3, h4⟩ := (Guide.shadow_is_deepest _ q).1 hq
    have hq100 : q ≤ 100 := by
      rcases h4 with h4 | h4
      · rw [h4]; norm_num
      · obtain ⟨b, hb, e⟩ := List.mem_map.mp h4
        exact hocc b hb q e
    have hn := nrm_pos t.pos h0
    refine ⟨q, h2, hq100, fun b hb => ?_, ?_, ?_⟩
    · obtain ⟨q', e⟩ := h1 _ (List.mem_map.mpr ⟨b, hb, rfl⟩)
      exact ⟨q', e, h3 q' (List.mem_map.mpr ⟨b, hb, e⟩)⟩
    · rcases h4 with h4 | h4
      · exact Or.inl h4
      · obtain ⟨b, hb, e⟩ := List.mem_map.mp h4
        exact Or.inr ⟨b, hb, e⟩
    · rw [← h, smul_smul]
      congr 1
      have hab : |q / 100 - 1| = 1 - q / 100 := by
        rw [abs_of_nonpos (by linarith), neg_sub]
      rw [hab]
      unfold pressure
      have := au_pos.ne'
      have := lightSpeed_pos.ne'
      field_simp

/-- C70: the magnitude of the force and its direction, for physical coefficients: it never pulls towards the light source. -/
theorem srp_magnitude (alm : Alm Fr) (p : Srp Fr) (s : Craft ℝ Fr) (f : V3) (t : Orb Fr)
    (h : p.eom alm s = some f) (ht : alm.transformTo (orbitOf s) p.light = some t) (h0 : t.pos ≠ 0)
    (hocc : ∀ b ∈ p.bodies, ∀ q, alm.occult p.light b (orbitOf s) = some q → q ≤ 100)
    (hc : 0 ≤ s.cr) (ha : 0 ≤ s.srpArea) (hphi : 0 ≤ p.phi) :
    (∃ q, 0 ≤ q ∧ q ≤ 100 ∧ nrm f = pressure s.cr s.srpArea p.phi (1 - q / 100) (nrm t.pos)) ∧
      f ⬝ᵥ t.pos = nrm f * nrm t.pos := by
  obtain ⟨q, h1, h2, -, -, hf⟩ := srp_force alm p s f t h ht h0 hocc
  have hn := nrm_pos t.pos h0
  have hp : 0 ≤ pressure s.cr s.srpArea p.phi (1 - q / 100) (nrm t.pos) := by
    unfold pressure
    have hk : 0 ≤ 1 - q / 100 := by linarith
    have := lightSpeed_pos
    positivity
  have hm : nrm f = pressure s.cr s.srpArea p.phi (1 - q / 100) (nrm t.pos) := by
    rw [hf, nrm_scale, abs_of_nonneg (div_nonneg hp hn.le), div_mul_cancel₀ _ hn.ne']
  refine ⟨⟨q, h1, h2, hm⟩, ?_⟩
  rw [hm]
  conv_lhs => rw [hf]
  rw [smul_dotProduct, smul_eq_mul, ← nrm_sq]
  field_simp

/-- The illumination behind a body that hides the Sun completely. -/
theorem srp_shadow (alm : Alm Fr) (p : Srp Fr) (s : Craft ℝ Fr) (f : V3) (t : Orb Fr)
    (h : p.eom alm s = some f) (ht : alm.transformTo (orbitOf s) p.light = some t) (h0 : t.pos ≠ 0)
    (hocc : ∀ b ∈ p.bodies, ∀ q, alm.occult p.light b (orbitOf s) = some q → q ≤ 100)
    (b : Fr) (hb : b ∈ p.bodies) (hd : alm.occult p.light b (orbitOf s) = some 100) : f = 0 := by
  obtain ⟨q, h1, h2, h3, -, hf⟩ := srp_force alm p s f t h ht h0 hocc
  obtain ⟨q', e, hle⟩ := h3 b hb
  rw [hd, Option.some.injEq] at e
  have hq : q = 100 := by linarith
  rw [hf, hq]
  have : pressure s.cr s.srpArea p.phi (1 - 100 / 100) (nrm t.pos) = 0 := by unfold pressure; norm_num
  rw [this]; simp

/-- C70, partial: the force pushes away from the Sun if the axes of the frame of the Sun are those of
the integration frame. Missing: other frames, where the force is not rotated. -/
theorem srp_away_partial (alm : Alm Fr) (p : Srp Fr) (s : Craft ℝ Fr) (f sun : V3) (t : Orb Fr)
    (h : p.eom alm s = some f) (ht : alm.transformTo (orbitOf s) p.light = some t) (hal : t.pos = s.pos - sun)
    (h0 : s.pos ≠ sun) (hocc : ∀ b ∈ p.bodies, ∀ q, alm.occult p.light b (orbitOf s) = some q → q ≤ 100)
    (hc : 0 ≤ s.cr) (ha : 0 ≤ s.srpArea) (hphi : 0 ≤ p.phi) :
    ∃ c : ℝ, 0 ≤ c ∧ f = c • (s.pos - sun) := by
  have hn0 : t.pos ≠ 0 := by rw [hal]; exact sub_ne_zero.mpr h0
  obtain ⟨q, h1, h2, -, -, hf⟩ := srp_force alm p s f t h ht hn0 hocc
  refine ⟨pressure s.cr s.srpArea p.phi (1 - q / 100) (nrm (s.pos - sun)) / nrm (s.pos - sun), ?_, by rw [hf, hal]⟩
  have hn := nrm_pos t.pos hn0
  unfold pressure
  have hk : 0 ≤ 1 - q / 100 := by linarith
  have := lightSpeed_pos
  rw [hal] at hn
  positivity

/-- An almanac whose frame of the Sun (10) is turned by 180 degrees about the third axis, with the Sun at one astronomical
unit on the first axis of the integration frame (399); nothing hides it. -/
noncomputable def turnedAlm : Alm Int where
  mu _ := some 398600
  radius _ := none
  centered f b := f == b
  body _ b := some b
  info f := some f
  transform _ _ _ := none
  transformTo o f := if f = 10 then some ⟨10, o.epoch, ![-(o.pos 0 - au), -(o.pos 1), o.pos 2], ![-(o.vel 0), -(o.vel 1), o.vel 2]⟩ else some o
  rotate _ _ _ := none
  occult _ _ _ := some 0

/-- A spacecraft at 7000 km on the first axis. -/
noncomputable def satLeo : Craft ℝ Int :=
  ⟨399, 0, ![7000, 0, 0], ![0, 7.5, 0], 100, 10, 0, 1, 1.5, 1, 2.2, none, .coast, none, none⟩

/-- A model without shadow bodies. -/
def srpSun : Srp Int := ⟨1367, 10, [], true⟩

theorem turned_pos : (⟨10, 0, ![-((7000 : ℝ) - au), -0, 0], ![-0, -7.5, 0]⟩ : Orb Int).pos = -(satLeo.pos - ![au, 0, 0]) := by
  funext i
  fin_cases i <;> simp [satLeo]

theorem satLeo_far : satLeo.pos - ![au, 0, 0] ≠ 0 := fun h => by
  have := congrFun h 0
  unfold au at this
  norm_num [satLeo] at this

/-- C70, refuted: in an integration frame whose axes are not those of the frame of the Sun, the pressure may push towards
the Sun, since the force is not rotated to the integration frame. -/
theorem srp_towards_sun : ∃ f, srpSun.eom turnedAlm satLeo = some f ∧ f ⬝ᵥ (satLeo.pos - ![au, 0, 0]) < 0 := by
  have ht : turnedAlm.transformTo (orbitOf satLeo) srpSun.light =
      some ⟨10, 0, ![-((7000 : ℝ) - au), -0, 0], ![-0, -7.5, 0]⟩ := by
    simp [turnedAlm, srpSun, orbitOf, satLeo]
  obtain ⟨f, hf⟩ : ∃ f, srpSun.eom turnedAlm satLeo = some f := by
    simp only [Srp.eom, Srp.light01, srpSun, List.map_nil, Guide.shadow, Guide.shadowLoop, Option.map_some]
    exact ⟨_, rfl⟩
  refine ⟨f, hf, ?_⟩
  have hp := turned_pos
  have h0 : (⟨10, 0, ![-((7000 : ℝ) - au), -0, 0], ![-0, -7.5, 0]⟩ : Orb Int).pos ≠ 0 := by
    rw [hp]; exact neg_ne_zero.mpr satLeo_far
  have hocc : ∀ b ∈ srpSun.bodies, ∀ q, turnedAlm.occult srpSun.light b (orbitOf satLeo) = some q → q ≤ 100 := by
    simp [srpSun]
  have hmag := (srp_magnitude turnedAlm srpSun satLeo f _ hf ht h0 hocc (by norm_num [satLeo]) (by norm_num [satLeo])
    (by norm_num [srpSun])).2
  obtain ⟨q, -, -, -, hq, hff⟩ := srp_force turnedAlm srpSun satLeo f _ hf ht h0 hocc
  have hq0 : q = 0 := by simpa [srpSun] using hq
  have hn := nrm_pos _ h0
  have hpos : 0 < nrm f := by
    rw [hff, nrm_scale, hq0]
    have hp : 0 < pressure satLeo.cr satLeo.srpArea srpSun.phi (1 - 0 / 100)
        (nrm (⟨10, 0, ![-((7000 : ℝ) - au), -0, 0], ![-0, -7.5, 0]⟩ : Orb Int).pos) := by
      unfold pressure
      have := lightSpeed_pos
      have := au_pos
      have h1 : 0 < satLeo.cr := by norm_num [satLeo]
      have h2 : 0 < satLeo.srpArea := by norm_num [satLeo]
      have h3 : 0 < srpSun.phi := by norm_num [srpSun]
      have h4 : (0 : ℝ) < 1 - 0 / 100 := by norm_num
      positivity
    rw [abs_of_pos (div_pos hp hn)]
    exact mul_pos (div_pos hp hn) hn
  have e : satLeo.pos - ![au, 0, 0] = -(⟨10, 0, ![-((7000 : ℝ) - au), -0, 0], ![-0, -7.5, 0]⟩ : Orb Int).pos := by
    rw [hp, neg_neg]
  rw [e, dotProduct_neg, hmag]
  exact neg_neg_of_pos (mul_pos hpos hn)

/-! ### Partials -/

/-- The force as a function of the position with respect to the Sun and of the coefficient. -/
noncomputable def srpAt (k phi area : ℝ) (cr : ℝ) (r : V3) : V3 := (pressure cr area phi k (nrm r) / nrm r) • r

theorem srpD_tracks (k phi cr area : ℝ) (r : V3) (h0 : r ≠ 0) (i : Fin 3) :
    Tracks r (fun p => srpAt k phi area cr p i) (srpD k phi cr area r i) := by
  have hn := Tracks.norm3 (F := fun y => y) (fun j => Tracks.var (x := r) j) h0
  have hne := (nrm_pos _ h0).ne'
  have hau := au_pos.ne'
  have h1 := (Tracks.var (x := r) i).div hn hne
  have h2 := hn.div (Tracks.ofReal au) hau
  have h3 := ((Tracks.ofReal 1).div h2 (div_ne_zero hne hau)).powi 2
  refine (((Tracks.ofReal (1 / 1000 * cr * area)).mul ((Tracks.ofReal (k * phi / lightSpeed)).mul h3)).mul h1).congr
    fun p => ?_
  simp only [srpAt, pressure, Pi.smul_apply, smul_eq_mul, one_div, inv_div]
  ring

/-- The spacecraft at another position. -/
def moved (s : Craft ℝ Fr) (p : V3) : Craft ℝ Fr :=
  ⟨s.frame, s.epoch, p, s.vel, s.dry, s.prop, s.extra, s.srpArea, s.cr, s.dragArea, s.cd, s.thruster, s.mode, s.dir, s.stm⟩

/-- The spacecraft with another coefficient of reflectivity. -/
def withCr (s : Craft ℝ Fr) (c : ℝ) : Craft ℝ Fr :=
  ⟨s.frame, s.epoch, s.pos, s.vel, s.dry, s.prop, s.extra, s.srpArea, c, s.dragArea, s.cd, s.thruster, s.mode, s.dir, s.stm⟩

/-- C160: with aligned axes, the gradient of the solar pressure returns the force, its exact derivative with respect to
the position for a constant illumination, and its exact derivative with respect to a
coefficient of reflectivity that is not zero. Missing: the change of illumination in a penumbra, and a zero coefficient. -/
theorem srp_gradient_partial (alm : Alm Fr) (p : Srp Fr) (s : Craft ℝ Fr) (sun : V3) (k : ℝ) (t : V3 → Orb Fr)
    (ht : ∀ q, alm.transformTo (orbitOf (moved s q)) p.light = some (t q)) (hal : ∀ q, (t q).pos = q - sun)
    (hk : ∀ᶠ q in nhds s.pos, p.light01 alm (orbitOf (moved s q)) = some k) (h0 : s.pos ≠ sun) (hc : s.cr ≠ 0) :
    ∃ F : V3 → V3, ∃ G W, (∀ᶠ q in nhds s.pos, p.eom alm (moved s q) = some (F q)) ∧
      p.gradient alm s = some (F s.pos, G, fun j => some (W j)) ∧
      HasFDerivAt F (linM G) s.pos ∧
      ∃ H : ℝ → V3, (∀ c, p.eom alm (withCr s c) = some (H c)) ∧ HasDerivAt H W s.cr := by
  have hE : ∀ (c : ℝ) (q : V3), p.light01 alm (orbitOf (moved s q)) = some k →
      p.eom alm (moved (withCr s c) q) = some (srpAt k p.phi s.srpArea c (q - sun)) := by
    intro c q hk
    have e1 : orbitOf (moved (withCr s c) q) = orbitOf (moved s q) := rfl
    have e2 : (moved (withCr s c) q).cr = c := rfl
    have e3 : (moved (withCr s c) q).srpArea = s.srpArea := rfl
    simp only [Srp.eom, e1, e2, e3, ht, hk, hal, Option.some.injEq]
    simp only [srpAt, pressure, smul_smul]
    congr 1
    simp only [one_div, inv_div]
    ring
  have hm : moved s s.pos = s := rfl
  have hk0 := hk.self_of_nhds
  have hE' : ∀ᶠ q in nhds s.pos, p.eom alm (moved s q) = some (srpAt k p.phi s.srpArea s.cr (q - sun)) :=
    hk.mono fun q hq => hE s.cr q hq
  refine ⟨fun q => srpAt k p.phi s.srpArea s.cr (q - sun),
    of fun i j => (srpD k p.phi s.cr s.srpArea (s.pos - sun) i).eps j,
    fun j => srpAt k p.phi s.srpArea s.cr (s.pos - sun) j / s.cr, hE', ?_, ?_, ?_⟩
  · have h1 := ht s.pos
    have h2 := hk0
    have h3 := hE'.self_of_nhds
    rw [hm] at h1 h2 h3
    simp only [Srp.gradient, h1, h2, h3, hal, hc, if_false, Option.some.injEq, Prod.mk.injEq, and_true]
    funext i
    exact (srpD_tracks k p.phi s.cr s.srpArea (s.pos - sun) (sub_ne_zero.mpr h0) i).1
  · have hd := (Tracks.vector (srpD_tracks k p.phi s.cr s.srpArea (s.pos - sun) (sub_ne_zero.mpr h0))).2
    exact hd.comp s.pos ((hasFDerivAt_id s.pos).sub_const sun)
  · refine ⟨fun c => srpAt k p.phi s.srpArea c (s.pos - sun), fun c => hE c s.pos hk0, ?_⟩
    have hlin : ∀ c, srpAt k p.phi s.srpArea c (s.pos - sun) = c • srpAt k p.phi s.srpArea 1 (s.pos - sun) := by
      intro c
      simp only [srpAt, pressure, smul_smul]
      congr 1
      ring
    have hd := (hasDerivAt_id s.cr).smul_const (srpAt k p.phi s.srpArea 1 (s.pos - sun))
    have e1 : (fun c => srpAt k p.phi s.srpArea c (s.pos - sun)) = fun c => id c • srpAt k p.phi s.srpArea 1 (s.pos - sun) :=
      funext fun c => hlin c
    rw [e1]
    have e2 : (fun j => srpAt k p.phi s.srpArea s.cr (s.pos - sun) j / s.cr) = (1 : ℝ) • srpAt k p.phi s.srpArea 1 (s.pos - sun) := by
      funext j
      rw [hlin s.cr]
      simp only [Pi.smul_apply, smul_eq_mul]
      field_simp
    rw [e2]
    exact hd

/-- C160, refuted: with a zero coefficient of reflectivity, to which the filter clamps negative estimates, the partial with respect to it
is not a number, although the force is proportional to the coefficient. -/
theorem srp_gradient_nan (alm : Alm Fr) (p : Srp Fr) (s : Craft ℝ Fr) (f : V3) (hf : p.eom alm s = some f)
    (hc : s.cr = 0) : ∃ G, p.gradient alm s = some (0, G, fun _ => none) := by
  simp only [Srp.eom] at hf
  cases ht : alm.transformTo (orbitOf s) p.light with
  | none => rw [ht] at hf; cases hf
  | some t =>
    simp only [ht] at hf
    cases hk : p.light01 alm (orbitOf s) with
    | none => rw [hk] at hf; cases hf
    | some k =>
      have hre : (fun i => (srpD k p.phi 0 s.srpArea t.pos i).re) = 0 := by
        funext i
        show 1 / 1000 * 0 * s.srpArea * _ * _ = 0
        ring
      refine ⟨of fun i j => (srpD k p.phi s.cr s.srpArea t.pos i).eps j, ?_⟩
      simp only [Srp.gradient, Srp.eom, ht, hk]
      simp only [hc, if_true, hre]

/-! ### Constructors -/

/-- C160: the constructors use the flux given, 1367 W/m² otherwise, the loaded frame of the Sun, and estimate the coefficient unless told otherwise; they
fail exactly when the Sun is not loaded. -/
theorem srp_constructors (alm : Alm Fr) (sun : Fr) (flux : ℝ) (bodies : List Fr) (p : Srp Fr) :
    (Srp.new alm sun bodies = some p ↔ alm.info sun = some p.light ∧ p.phi = 1367 ∧ p.estimate = true ∧
      p.bodies = bodies.filterMap alm.info) ∧
    (Srp.noEstimation alm sun bodies = some p ↔ alm.info sun = some p.light ∧ p.phi = 1367 ∧ p.estimate = false ∧
      p.bodies = bodies.filterMap alm.info) ∧
    (Srp.withFlux alm sun flux bodies = some p ↔ alm.info sun = some p.light ∧ p.phi = flux ∧ p.estimate = true ∧
      p.bodies = bodies.filterMap alm.info) := by
  obtain ⟨phi, l, b, e⟩ := p
  simp only [Srp.new, Srp.noEstimation, Srp.withFlux, loaded, solarFlux]
  cases alm.info sun with
  | none => simp
  | some l' =>
    simp only [Option.some.injEq, Option.map_some, Srp.mk.injEq]
    refine ⟨⟨?_, ?_⟩, ⟨?_, ?_⟩, ⟨?_, ?_⟩⟩
    · rintro ⟨rfl, rfl, rfl, rfl⟩; exact ⟨rfl, rfl, rfl, rfl⟩
    · rintro ⟨rfl, rfl, rfl, rfl⟩; exact ⟨rfl, rfl, rfl, rfl⟩
    · rintro ⟨rfl, rfl, rfl, rfl⟩; exact ⟨rfl, rfl, rfl, rfl⟩
    · rintro ⟨rfl, rfl, rfl, rfl⟩; exact ⟨rfl, rfl, rfl, rfl⟩
    · rintro ⟨rfl, rfl, rfl, rfl⟩; exact ⟨rfl, rfl, rfl, rfl⟩
    · rintro ⟨rfl, rfl, rfl, rfl⟩; exact ⟨rfl, rfl, rfl, rfl⟩

/-- C160, refuted: a shadow body that is not loaded is dropped without an error, so that a spacecraft in its shadow is lit. -/
theorem srp_drops_bodies (alm : Alm Fr) (sun b : Fr) (p : Srp Fr) (hb : alm.info b = none)
    (h : Srp.new alm sun [b] = some p) : p.bodies = [] := by
  have := ((srp_constructors alm sun 0 [b] p).1.1 h).2.2.2
  simpa [hb] using this

/-! ### Examples -/

/-- An almanac with aligned axes and the Sun at one astronomical unit, hidden by nothing. -/
noncomputable def alignedAlm : Alm Int where
  mu _ := some 398600
  radius _ := some 6378
  centered f b := f == b
  body _ b := some b
  info f := if f = 500 then none else some f
  transform _ _ _ := none
  transformTo o f := if f = 10 then some ⟨10, o.epoch, o.pos - ![au, 0, 0], o.vel⟩ else some o
  rotate _ _ _ := some 1
  occult _ _ _ := some 0

theorem aligned_lit (q : V3) : srpSun.light01 alignedAlm (orbitOf (moved satLeo q)) = some 1 := by
  simp [Srp.light01, srpSun, Guide.shadow, Guide.shadowLoop]

noncomputable example := srp_gradient_partial alignedAlm srpSun satLeo ![au, 0, 0] 1
  (fun q => ⟨10, 0, q - ![au, 0, 0], satLeo.vel⟩) (fun q => by simp [alignedAlm, srpSun, orbitOf, moved, satLeo]) (fun _ => rfl)
  (Filter.Eventually.of_forall aligned_lit) (sub_ne_zero.mp satLeo_far) (by norm_num [satLeo])

example : ∃ (f : V3) (c : ℝ), 0 ≤ c ∧ srpSun.eom alignedAlm satLeo = some f ∧ f = c • (satLeo.pos - ![au, 0, 0]) := by
  obtain ⟨f, hf⟩ : ∃ f, srpSun.eom alignedAlm satLeo = some f := by
    simp only [Srp.eom, show alignedAlm.transformTo (orbitOf satLeo) srpSun.light =
      some ⟨10, 0, satLeo.pos - ![au, 0, 0], satLeo.vel⟩ by simp [alignedAlm, srpSun, orbitOf, satLeo],
      show srpSun.light01 alignedAlm (orbitOf satLeo) = some 1 from aligned_lit satLeo.pos]
    exact ⟨_, rfl⟩
  obtain ⟨c, h1, h2⟩ := srp_away_partial alignedAlm srpSun satLeo f ![au, 0, 0] ⟨10, 0, satLeo.pos - ![au, 0, 0], satLeo.vel⟩ hf
    (by simp [alignedAlm, srpSun, orbitOf, satLeo]) rfl (sub_ne_zero.mp satLeo_far) (by simp [srpSun])
    (by norm_num [satLeo]) (by norm_num [satLeo]) (by norm_num [srpSun])
  exact ⟨f, c, h1, hf, h2⟩

example : Srp.new alignedAlm 10 [500] = some ⟨1367, 10, [], true⟩ := by
  simp [Srp.new, alignedAlm, loaded, solarFlux]

example (s : Craft ℝ Int) (f : V3) (hf : srpSun.eom alignedAlm s = some f) (hc : s.cr = 0) := srp_gradient_nan alignedAlm srpSun s f hf hc

example : ∃ f, srpSun.eom alignedAlm { satLeo with cr := 0 } = some f := by
  simp [Srp.eom, alignedAlm, srpSun, orbitOf, satLeo, Srp.light01, Guide.shadow, Guide.shadowLoop]

example := srp_drops_bodies alignedAlm 10 500 ⟨1367, 10, [], true⟩ rfl (by simp [Srp.new, alignedAlm, loaded, solarFlux])
/-- An almanac where every body hides the light. -/
noncomputable def darkAlm : Alm Int := { alignedAlm with occult := fun _ _ _ => some 100 }

example : ∃ f, (⟨1367, 10, [399], true⟩ : Srp Int).eom darkAlm satLeo = some f ∧ f = 0 := by
  obtain ⟨f, hf⟩ : ∃ f, (⟨1367, 10, [399], true⟩ : Srp Int).eom darkAlm satLeo = some f := by
    simp [Srp.eom, darkAlm, alignedAlm, orbitOf, satLeo, Srp.light01, Guide.shadow, Guide.shadowLoop]
  exact ⟨f, hf, srp_shadow darkAlm _ satLeo f ⟨10, 0, satLeo.pos - ![au, 0, 0], satLeo.vel⟩ hf
    (by simp [darkAlm, alignedAlm, orbitOf, satLeo]) satLeo_far (by rintro b - q ⟨rfl⟩; exact le_rfl) 399 (by simp) rfl⟩

end Verif.Force
