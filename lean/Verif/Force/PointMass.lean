import Verif.Force.Orbit

/-!
The perturbation of third bodies (C159).
-/
namespace Verif.Force
open Verif.MathU Matrix
variable {Fr : Type}

/-- Specification: the inverse square pull, of magnitude `1 / |r|²` along `r`. -/
noncomputable def pull (r : V3) : V3 := (1 / nrm r ^ 3) • r

/-- Specification: the derivative of the pull, `1 / |r|³ (I - 3 r rᵀ / |r|²)`. -/
noncomputable def tidal (r : V3) : M3 :=
  of fun i j => (if i = j then 1 else 0) / nrm r ^ 3 - 3 * r i * r j / nrm r ^ 5

theorem pull_tracks (r : V3) (h0 : r ≠ 0) (i : Fin 3) :
    Tracks r (fun p => pull p i) (Dual.vars r i / (Dual.norm3 (Dual.vars r)).powi 3) := by
  have hn := (Tracks.norm3 (F := fun y => y) (fun k => Tracks.var (x := r) k) h0).powi 3
  have hne : nrm r ^ 3 ≠ 0 := pow_ne_zero _ (nrm_pos _ h0).ne'
  refine ((Tracks.var i).div hn hne).congr fun p => ?_
  simp only [pull, Pi.smul_apply, smul_eq_mul]
  ring

theorem norm3_vars (r : V3) : Dual.norm3 (Dual.vars r) = ⟨nrm r, fun j => r j / nrm r⟩ := by
  have hs : (r 0) ^ 2 + (r 1) ^ 2 + (r 2) ^ 2 = r ⬝ᵥ r := by rw [dot3]; ring
  have e : (Dual.norm3 (Dual.vars r)).re = nrm r := by
    show Real.sqrt ((r 0) ^ 2 + (r 1) ^ 2 + (r 2) ^ 2) = _
    rw [hs]; rfl
  refine Dual.ext e (funext fun j => ?_)
  show ((((2 : ℕ) : ℝ) * (r 0) ^ (2 - 1) * (if j = 0 then 1 else 0) + ((2 : ℕ) : ℝ) * (r 1) ^ (2 - 1) * (if j = 1 then 1 else 0)
    + ((2 : ℕ) : ℝ) * (r 2) ^ (2 - 1) * (if j = 2 then 1 else 0)) / (2 * Real.sqrt ((r 0) ^ 2 + (r 1) ^ 2 + (r 2) ^ 2))) = r j / nrm r
  rw [hs]
  show _ / (2 * nrm r) = _
  fin_cases j <;> simp <;> rw [mul_div_mul_left _ _ two_ne_zero]

theorem pull_eps (r : V3) (h0 : r ≠ 0) (i j : Fin 3) :
    (Dual.vars r i / (Dual.norm3 (Dual.vars r)).powi 3).eps j = tidal r i j := by
  have hn : nrm r ≠ 0 := (nrm_pos _ h0).ne'
  rw [norm3_vars]
  show ((if j = i then 1 else 0) * nrm r ^ 3 - r i * (((3 : ℕ) : ℝ) * nrm r ^ (3 - 1) * (r j / nrm r))) /
    (nrm r ^ 3 * nrm r ^ 3) = (if i = j then 1 else 0) / nrm r ^ 3 - 3 * r i * r j / nrm r ^ 5
  by_cases h : i = j
  · subst h
    simp only [if_pos]
    push_cast
    field_simp
  · simp only [h, Ne.symm h, if_false]
    push_cast
    field_simp

theorem pull_deriv (r : V3) (h0 : r ≠ 0) : HasFDerivAt pull (linM (tidal r)) r := by
  have h := (Tracks.vector (pull_tracks r h0)).2
  rwa [show (of fun i j => (Dual.vars r i / (Dual.norm3 (Dual.vars r)).powi 3).eps j) = tidal r from by
    ext i j; exact pull_eps r h0 i j] at h

theorem thirdBodyD_spec (p r : V3) (hp : p - r ≠ 0) (hr : r ≠ 0) (i : Fin 3) :
    (thirdBodyD p r i).re = pull (p - r) i + pull r i ∧
      ∀ j, (thirdBodyD p r i).eps j = tidal (p - r) i j + tidal r i j := by
  have e : (fun i : Fin 3 => (⟨(Dual.vars p i - Dual.vars r i).re, fun j => if j = i then 1 else
      (Dual.vars p i - Dual.vars r i).eps j⟩ : Dual 3)) = Dual.vars (p - r) := by
    funext k
    refine Dual.ext rfl (funext fun j => ?_)
    show (if j = k then 1 else ((if j = k then (1 : ℝ) else 0) - (if j = k then 1 else 0))) = (if j = k then 1 else 0)
    by_cases h : j = k <;> simp [h]
  have d : thirdBodyD p r i = Dual.vars (p - r) i / (Dual.norm3 (Dual.vars (p - r))).powi 3 +
      Dual.vars r i / (Dual.norm3 (Dual.vars r)).powi 3 := by
    simp only [thirdBodyD]
    rw [e, ← congrFun e i]
  rw [d]
  constructor
  · exact congrArg₂ (· + ·) (pull_tracks (p - r) hp i).1 (pull_tracks r hr i).1
  · intro j
    exact congrArg₂ (· + ·) (pull_eps (p - r) hp i j) (pull_eps r hr i j)

/-- What the almanac knows about body `b` seen from `o`: gravitational parameter and position. -/
def Known (alm : Alm Fr) (o : Orb Fr) (b : Int) (mu : ℝ) (r : V3) : Prop :=
  ∃ f st, alm.body o.frame b = some f ∧ alm.mu f = some mu ∧ alm.transform f o.frame o.epoch = some st ∧ st.pos = r

/-- The bodies that perturb: all but the center of the frame of `o`. -/
def perturbers (alm : Alm Fr) (o : Orb Fr) (bs : List Int) : List Int := bs.filter fun b => !alm.centered o.frame b

/-- Specification of the perturbation at position `p`: the pull of each body on the spacecraft minus its pull on the
center, per unit of gravitational parameter. -/
noncomputable def perturbation (l : List Int) (mu : Int → ℝ) (r : Int → V3) (p : V3) : V3 :=
  (l.map fun b => mu b • (pull (r b - p) - pull (r b))).sum

/-- Specification: the derivative of the perturbation. -/
noncomputable def tides (l : List Int) (mu : Int → ℝ) (r : Int → V3) (p : V3) : M3 :=
  (l.map fun b => (-mu b) • tidal (p - r b)).sum

theorem pull_neg (r : V3) : pull (-r) = -pull r := by
  have : nrm (-r) = nrm r := by
    simp only [nrm, neg_dotProduct, dotProduct_neg, neg_neg]
  simp [pull, this]

theorem pmEom_spec (alm : Alm Fr) (bs : List Int) (o : Orb Fr) (mu : Int → ℝ) (r : Int → V3)
    (hk : ∀ b ∈ perturbers alm o bs, Known alm o b (mu b) (r b)) (d : V3) :
    pmEom alm bs o d = some (d + perturbation (perturbers alm o bs) mu r o.pos) := by
  induction bs generalizing d with
  | nil => simp [pmEom, perturbation, perturbers]
  | cons b bs ih =>
    by_cases hc : alm.centered o.frame b = true
    · have e : perturbers alm o (b :: bs) = perturbers alm o bs := by simp [perturbers, hc]
      rw [e] at hk ⊢
      simp only [pmEom, hc, if_true]
      exact ih hk d
    · have e : perturbers alm o (b :: bs) = b :: perturbers alm o bs := by simp [perturbers, hc]
      rw [e] at hk ⊢
      obtain ⟨f, st, h1, h2, h3, h4⟩ := hk b List.mem_cons_self
      simp only [pmEom, hc, h1, h2, h3, h4]
      rw [if_neg (by simp), ih fun b' h' => hk b' (List.mem_cons_of_mem _ h')]
      simp only [perturbation, List.map_cons, List.sum_cons, ← add_assoc]
      congr 2
      have e2 : r b - o.pos = -(o.pos - r b) := by abel
      rw [e2, pull_neg]
      simp only [pull]
      rw [neg_smul, ← smul_neg, neg_add]
      rfl

/-- What the code adds to the gradient on top of the derivative: the derivative of the pull on the center with respect
to the position of the body. -/
noncomputable def extra (l : List Int) (mu : Int → ℝ) (r : Int → V3) : M3 :=
  (l.map fun b => (-mu b) • tidal (r b)).sum

theorem pmGradient_spec (alm : Alm Fr) (bs : List Int) (o : Orb Fr) (mu : Int → ℝ) (r : Int → V3)
    (hk : ∀ b ∈ perturbers alm o bs, Known alm o b (mu b) (r b) ∧ o.pos ≠ r b ∧ r b ≠ 0) (d : V3) (g : M3) :
    pmGradient alm bs o (d, g) = some (d + perturbation (perturbers alm o bs) mu r o.pos,
      g + (tides (perturbers alm o bs) mu r o.pos + extra (perturbers alm o bs) mu r)) := by
  induction bs generalizing d g with
  | nil => simp [pmGradient, perturbation, perturbers, tides, extra]
  | cons b bs ih =>
    by_cases hc : alm.centered o.frame b = true
    · have e : perturbers alm o (b :: bs) = perturbers alm o bs := by simp [perturbers, hc]
      rw [e] at hk ⊢
      simp only [pmGradient, hc, if_true]
      exact ih hk d g
    · have e : perturbers alm o (b :: bs) = b :: perturbers alm o bs := by simp [perturbers, hc]
      rw [e] at hk ⊢
      obtain ⟨⟨f, st, h1, h2, h3, h4⟩, h5, h6⟩ := hk b List.mem_cons_self
      have hs := thirdBodyD_spec o.pos (r b) (sub_ne_zero.mpr h5) h6
      simp only [pmGradient, hc, h1, h2, h3, h4]
      rw [if_neg (by simp), ih fun b' h' => hk b' (List.mem_cons_of_mem _ h')]
      simp only [perturbation, tides, extra, List.map_cons, List.sum_cons]
      have e2 : r b - o.pos = -(o.pos - r b) := by abel
      rw [e2, pull_neg, Option.some.injEq, Prod.mk.injEq]
      constructor
      · rw [add_assoc]
        congr 2
        funext i
        show (thirdBodyD o.pos (r b) i).re * (-mu b) = mu b * (-(pull (o.pos - r b) i) - pull (r b) i)
        rw [(hs i).1]
        ring
      · have e3 : (of fun i j => (thirdBodyD o.pos (r b) i * Dual.ofReal (-mu b)).eps j) =
            (-mu b) • tidal (o.pos - r b) + (-mu b) • tidal (r b) := by
          ext i j
          show (thirdBodyD o.pos (r b) i).re * 0 + (thirdBodyD o.pos (r b) i).eps j * (-mu b) =
            (-mu b) * tidal (o.pos - r b) i j + (-mu b) * tidal (r b) i j
          rw [(hs i).2 j]
          ring
        rw [e3]
        abel

/-- The perturbation is differentiable away from the bodies, with the tides as derivative. -/
theorem perturbation_deriv (l : List Int) (mu : Int → ℝ) (r : Int → V3) (p : V3) (hp : ∀ b ∈ l, p ≠ r b) :
    HasFDerivAt (perturbation l mu r) (linM (tides l mu r p)) p := by
  induction l with
  | nil =>
    have h := hasFDerivAt_const (𝕜 := ℝ) (0 : V3) p
    rwa [show (0 : V3 →L[ℝ] V3) = linM (tides [] mu r p) from ContinuousLinearMap.ext fun v => by
        rw [linM_apply]; simp [tides]] at h
  | cons b l ih =>
    have h1 := ih fun b' h' => hp b' (List.mem_cons_of_mem _ h')
    have h0 : p - r b ≠ 0 := sub_ne_zero.mpr (hp b List.mem_cons_self)
    have h2 := ((pull_deriv (p - r b) h0).comp p ((hasFDerivAt_id p).sub_const (r b))).const_smul (-mu b)
    have h3 := (h2.sub_const (mu b • pull (r b))).add h1
    have ef : perturbation (b :: l) mu r = (fun q => (-mu b • (pull ∘ fun x => id x - r b)) q - mu b • pull (r b)) +
        perturbation l mu r := by
      funext q
      show mu b • (pull (r b - q) - pull (r b)) + _ = (-mu b • pull (q - r b) - mu b • pull (r b)) + perturbation l mu r q
      rw [show r b - q = -(q - r b) by abel, pull_neg, smul_sub, smul_neg, neg_smul]
      rfl
    rw [ef]
    have el : (-mu b) • (linM (tidal (p - r b))).comp (ContinuousLinearMap.id ℝ V3) + linM (tides l mu r p) =
        linM (tides (b :: l) mu r p) := ContinuousLinearMap.ext fun v => by
      show (-mu b) • linM (tidal (p - r b)) v + linM (tides l mu r p) v = _
      rw [linM_apply, linM_apply, linM_apply]
      simp only [tides, List.map_cons, List.sum_cons]
      rw [add_mulVec, smul_mulVec]
    rwa [el] at h3

/-- A linear map has one matrix. -/
theorem linM_injective {m n : ℕ} {A B : Matrix (Fin m) (Fin n) ℝ} (h : linM A = linM B) : A = B := by
  ext i j
  have := congrFun (congrArg (fun L => L (Pi.single j 1)) h) i
  simpa [linM_apply] using this

/-- C159: the acceleration of the point masses is the pull of each perturbing body on the spacecraft minus its pull
on the center of the frame; `gradient` returns the same acceleration. Missing: its matrix is the
derivative only after `extra` is subtracted. -/
theorem point_masses_partial (alm : Alm Fr) (bs : List Int) (o : Orb Fr) (mu : Int → ℝ) (r : Int → V3)
    (hk : ∀ b ∈ perturbers alm o bs, Known alm o b (mu b) (r b) ∧ o.pos ≠ r b ∧ r b ≠ 0) :
    (∀ x, (pointMasses alm bs).eom (o.at x) = some (perturbation (perturbers alm o bs) mu r (posPart x))) ∧
    ∃ G, (pointMasses alm bs).gradient o = some (perturbation (perturbers alm o bs) mu r o.pos, G) ∧
      HasFDerivAt (perturbation (perturbers alm o bs) mu r) (linM (G - extra (perturbers alm o bs) mu r)) o.pos := by
  constructor
  · intro x
    have h := pmEom_spec alm bs (o.at x) mu r (fun b hb => (hk b hb).1) 0
    rw [zero_add] at h
    exact h
  · refine ⟨tides (perturbers alm o bs) mu r o.pos + extra (perturbers alm o bs) mu r, ?_, ?_⟩
    · show pmGradient alm bs o (0, 0) = _
      rw [pmGradient_spec alm bs o mu r hk, zero_add, zero_add]
    · rw [add_sub_cancel_right]
      exact perturbation_deriv _ mu r _ fun b hb => (hk b hb).2.1

/-- C159, refuted: the partials of the point masses are exact only if `extra` vanishes. -/
theorem point_masses_exact_iff (alm : Alm Fr) (bs : List Int) (o : Orb Fr) (mu : Int → ℝ) (r : Int → V3)
    (hk : ∀ b ∈ perturbers alm o bs, Known alm o b (mu b) (r b) ∧ o.pos ≠ r b ∧ r b ≠ 0) :
    Exact (pointMasses alm bs) o ↔ extra (perturbers alm o bs) mu r = 0 := by
  obtain ⟨he, G, hG, hd⟩ := point_masses_partial alm bs o mu r hk
  constructor
  · rintro ⟨F, hF, G', hG', hd'⟩
    have hc : Continuous fun p : V3 => stack p o.vel := by
      refine continuous_pi fun i => ?_
      fin_cases i
      · exact continuous_apply (0 : Fin 3)
      · exact continuous_apply (1 : Fin 3)
      · exact continuous_apply (2 : Fin 3)
      · exact continuous_const
      · exact continuous_const
      · exact continuous_const
    have eF : perturbation (perturbers alm o bs) mu r =ᶠ[nhds o.pos] F := by
      filter_upwards [hc.continuousAt.eventually hF] with p h1
      rw [he, posPart_stack, Option.some.injEq] at h1
      exact h1
    rw [hG, Option.some.injEq, Prod.mk.injEq] at hG'
    have hd' := hd'.congr_of_eventuallyEq eF
    rw [← hG'.2] at hd'
    have := linM_injective (hd.unique hd')
    have h2 := congrArg (fun M => G - M) this
    simpa using h2
  · intro h0
    rw [h0, sub_zero] at hd
    exact ⟨_, Filter.Eventually.of_forall he, G, hG, hd⟩

/-- The tides never vanish. -/
theorem tidal_ne_zero (r : V3) (h0 : r ≠ 0) : tidal r ≠ 0 := by
  intro h
  have hn := nrm_pos r h0
  have hs : r 0 * r 0 + r 1 * r 1 + r 2 * r 2 = nrm r ^ 2 := by rw [← dot3, ← nrm_sq]; ring
  have h1 : (tidal r *ᵥ r) = (-2 / nrm r ^ 3) • r := by
    funext i
    rw [mulVec3]
    have hs' : r 0 * r 0 + r 1 * r 1 + r 2 * r 2 = nrm r ^ 2 := hs
    have e : tidal r i 0 * r 0 + tidal r i 1 * r 1 + tidal r i 2 * r 2 = r i / nrm r ^ 3 -
        3 * r i * (r 0 * r 0 + r 1 * r 1 + r 2 * r 2) / nrm r ^ 5 := by
      simp only [tidal, of_apply]
      fin_cases i <;> simp <;> ring
    rw [e, hs']
    simp only [Pi.smul_apply, smul_eq_mul]
    field_simp
    ring
  rw [h, zero_mulVec] at h1
  have h2 : (-2 / nrm r ^ 3) ≠ 0 := div_ne_zero (by norm_num) (pow_ne_zero _ hn.ne')
  exact h0 ((smul_eq_zero.mp h1.symm).resolve_left h2)

/-- C159, refuted: with one perturbing body, the gradient is wrong everywhere. -/
theorem point_mass_wrong (alm : Alm Fr) (b : Int) (o : Orb Fr) (mu : ℝ) (r : V3) (hmu : mu ≠ 0)
    (hc : alm.centered o.frame b = false) (hk : Known alm o b mu r) (h1 : o.pos ≠ r) (h2 : r ≠ 0) :
    ¬ Exact (pointMasses alm [b]) o := by
  have e : perturbers alm o [b] = [b] := by simp [perturbers, hc]
  rw [point_masses_exact_iff alm [b] o (fun _ => mu) (fun _ => r) (by
    rw [e]
    intro b' hb'
    rw [List.mem_singleton.mp hb']
    exact ⟨hk, h1, h2⟩), e]
  simp only [extra, List.map_cons, List.map_nil, List.sum_cons, List.sum_nil, add_zero]
  exact smul_ne_zero (neg_ne_zero.mpr hmu) (tidal_ne_zero r h2)

/-- An almanac with the Moon, body 301 of gravitational parameter 4900, 380000 km away on the first axis. -/
def moonAlm : Alm Int where
  mu f := if f = 301 then some 4900 else some 398600
  radius _ := none
  centered f b := f == b
  body _ b := some b
  info f := some f
  transform _ f e := some ⟨f, e, ![380000, 0, 0], 0⟩
  transformTo _ _ := none
  rotate _ _ _ := none
  occult _ _ _ := none

/-- An orbit around the Earth. -/
def leo : Orb Int := ⟨399, 0, ![7000, 0, 0], ![0, 7.5, 0]⟩

theorem leo_pos : leo.pos ≠ 0 := fun h => by
  have := congrFun h 0
  simp [leo] at this

theorem moon_far : (![380000, 0, 0] : V3) ≠ 0 := fun h => by
  have := congrFun h 0
  simp at this

/-- The gradient of the two body dynamics is the derivative. -/
example := orb_gradient moonAlm [] leo 398600 (by simp [moonAlm, leo]) leo_pos (by simp)

/-- The gradient with the Moon is not. -/
example : ¬ Exact (pointMasses moonAlm [301]) leo :=
  point_mass_wrong moonAlm 301 leo 4900 ![380000, 0, 0] (by norm_num) (by simp [moonAlm, leo])
    ⟨301, _, rfl, by simp [moonAlm], rfl, rfl⟩
    (fun h => by have := congrFun h 0; norm_num [leo] at this) moon_far

end Verif.Force
