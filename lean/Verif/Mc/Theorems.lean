import Verif.Mc.Stats
/-!
C115: the statistics of the states drawn by the multivariate generator. C65: the dispersions reported.
-/
namespace Verif.Mc
open Matrix Verif.Spacecraft MeasureTheory

variable {E Fr : Type}

theorem writeMean_dot (v : Fin 6 → ℝ) (u : Fin 9 → ℝ) :
    writeMean v ⬝ᵥ u = v ⬝ᵥ fun i : Fin 6 => u ⟨i.val, by omega⟩ := by
  simp only [dotProduct, Fin.sum_univ_succ, writeMean]
  simp [Fin.succ]

theorem moved_dot (p : Fin 6 → ℝ) (s t : Craft ℝ Fr) :
    writeMean p ⬝ᵥ (coords s - coords t) = p ⬝ᵥ moved s t := by
  rw [writeMean_dot]
  congr 1
  funext i
  fin_cases i <;> rfl

theorem writeMean_quad (p q : Fin 6 → ℝ) (c : Matrix (Fin 9) (Fin 9) ℝ) (o : Matrix (Fin 6) (Fin 6) ℝ)
    (h : ∀ i j : Fin 6, c ⟨i.val, by omega⟩ ⟨j.val, by omega⟩ = o i j) :
    writeMean p ⬝ᵥ (c *ᵥ writeMean q) = p ⬝ᵥ (o *ᵥ q) := by
  rw [writeMean_dot]
  congr 1
  funext i
  rw [mulVec, dotProduct_comm, writeMean_dot, dotProduct_comm]
  simp only [mulVec, dotProduct, h]

/-- **C115 (new), partial.** With at most six orbital dispersions, the states drawn reproduce what is
configured when mapped back to the dispersed elements by their gradients: for each orbital dispersion the mean of
the change of the element (linearized) is the configured mean, its variance is the square of the configured
standard deviation, and two different dispersions are not correlated.
Missing: the dispersions on Cr, Cd and the masses (see below); with more than six orbital dispersions the
statistics cannot all be reproduced. -/
theorem orbital_statistics_partial {Ω : Type} [MeasurableSpace Ω] {P : Measure Ω} {z : Ω → Fin 9 → ℝ}
    (hz : StdDraws P z) (x : Ext E Fr) (hx : SvdOk x) (t : Craft ℝ Fr) (ds : List (Disp E)) (g : Gen E Fr)
    (h : mvnNew x t ds = .ok g) (smp : Ω → Dispersed E Fr) (hs : ∀ w, g.sample x (z w) = .ok (smp w))
    (os : List (Disp E)) (hos : os = ds.filter fun d => d.param.isOrbital) (h6 : os.length ≤ 6)
    (i j : Nat) (hi : i < os.length) (hj : j < os.length) (ei ej : E) (gi gj : Fin 6 → ℝ)
    (hei : os[i].param = .elem ei) (hej : os[j].param = .elem ej)
    (hgi : x.elemPartial t ei = some gi) (hgj : x.elemPartial t ej = some gj) :
    ∫ w, gi ⬝ᵥ moved (smp w).state t ∂P = os[i].mean.getD 0 ∧
    ∫ w, (gi ⬝ᵥ moved (smp w).state t - os[i].mean.getD 0) *
      (gj ⬝ᵥ moved (smp w).state t - os[j].mean.getD 0) ∂P =
      if i = j then (os[i].std.getD 0) ^ 2 else 0 := by
  obtain ⟨ht, -, -, c, hc, -, -, -, -, hpart⟩ := mvnNew_ok x hx t ds g h
  obtain ⟨gs, ji, hgs, hji, hcov, hmean⟩ := hpart os hos (by omega)
  obtain ⟨hlen, hgrad⟩ := partialsOf_ok x t os (by rw [hos]; intro d hd; exact (List.mem_filter.1 hd).2) gs hgs
  have hi' : i < gs.length := by omega
  have hj' : j < gs.length := by omega
  have ei' : gi = gs[i] := by
    obtain ⟨e, h1, h2⟩ := hgrad i hi hi'
    rw [hei] at h1
    cases h1
    rw [hgi] at h2
    exact Option.some.inj h2
  have ej' : gj = gs[j] := by
    obtain ⟨e, h1, h2⟩ := hgrad j hj hj'
    rw [hej] at h1
    cases h1
    rw [hgj] at h2
    exact Option.some.inj h2
  -- the pseudo inverse is a right inverse
  have hright : jacobian gs * ji = 1 := by
    by_cases h5 : gs.length < 6
    · ext a b
      have := congrFun (MathU.pseudo_inverse_wide (jacobian gs) h5 ji hji (Pi.single b 1)).1 a
      rw [mulVec_mulVec] at this
      simpa [Matrix.one_apply, Pi.single_apply] using this
    · have e6 : gs.length = 6 := by omega
      have hl := (MathU.pseudo_inverse_tall (jacobian gs) (by omega) ji hji 0).1
      have : ∀ (n : Nat) (A : Matrix (Fin n) (Fin 6) ℝ) (B : Matrix (Fin 6) (Fin n) ℝ), n = 6 → B * A = 1 →
          A * B = 1 := by
        rintro n A B rfl hBA
        exact mul_eq_one_comm.1 hBA
      exact this _ _ _ e6 hl
  have hrow : ∀ (k : Nat) (hk : k < gs.length) (u : Fin 6 → ℝ),
      gs[k] ⬝ᵥ u = (jacobian gs *ᵥ u) ⟨k, hk⟩ := by
    intro k hk u
    rfl
  have hm : ∀ (k : Nat) (hk : k < gs.length) (hk' : k < os.length),
      writeMean gs[k] ⬝ᵥ g.mean = os[k].mean.getD 0 := by
    intro k hk hk'
    rw [writeMean_dot]
    have : (fun i : Fin 6 => g.mean ⟨i.val, by omega⟩) = ji *ᵥ meansOf os gs.length := funext hmean
    rw [this, hrow k hk, mulVec_mulVec, hright, one_mulVec]
    simp [meansOf, List.getElem?_eq_getElem hk']
  obtain ⟨s1, s2⟩ := gen_stats hz x g smp hs (writeMean gi) (writeMean gj)
  rw [ht] at s1 s2
  simp only [moved_dot] at s1 s2
  rw [hc, writeMean_quad _ _ c _ hcov] at s2
  subst ei' ej'
  rw [hm i hi' hi] at s1 s2
  rw [hm j hj' hj] at s2
  refine ⟨s1, s2.trans ?_⟩
  rw [dotProduct_mulVec, ← dotProduct_mulVec, hrow i hi', ← mulVec_mulVec, ← mulVec_mulVec, mulVec_mulVec,
    hright, one_mulVec]
  have e : jiᵀ *ᵥ gs[j] = Pi.single (⟨j, hj'⟩ : Fin gs.length) 1 := by
    have h1 : jiᵀ * (jacobian gs)ᵀ = 1 := by rw [← transpose_mul, hright, transpose_one]
    have h2 : gs[j] = (jacobian gs)ᵀ *ᵥ Pi.single (⟨j, hj'⟩ : Fin gs.length) 1 := by
      funext a
      simp [jacobian]
    rw [h2, mulVec_mulVec, h1, one_mulVec]
  rw [e]
  simp only [mulVec_diagonal, Pi.single_apply, Fin.mk.injEq, variances]
  by_cases hij : i = j
  · subst hij
    simp [List.getElem?_eq_getElem hi]
  · simp [hij]

/-- **C115 (new), what it accepts.** Only dispersions on orbital elements, Cr and Cd are accepted: the B plane
parameters and the masses, which the documentation and the code mention, never give a generator. -/
theorem new_accepts (x : Ext E Fr) (hx : SvdOk x) (t : Craft ℝ Fr) (ds : List (Disp E)) (g : Gen E Fr)
    (h : mvnNew x t ds = .ok g) :
    ∀ d ∈ ds, (∃ e, d.param = .elem e) ∨ d.param = .cr ∨ d.param = .cd := by
  obtain ⟨-, -, -, c, -, -, -, -, hp, -⟩ := mvnNew_ok x hx t ds g h
  exact hp

/-- **C115 refuted (masses and B plane).** A single dispersion on the dry or propellant mass panics (it writes
outside of the matrix); a single one on a parameter of the B plane is refused as read only even if the
B plane exists. -/
theorem mass_and_b_plane_rejected (x : Ext E Fr) (t : Craft ℝ Fr) (m s : Option ℝ) :
    mvnNew x t [⟨.dryMass, m, s⟩] = .panic ∧ mvnNew x t [⟨.propMass, m, s⟩] = .panic ∧
    mvnNew x t [⟨.bdotR, m, s⟩] = .err ∧ mvnNew x t [⟨.bdotT, m, s⟩] = .err ∧
    mvnNew x t [⟨.bltof, m, s⟩] = .err := by
  refine ⟨?_, ?_, ?_, ?_, ?_⟩ <;>
    simp [mvnNew, orbitPart, otherPart, Out.bind, Par.isBPlane, Par.isOrbital]

/-- **C115 refuted (Cr).** Whatever the dispersions configured, the reflectivity of the states drawn is that of
the template: a dispersion on Cr never disperses Cr. -/
theorem cr_never_dispersed (x : Ext E Fr) (hx : SvdOk x) (t : Craft ℝ Fr) (ds : List (Disp E)) (g : Gen E Fr)
    (h : mvnNew x t ds = .ok g) (z : Fin 9 → ℝ) (d : Dispersed E Fr) (hd : g.sample x z = .ok d) :
    d.state.cr = t.cr := by
  obtain ⟨ht, -, hm, c, hc, -, -, h66, -, -⟩ := mvnNew_ok x hx t ds g h
  have hrow : ∀ k, g.sqrtSV 6 k = 0 := by
    have : ∑ k, g.sqrtSV 6 k * g.sqrtSV 6 k = 0 := by
      have := congrFun (congrFun hc 6) 6
      rw [h66, mul_apply] at this
      simpa using this
    intro k
    have := (Finset.sum_eq_zero_iff_of_nonneg fun k _ => mul_self_nonneg (g.sqrtSV 6 k)).1 this k
      (Finset.mem_univ k)
    exact mul_self_eq_zero.1 this
  rw [sample_state x g z d hd, ht]
  show t.cr + ((g.sqrtSV *ᵥ z) 6 + g.mean 6) = t.cr
  rw [hm 6 (by decide)]
  simp [mulVec, dotProduct, hrow]

/-- **C115 refuted (Cd, propellant).** The drag coefficient of the states drawn has the mean of the template, and
for variance the square of the mean (not of the standard deviation) configured for Cr (not Cd); the
propellant mass has for variance the square of the mean configured for Cd. -/
theorem cd_prop_variance {Ω : Type} [MeasurableSpace Ω] {P : Measure Ω} {z : Ω → Fin 9 → ℝ}
    (hz : StdDraws P z) (x : Ext E Fr) (hx : SvdOk x) (t : Craft ℝ Fr) (ds : List (Disp E)) (g : Gen E Fr)
    (h : mvnNew x t ds = .ok g) (smp : Ω → Dispersed E Fr) (hs : ∀ w, g.sample x (z w) = .ok (smp w)) :
    ∫ w, ((smp w).state.cd - t.cd) ∂P = 0 ∧
    ∫ w, ((smp w).state.cd - t.cd) ^ 2 ∂P = ((lastMean Par.isCr ds).getD 0) ^ 2 ∧
    ∫ w, ((smp w).state.prop - t.prop) ^ 2 ∂P = ((lastMean Par.isCd ds).getD 0) ^ 2 := by
  obtain ⟨ht, -, hm, c, hc, h77, h88, -, -, -⟩ := mvnNew_ok x hx t ds g h
  have e7 : ∀ w, (Pi.single 7 1 : Fin 9 → ℝ) ⬝ᵥ (coords (smp w).state - coords g.template) =
      (smp w).state.cd - t.cd := by
    intro w
    rw [single_dotProduct, one_mul, ht]
    rfl
  have e8 : ∀ w, (Pi.single 8 1 : Fin 9 → ℝ) ⬝ᵥ (coords (smp w).state - coords g.template) =
      (smp w).state.prop - t.prop := by
    intro w
    rw [single_dotProduct, one_mul, ht]
    rfl
  have m7 : (Pi.single 7 1 : Fin 9 → ℝ) ⬝ᵥ g.mean = 0 := by
    rw [single_dotProduct, hm 7 (by decide), mul_zero]
  have m8 : (Pi.single 8 1 : Fin 9 → ℝ) ⬝ᵥ g.mean = 0 := by
    rw [single_dotProduct, hm 8 (by decide), mul_zero]
  obtain ⟨a1, a2⟩ := gen_stats hz x g smp hs (Pi.single 7 1) (Pi.single 7 1)
  obtain ⟨b1, b2⟩ := gen_stats hz x g smp hs (Pi.single 8 1) (Pi.single 8 1)
  simp only [e7, m7, sub_zero] at a1 a2
  simp only [e8, m8, sub_zero] at b1 b2
  refine ⟨a1, ?_, ?_⟩
  · simp only [pow_two]
    rw [a2, hc, single_dotProduct, one_mul, mulVec_single_one, col_apply, h77, pow_two]
  · simp only [pow_two]
    rw [b2, hc, single_dotProduct, one_mul, mulVec_single_one, col_apply, h88, pow_two]

theorem lastMean_zero (p : Par E → Bool) (ds : List (Disp E)) :
    (lastMean p (ds.map fun d => { d with mean := some 0 })).getD 0 = 0 := by
  induction ds with
  | nil => rfl
  | cons d l ih =>
    simp only [List.map_cons, lastMean]
    cases hl : lastMean p (l.map fun d => { d with mean := some 0 }) with
    | none =>
      simp only [Option.none_or]
      split <;> rfl
    | some v => rw [hl] at ih; exact ih

/-- **C115 refuted (zero mean).** A generator made with `zero_mean` never disperses Cr, Cd or the propellant,
whatever standard deviations are configured for them: each state drawn has those of the template. -/
theorem zero_mean_coefficients (x : Ext E Fr) (hx : SvdOk x) (t : Craft ℝ Fr) (ds : List (Disp E))
    (g : Gen E Fr) (h : mvnZeroMean x t ds = .ok g) (z : Fin 9 → ℝ) (d : Dispersed E Fr)
    (hd : g.sample x z = .ok d) :
    d.state.cr = t.cr ∧ d.state.cd = t.cd ∧ d.state.prop = t.prop ∧ d.state.dry = t.dry := by
  refine ⟨cr_never_dispersed x hx t _ g h z d hd, ?_⟩
  obtain ⟨ht, -, hm, c, hc, h77, h88, -, -, -⟩ := mvnNew_ok x hx t _ g h
  rw [lastMean_zero] at h77 h88
  have hrow : ∀ l : Fin 9, c l l = 0 → ∀ k, g.sqrtSV l k = 0 := by
    intro l hl
    have : ∑ k, g.sqrtSV l k * g.sqrtSV l k = 0 := by
      have := congrFun (congrFun hc l) l
      rw [hl, mul_apply] at this
      simpa using this
    intro k
    have := (Finset.sum_eq_zero_iff_of_nonneg fun k _ => mul_self_nonneg (g.sqrtSV l k)).1 this k
      (Finset.mem_univ k)
    exact mul_self_eq_zero.1 this
  rw [sample_state x g z d hd, ht]
  refine ⟨?_, ?_, rfl⟩
  · show t.cd + ((g.sqrtSV *ᵥ z) 7 + g.mean 7) = t.cd
    rw [hm 7 (by decide)]
    simp [mulVec, dotProduct, hrow 7 (by rw [h77]; norm_num)]
  · show t.prop + ((g.sqrtSV *ᵥ z) 8 + g.mean 8) = t.prop
    rw [hm 8 (by decide)]
    simp [mulVec, dotProduct, hrow 8 (by rw [h88]; norm_num)]

/-- **C115 (from a covariance).** A generator made from a covariance (symmetric, no negative variance) and a
mean draws states whose nine coordinates have that mean, added to the template, and that covariance. -/
theorem from_cov_statistics {Ω : Type} [MeasurableSpace Ω] {P : Measure Ω} {z : Ω → Fin 9 → ℝ}
    (hz : StdDraws P z) (x : Ext E Fr) (hx : SvdOk x) (ax : Fin 6 → E) (t : Craft ℝ Fr)
    (c : Matrix (Fin 9) (Fin 9) ℝ) (hc : IsCov c) (mean : Fin 9 → ℝ) (g : Gen E Fr)
    (h : fromCov x ax t c mean = .ok g) (smp : Ω → Dispersed E Fr)
    (hs : ∀ w, g.sample x (z w) = .ok (smp w)) (i j : Fin 9) :
    ∫ w, (coords (smp w).state i - coords t i) ∂P = mean i ∧
    ∫ w, (coords (smp w).state i - coords t i - mean i) *
      (coords (smp w).state j - coords t j - mean j) ∂P = c i j := by
  unfold fromCov at h
  obtain ⟨ev, -, h⟩ := bind_eq_ok.1 h
  split at h
  · cases h
  obtain ⟨⟨v, s⟩, hv, h⟩ := bind_eq_ok.1 h
  cases h
  obtain ⟨a1, a2⟩ := gen_stats hz x _ smp hs (Pi.single i 1) (Pi.single j 1)
  simp only [single_dotProduct, one_mul, Pi.sub_apply] at a1 a2
  refine ⟨a1, a2.trans ?_⟩
  rw [svd_factor c v s hc (hx c v s (orErr_eq_ok.1 hv)), mulVec_single_one, col_apply]

/-- **C115 (which covariances are accepted).** For a symmetric matrix whose eigenvalues and decomposition are
computed, the generator is made if and only if no direction has a negative variance. -/
theorem from_cov_accepts (x : Ext E Fr) (he : EigOk x) (ax : Fin 6 → E) (t : Craft ℝ Fr)
    (c : Matrix (Fin 9) (Fin 9) ℝ) (hsym : cᵀ = c) (mean : Fin 9 → ℝ)
    (h1 : (x.eigenvalues c).isSome) (h2 : (x.svd c).isSome) :
    (∃ g, fromCov x ax t c mean = .ok g) ↔ ∀ w : Fin 9 → ℝ, 0 ≤ w ⬝ᵥ (c *ᵥ w) := by
  obtain ⟨ev, hev⟩ := Option.isSome_iff_exists.1 h1
  obtain ⟨vs, hvs⟩ := Option.isSome_iff_exists.1 h2
  have spec := he c ev hev
  have key : (∃ g, fromCov x ax t c mean = .ok g) ↔ ∀ i, 0 ≤ ev i := by
    unfold fromCov
    simp only [hev, hvs, orErr, Out.bind]
    split
    · next hn =>
      simp only [reduceCtorEq, exists_false, false_iff, not_forall, not_le]
      obtain ⟨i, -, hi⟩ := List.any_eq_true.1 hn
      exact ⟨i, by simpa using hi⟩
    · next hn =>
      simp only [Out.ok.injEq, exists_eq', true_iff]
      intro i
      by_contra hi
      exact hn (List.any_eq_true.2 ⟨i, List.mem_finRange i, by simpa using hi⟩)
  rw [key]
  have hH : c.IsHermitian := by rw [IsHermitian, conjTranspose_eq_transpose_of_trivial, hsym]
  have hps : c.PosSemidef ↔ ∀ w : Fin 9 → ℝ, 0 ≤ w ⬝ᵥ (c *ᵥ w) := by
    rw [← isCov_iff]
    exact ⟨fun h => h.2, fun h => ⟨hsym, h⟩⟩
  rw [← hps]
  constructor
  · intro hnn
    refine hH.posSemidef_iff_eigenvalues_nonneg.2 fun k => ?_
    obtain ⟨i, hi⟩ := (spec (hH.eigenvalues k)).2
      ⟨⇑(hH.eigenvectorBasis k), by
        intro h0
        have h1 : hH.eigenvectorBasis k = 0 := by
          ext a
          exact congrFun h0 a
        have := hH.eigenvectorBasis.orthonormal.1 k
        rw [h1, norm_zero] at this
        exact zero_ne_one this, hH.mulVec_eigenvectorBasis k⟩
    simp only [Pi.zero_apply]
    rw [← hi]
    exact hnn i
  · intro hp i
    obtain ⟨w, hw, hcw⟩ := (spec (ev i)).1 ⟨i, rfl⟩
    have h0 := hps.1 hp w
    rw [hcw, dotProduct_smul, smul_eq_mul] at h0
    have hpos : 0 < w ⬝ᵥ w := by
      rcases (MathU.dot_self_nonneg w).lt_or_eq with h | h
      · exact h
      · exact absurd (dotProduct_self_eq_zero.1 h.symm) hw
    by_contra hneg
    push Not at hneg
    nlinarith

/-- **C115 refuted (recorded dispersions).** The standard deviations recorded with such a generator are the
variances: they are the standard deviations of the states drawn only for variances 0 or 1. -/
theorem recorded_are_variances (x : Ext E Fr) (ax : Fin 6 → E) (t : Craft ℝ Fr)
    (c : Matrix (Fin 9) (Fin 9) ℝ) (mean : Fin 9 → ℝ) (g : Gen E Fr)
    (h : fromCov x ax t c mean = .ok g) (i : Fin 9) :
    ∃ d ∈ g.disps, d.std = some (c i i) ∧ (d.std = some (Real.sqrt (c i i)) ↔ c i i = 0 ∨ c i i = 1) := by
  unfold fromCov at h
  obtain ⟨ev, -, h⟩ := bind_eq_ok.1 h
  split at h
  · cases h
  obtain ⟨⟨v, s⟩, hv, h⟩ := bind_eq_ok.1 h
  cases h
  have key : ∀ y : ℝ, y = Real.sqrt y ↔ y = 0 ∨ y = 1 := by
    intro y
    constructor
    · intro hy
      have h0 : 0 ≤ y := by rw [hy]; exact Real.sqrt_nonneg y
      have : y * y = y := by
        nth_rewrite 1 [hy]
        nth_rewrite 2 [hy]
        exact Real.mul_self_sqrt h0
      have h2 : y * (y - 1) = 0 := by rw [mul_sub, this]; ring
      rcases mul_eq_zero.1 h2 with h3 | h3
      · exact Or.inl h3
      · exact Or.inr (by linarith)
    · rintro (rfl | rfl) <;> simp
  have hk := key (c i i)
  refine ⟨(recorded ax c)[i.val]'(by simp [recorded]), List.getElem_mem _, ?_⟩
  have e : ((recorded ax c)[i.val]'(by simp [recorded])).std = some (c i i) := by
    fin_cases i <;> rfl
  rw [e]
  exact ⟨rfl, by rw [Option.some.injEq]; exact hk⟩

/-! ### C65 -/

/-- **C65, partial.** Each dispersion configured is reported, in order, as the value of the parameter in the
template minus its value in the state drawn. -/
theorem reported_opposite_partial (x : Ext E Fr) (g : Gen E Fr) (z : Fin 9 → ℝ) (d : Dispersed E Fr)
    (h : g.sample x z = .ok d) :
    d.actual.map Prod.fst = g.disps.map (·.param) ∧
    ∀ q ∈ d.actual, ∃ a b, x.value g.template q.1 = some a ∧ x.value d.state q.1 = some b ∧ a - q.2 = b := by
  unfold Gen.sample at h
  have h' := bind_eq_ok.1 h
  clear h
  obtain ⟨r, hr, h⟩ := h'
  cases h
  generalize disperse g.template (g.sqrtSV *ᵥ z + g.mean) = s at hr
  generalize g.disps = l at hr
  induction l generalizing r with
  | nil => cases hr; simp
  | cons dd l ih =>
    simp only [reported] at hr
    obtain ⟨a, ha, hr⟩ := bind_eq_ok.1 hr
    obtain ⟨b, hb, hr⟩ := bind_eq_ok.1 hr
    obtain ⟨r', hr', hr⟩ := bind_eq_ok.1 hr
    cases hr
    obtain ⟨i1, i2⟩ := ih r' hr'
    refine ⟨by simp [i1], ?_⟩
    intro q hq
    rcases List.mem_cons.1 hq with rfl | hq
    · exact ⟨a, b, unwrap_eq_ok.1 ha, unwrap_eq_ok.1 hb, by ring⟩
    · exact i2 q hq

/-- **C65 refuted (sign).** "Template + dispersion = state", as documented, holds for a dispersion reported only if
it is zero. -/
theorem reported_sign (x : Ext E Fr) (g : Gen E Fr) (z : Fin 9 → ℝ) (d : Dispersed E Fr)
    (h : g.sample x z = .ok d) (q : Par E × ℝ) (hq : q ∈ d.actual) (a b : ℝ)
    (ha : x.value g.template q.1 = some a) (hb : x.value d.state q.1 = some b) :
    a + q.2 = b ↔ q.2 = 0 := by
  obtain ⟨a', b', h1, h2, h3⟩ := (reported_opposite_partial x g z d h).2 q hq
  rw [ha] at h1
  rw [hb] at h2
  cases h1
  cases h2
  constructor <;> intro h4 <;> linarith

/-- **C65 (what the state drawn is).** Only the nine coordinates change: they are the template's plus a linear
function of the values drawn plus the mean. -/
theorem sample_only_coordinates (x : Ext E Fr) (g : Gen E Fr) (z : Fin 9 → ℝ) (d : Dispersed E Fr)
    (h : g.sample x z = .ok d) :
    coords d.state = coords g.template + (g.sqrtSV *ᵥ z + g.mean) ∧
    d.state.epoch = g.template.epoch ∧ d.state.frame = g.template.frame ∧ d.state.dry = g.template.dry ∧
    d.state.extra = g.template.extra ∧ d.state.srpArea = g.template.srpArea ∧
    d.state.dragArea = g.template.dragArea ∧ d.state.thruster = g.template.thruster ∧
    d.state.mode = g.template.mode ∧ d.state.dir = g.template.dir ∧ d.state.stm = g.template.stm := by
  rw [sample_state x g z d h]
  exact ⟨coords_disperse _ _, rfl, rfl, rfl, rfl, rfl, rfl, rfl, rfl, rfl, rfl⟩

end Verif.Mc
