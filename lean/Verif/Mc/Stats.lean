import Verif.Mc.Svd
import Verif.MathU.Vectors
import Mathlib.Probability.Distributions.Gaussian.Real
import Mathlib.Probability.Moments.CovarianceBilin
import Mathlib.MeasureTheory.Integral.Pi
/-!
C115: the statistics of the states drawn by the multivariate generator. C65: the dispersions reported.
-/
namespace Verif.Mc
open Matrix Verif.Spacecraft MeasureTheory

variable {E Fr : Type}

/-! ### Specification -/

/-- The nine values drawn are standard: zero mean, unit variance, no correlation. -/
structure StdDraws {Ω : Type} [MeasurableSpace Ω] (P : Measure Ω) (z : Ω → Fin 9 → ℝ) : Prop where
  prob : IsProbabilityMeasure P
  int1 : ∀ i, Integrable (fun w => z w i) P
  int2 : ∀ i j, Integrable (fun w => z w i * z w j) P
  mean : ∀ i, ∫ w, z w i ∂P = 0
  cov : ∀ i j, ∫ w, z w i * z w j ∂P = if i = j then 1 else 0

/-- The nine coordinates of the state space of the filter and of the generator. -/
def coords (s : Craft ℝ Fr) : Fin 9 → ℝ :=
  ![s.pos 0, s.pos 1, s.pos 2, s.vel 0, s.vel 1, s.vel 2, s.cr, s.cd, s.prop]

/-- The change of position and velocity. -/
def moved (s t : Craft ℝ Fr) : Fin 6 → ℝ :=
  ![s.pos 0 - t.pos 0, s.pos 1 - t.pos 1, s.pos 2 - t.pos 2,
    s.vel 0 - t.vel 0, s.vel 1 - t.vel 1, s.vel 2 - t.vel 2]

/-- The singular value decomposition used is one. -/
def SvdOk (x : Ext E Fr) : Prop := ∀ c v s, x.svd c = some (v, s) → IsSvd c v s

/-- The eigenvalues used are the eigenvalues. -/
def EigOk (x : Ext E Fr) : Prop := ∀ c ev, x.eigenvalues c = some ev →
  ∀ l, (∃ i, ev i = l) ↔ ∃ w : Fin 9 → ℝ, w ≠ 0 ∧ c *ᵥ w = l • w

/-- The mean configured for the last dispersion on a parameter. -/
noncomputable def lastMean (p : Par E → Bool) : List (Disp E) → Option ℝ
  | [] => none
  | d :: l => (lastMean p l).or (if p d.param then some (d.mean.getD 0) else none)

def Par.isCr : Par E → Bool
  | .cr => true
  | _ => false

def Par.isCd : Par E → Bool
  | .cd => true
  | _ => false

/-! ### Lemmas on the model -/

theorem bind_eq_ok {α β : Type} {x : Out α} {f : α → Out β} {b : β} :
    x.bind f = .ok b ↔ ∃ a, x = .ok a ∧ f a = .ok b := by
  cases x <;> simp [Out.bind]

theorem orErr_eq_ok {α : Type} {x : Option α} {a : α} : orErr x = .ok a ↔ x = some a := by
  cases x <;> simp [orErr]

theorem unwrap_eq_ok {α : Type} {x : Option α} {a : α} : unwrap x = .ok a ↔ x = some a := by
  cases x <;> simp [unwrap]

theorem coords_disperse (t : Craft ℝ Fr) (d : Fin 9 → ℝ) : coords (disperse t d) = coords t + d := by
  funext i
  fin_cases i <;> rfl

theorem moved_disperse (t : Craft ℝ Fr) (d : Fin 9 → ℝ) (i : Fin 6) :
    moved (disperse t d) t i = d ⟨i.val, by omega⟩ := by
  fin_cases i <;> simp [moved, disperse] <;> rfl

theorem sample_state (x : Ext E Fr) (g : Gen E Fr) (z : Fin 9 → ℝ) (d : Dispersed E Fr)
    (h : g.sample x z = .ok d) : d.state = disperse g.template (g.sqrtSV *ᵥ z + g.mean) := by
  unfold Gen.sample at h
  obtain ⟨r, _, h⟩ := bind_eq_ok.1 h
  cases h
  rfl

/-- Mean and covariance of an affine function of standard draws. -/
theorem affine_stats {Ω : Type} [MeasurableSpace Ω] {P : Measure Ω} {z : Ω → Fin 9 → ℝ} (hz : StdDraws P z)
    (a b : Fin 9 → ℝ) (m n : ℝ) :
    ∫ w, (a ⬝ᵥ z w + m) ∂P = m ∧
    ∫ w, (a ⬝ᵥ z w + m - m) * (b ⬝ᵥ z w + n - n) ∂P = a ⬝ᵥ b := by
  have := hz.prob
  constructor
  · have h1 : Integrable (fun w => a ⬝ᵥ z w) P := by
      simp only [dotProduct]
      exact integrable_finsetSum _ fun i _ => (hz.int1 i).const_mul _
    rw [integral_add h1 (integrable_const _), integral_const]
    simp only [dotProduct]
    rw [integral_finsetSum _ fun i _ => (hz.int1 i).const_mul _]
    simp [integral_const_mul, hz.mean]
  · have h2 : ∀ w, (a ⬝ᵥ z w + m - m) * (b ⬝ᵥ z w + n - n) =
        ∑ i, ∑ j, a i * b j * (z w i * z w j) := by
      intro w
      rw [add_sub_cancel_right, add_sub_cancel_right]
      simp only [dotProduct]
      rw [Finset.sum_mul_sum]
      exact Finset.sum_congr rfl fun i _ => Finset.sum_congr rfl fun j _ => by ring
    simp_rw [h2]
    rw [integral_finsetSum _ fun i _ => integrable_finsetSum _ fun j _ => (hz.int2 i j).const_mul _]
    simp only [dotProduct]
    refine Finset.sum_congr rfl fun i _ => ?_
    rw [integral_finsetSum _ fun j _ => (hz.int2 i j).const_mul _]
    simp [integral_const_mul, hz.cov]

/-- The state drawn: mean and covariance of its nine coordinates. -/
theorem gen_stats {Ω : Type} [MeasurableSpace Ω] {P : Measure Ω} {z : Ω → Fin 9 → ℝ} (hz : StdDraws P z)
    (x : Ext E Fr) (g : Gen E Fr) (smp : Ω → Dispersed E Fr) (hs : ∀ w, g.sample x (z w) = .ok (smp w))
    (p q : Fin 9 → ℝ) :
    ∫ w, p ⬝ᵥ (coords (smp w).state - coords g.template) ∂P = p ⬝ᵥ g.mean ∧
    ∫ w, (p ⬝ᵥ (coords (smp w).state - coords g.template) - p ⬝ᵥ g.mean) *
      (q ⬝ᵥ (coords (smp w).state - coords g.template) - q ⬝ᵥ g.mean) ∂P =
      p ⬝ᵥ ((g.sqrtSV * g.sqrtSVᵀ) *ᵥ q) := by
  have e : ∀ (r : Fin 9 → ℝ) w, r ⬝ᵥ (coords (smp w).state - coords g.template) =
      (r ᵥ* g.sqrtSV) ⬝ᵥ z w + r ⬝ᵥ g.mean := by
    intro r w
    rw [sample_state x g _ _ (hs w), coords_disperse, add_sub_cancel_left, dotProduct_add,
      dotProduct_mulVec]
  simp_rw [e]
  obtain ⟨h1, h2⟩ := affine_stats hz (p ᵥ* g.sqrtSV) (q ᵥ* g.sqrtSV) (p ⬝ᵥ g.mean) (q ⬝ᵥ g.mean)
  refine ⟨h1, h2.trans ?_⟩
  rw [← mulVec_mulVec, dotProduct_mulVec, mulVec_transpose]

/-! ### The covariance built from dispersions -/

theorem setDiag_add {c : Matrix (Fin 9) (Fin 9) ℝ} {k : Fin 9} {v : ℝ} (h : c k k = 0) :
    setDiag c k v = c + diagonal (Pi.single k v) := by
  ext i j
  simp only [setDiag, of_apply, Matrix.add_apply, diagonal_apply, Pi.single_apply]
  by_cases hi : i = k <;> by_cases hj : j = k
  · subst hi; subst hj; simp [h]
  · subst hi; simp [hj, Ne.symm hj]
  · subst hj; simp [hi]
  · simp only [hi, hj, false_and, if_false]
    split <;> simp

theorem setDiag_setDiag (c : Matrix (Fin 9) (Fin 9) ℝ) (k : Fin 9) (v w : ℝ) :
    setDiag (setDiag c k v) k w = setDiag c k w := by
  ext i j
  simp only [setDiag, of_apply]
  split <;> rfl

theorem setDiag_comm (c : Matrix (Fin 9) (Fin 9) ℝ) (k l : Fin 9) (hkl : k ≠ l) (v w : ℝ) :
    setDiag (setDiag c k v) l w = setDiag (setDiag c l w) k v := by
  ext i j
  simp only [setDiag, of_apply]
  by_cases h1 : i = l ∧ j = l
  · have : ¬ (i = k ∧ j = k) := fun h => hkl (h.1.symm.trans h1.1)
    rw [if_pos h1, if_neg this, if_pos h1]
  · rw [if_neg h1, if_neg h1]

theorem setDiag_self (c : Matrix (Fin 9) (Fin 9) ℝ) (k : Fin 9) : setDiag c k (c k k) = c := by
  ext i j
  simp only [setDiag, of_apply]
  split
  · next h => rw [h.1, h.2]
  · rfl

/-- What the second pass writes. -/
theorem otherPart_ok (ds : List (Disp E)) (c c' : Matrix (Fin 9) (Fin 9) ℝ) (h : otherPart c ds = .ok c') :
    c' = setDiag (setDiag c 7 ((lastMean Par.isCr ds).elim (c 7 7) (· ^ 2))) 8
      ((lastMean Par.isCd ds).elim (c 8 8) (· ^ 2)) ∧
    ∀ d ∈ ds, (∃ e, d.param = .elem e) ∨ d.param = .cr ∨ d.param = .cd := by
  induction ds generalizing c with
  | nil =>
    cases h
    refine ⟨?_, by simp⟩
    simp only [lastMean, Option.elim]
    rw [setDiag_self _ 7, setDiag_self]
  | cons d l ih =>
    cases hd : d.param with
    | elem e =>
      simp only [otherPart, hd] at h
      obtain ⟨h1, h2⟩ := ih c h
      refine ⟨?_, ?_⟩
      · simpa [lastMean, hd, Par.isCr, Par.isCd] using h1
      · intro d' hd'
        rcases List.mem_cons.1 hd' with rfl | hd'
        · exact Or.inl ⟨e, hd⟩
        · exact h2 d' hd'
    | cr =>
      simp only [otherPart, hd] at h
      obtain ⟨h1, h2⟩ := ih _ h
      refine ⟨?_, ?_⟩
      · have e8 : setDiag c 7 (d.mean.getD 0 ^ 2) 8 8 = c 8 8 := by simp [setDiag]
        have e7 : setDiag c 7 (d.mean.getD 0 ^ 2) 7 7 = d.mean.getD 0 ^ 2 := by simp [setDiag]
        rw [h1, setDiag_setDiag, e8, e7]
        cases hl : lastMean Par.isCr l <;> simp [lastMean, hd, Par.isCr, Par.isCd, hl]
      · intro d' hd'
        rcases List.mem_cons.1 hd' with rfl | hd'
        · exact Or.inr (Or.inl hd)
        · exact h2 d' hd'
    | cd =>
      simp only [otherPart, hd] at h
      obtain ⟨h1, h2⟩ := ih _ h
      refine ⟨?_, ?_⟩
      · have e8 : setDiag c 8 (d.mean.getD 0 ^ 2) 8 8 = d.mean.getD 0 ^ 2 := by simp [setDiag]
        have e7 : setDiag c 8 (d.mean.getD 0 ^ 2) 7 7 = c 7 7 := by simp [setDiag]
        rw [h1, e8, e7, setDiag_comm _ 8 7 (by decide), setDiag_setDiag]
        cases hl : lastMean Par.isCd l <;> simp [lastMean, hd, Par.isCr, Par.isCd, hl]
      · intro d' hd'
        rcases List.mem_cons.1 hd' with rfl | hd'
        · exact Or.inr (Or.inr hd)
        · exact h2 d' hd'
    | bdotR | bdotT | bltof | dryMass | propMass => simp [otherPart, hd] at h
    | other n => simp [otherPart, hd] at h

/-- The gradients collected are those of the orbital dispersions, in order. -/
theorem partialsOf_ok (x : Ext E Fr) (t : Craft ℝ Fr) (os : List (Disp E))
    (ho : ∀ d ∈ os, d.param.isOrbital = true) (gs : List (Fin 6 → ℝ)) (h : partialsOf x t os = .ok gs) :
    gs.length = os.length ∧ ∀ (i : Nat) (h1 : i < os.length) (h2 : i < gs.length), ∃ e,
      os[i].param = .elem e ∧ x.elemPartial t e = some gs[i] := by
  induction os generalizing gs with
  | nil => cases h; simp
  | cons d l ih =>
    cases hd : d.param with
    | elem e =>
      simp only [partialsOf, hd] at h
      obtain ⟨g, hg, h⟩ := bind_eq_ok.1 h
      obtain ⟨gs', hgs, h⟩ := bind_eq_ok.1 h
      cases h
      obtain ⟨hl, hi⟩ := ih (fun d' hd' => ho d' (List.mem_cons_of_mem _ hd')) gs' hgs
      refine ⟨by simp [hl], ?_⟩
      intro i h1 h2
      cases i with
      | zero => exact ⟨e, hd, orErr_eq_ok.1 hg⟩
      | succ i => simpa using hi i (by simpa using h1) (by simpa using h2)
    | _ =>
      have := ho d List.mem_cons_self
      simp [hd, Par.isOrbital] at this

/-- The factor of the orbital block. -/
noncomputable def orbFactor {m : Nat} (ji : Matrix (Fin 6) (Fin m) ℝ) (s : Fin m → ℝ) :
    Matrix (Fin 9) (Fin m) ℝ := of fun i k => if h : i.val < 6 then ji ⟨i.val, h⟩ k * s k else 0

theorem writeOrbit_eq {m : Nat} (ji : Matrix (Fin 6) (Fin m) ℝ) (s : Fin m → ℝ) :
    writeOrbit (ji * diagonal (fun i => s i ^ 2) * jiᵀ) = orbFactor ji s * (orbFactor ji s)ᵀ := by
  ext i j
  simp only [writeOrbit, of_apply, mul_apply, transpose_apply, orbFactor, diagonal_apply]
  by_cases hi : i.val < 6 <;> by_cases hj : j.val < 6
  · simp only [hi, hj, and_self, dite_true]
    refine Finset.sum_congr rfl fun k _ => ?_
    simp
    ring
  · simp [hj]
  · simp [hi]
  · simp [hi]

/-- The covariance and the mean that `new` computes, and what the sum of the two parts is. -/
theorem mvnNew_ok (x : Ext E Fr) (hx : SvdOk x) (t : Craft ℝ Fr) (ds : List (Disp E)) (g : Gen E Fr)
    (h : mvnNew x t ds = .ok g) :
    g.template = t ∧ g.disps = ds ∧ (∀ i : Fin 9, 6 ≤ i.val → g.mean i = 0) ∧
    ∃ c : Matrix (Fin 9) (Fin 9) ℝ, g.sqrtSV * g.sqrtSVᵀ = c ∧
      c 7 7 = ((lastMean Par.isCr ds).getD 0) ^ 2 ∧ c 8 8 = ((lastMean Par.isCd ds).getD 0) ^ 2 ∧
      c 6 6 = 0 ∧
      (∀ d ∈ ds, (∃ e, d.param = .elem e) ∨ d.param = .cr ∨ d.param = .cd) ∧
      ∀ os, os = ds.filter (fun d => d.param.isOrbital) → 0 < os.length →
        ∃ (gs : List (Fin 6 → ℝ)) (ji : Matrix (Fin 6) (Fin gs.length) ℝ),
          partialsOf x t os = .ok gs ∧ MathU.pseudoInverse (jacobian gs) = some ji ∧
          (∀ i j : Fin 6, c ⟨i.val, by omega⟩ ⟨j.val, by omega⟩ =
            (ji * diagonal (variances os gs.length) * jiᵀ) i j) ∧
          (∀ i : Fin 6, g.mean ⟨i.val, by omega⟩ = (ji *ᵥ meansOf os gs.length) i) := by
  unfold mvnNew at h
  split at h
  · cases h
  obtain ⟨cm, ho, h⟩ := bind_eq_ok.1 h
  obtain ⟨c, hc, h⟩ := bind_eq_ok.1 h
  obtain ⟨⟨v, s⟩, hv, h⟩ := bind_eq_ok.1 h
  cases h
  have hsvd := hx c v s (orErr_eq_ok.1 hv)
  obtain ⟨hc', hpar⟩ := otherPart_ok ds cm.1 c hc
  -- the orbital part is a product and nothing else is set
  have key : (∃ (m : Nat) (W : Matrix (Fin 9) (Fin m) ℝ), cm.1 = W * Wᵀ) ∧
      (∀ i : Fin 9, 6 ≤ i.val → cm.1 i i = 0 ∧ cm.2 i = 0) ∧
      ∀ os, os = ds.filter (fun d => d.param.isOrbital) → 0 < os.length →
        ∃ (gs : List (Fin 6 → ℝ)) (ji : Matrix (Fin 6) (Fin gs.length) ℝ),
          partialsOf x t os = .ok gs ∧ MathU.pseudoInverse (jacobian gs) = some ji ∧
          (∀ i j : Fin 6, cm.1 ⟨i.val, by omega⟩ ⟨j.val, by omega⟩ =
            (ji * diagonal (variances os gs.length) * jiᵀ) i j) ∧
          (∀ i : Fin 6, cm.2 ⟨i.val, by omega⟩ = (ji *ᵥ meansOf os gs.length) i) := by
    unfold orbitPart at ho
    by_cases hl : (ds.filter fun d => d.param.isOrbital).length > 0
    · simp only [hl, if_true] at ho
      obtain ⟨gs, hgs, ho⟩ := bind_eq_ok.1 ho
      obtain ⟨ji, hji, ho⟩ := bind_eq_ok.1 ho
      cases ho
      refine ⟨⟨_, _, writeOrbit_eq ji _⟩, ?_, ?_⟩
      · intro i hi
        have hi' : ¬ i.val < 6 := by omega
        simp [writeOrbit, writeMean, hi']
      · rintro os rfl _
        refine ⟨gs, ji, hgs, orErr_eq_ok.1 hji, ?_, ?_⟩
        · intro i j
          simp [writeOrbit]
        · intro i
          simp [writeMean]
    · simp only [hl, if_false] at ho
      cases ho
      refine ⟨⟨1, 0, by simp⟩, by simp, ?_⟩
      rintro os rfl h0
      exact absurd h0 hl
  obtain ⟨⟨m, W, hW⟩, hz, hos⟩ := key
  have h77 : cm.1 7 7 = 0 := (hz 7 (by decide)).1
  have h88 : cm.1 8 8 = 0 := (hz 8 (by decide)).1
  have e7 : (lastMean Par.isCr ds).elim (cm.1 7 7) (· ^ 2) = ((lastMean Par.isCr ds).getD 0) ^ 2 := by
    rw [h77]; cases lastMean Par.isCr ds <;> simp
  have e8 : (lastMean Par.isCd ds).elim (cm.1 8 8) (· ^ 2) = ((lastMean Par.isCd ds).getD 0) ^ 2 := by
    rw [h88]; cases lastMean Par.isCd ds <;> simp
  rw [e7, e8] at hc'
  have hcov : IsCov c := by
    rw [hc', setDiag_add (by simpa [setDiag] using h88), setDiag_add h77, isCov_iff]
    refine PosSemidef.add (PosSemidef.add ?_ ?_) ?_
    · rw [hW, ← isCov_iff]; exact isCov_mul_transpose W
    · refine PosSemidef.diagonal fun i => ?_
      simp only [Pi.single_apply, Pi.zero_apply]
      split
      · exact sq_nonneg _
      · exact le_rfl
    · refine PosSemidef.diagonal fun i => ?_
      simp only [Pi.single_apply, Pi.zero_apply]
      split
      · exact sq_nonneg _
      · exact le_rfl
  refine ⟨rfl, rfl, fun i hi => (hz i hi).2, c, svd_factor c v s hcov hsvd, ?_, ?_, ?_, hpar, ?_⟩
  · rw [hc']; simp [setDiag]
  · rw [hc']; simp [setDiag]
  · rw [hc']; simpa [setDiag] using (hz 6 (by decide)).1
  · intro os h1 h2
    obtain ⟨gs, ji, a, b, e, f⟩ := hos os h1 h2
    refine ⟨gs, ji, a, b, ?_, f⟩
    intro i j
    rw [← e i j, hc']
    simp only [setDiag, of_apply]
    rw [if_neg, if_neg]
    · rintro ⟨q, -⟩
      have := congrArg Fin.val q
      simp at this
      omega
    · rintro ⟨q, -⟩
      have := congrArg Fin.val q
      simp at this
      omega

end Verif.Mc
