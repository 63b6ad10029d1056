import Verif.Target.Local
import Verif.Target.DualLinear
/-!
C223: the targeter which uses the state transition matrix, near a solution of a smooth problem.
-/
namespace Verif.Target
open Matrix
open Verif.Spacecraft (Craft)
open Verif.MathU (V3 nrm pseudoInverse)

variable {Fr E LF : Type} {nv no : Nat} {C : Cfg Fr E LF nv no}

/-- Specification: from the state `x`, for values `w` of the variables of norm at most `ρ`, the value of the
objective `i` at the epoch `t` is `F w i`, and the chain rule on its partials at the end and the state
transition matrix gives `J w i j` for the variable `j`. -/
def StmObjectives (C : Cfg Fr E LF nv no) (x : Craft ℝ Fr) (t : Int) (ρ : ℝ) (F : (Fin nv → ℝ) → Fin no → ℝ)
    (J : (Fin nv → ℝ) → Matrix (Fin no) (Fin nv) ℝ) : Prop :=
  ∀ w, nrm w ≤ ρ → ∃ xf y bp Φ, C.prop none none (x.resetStm.add6 (named C w)) t = some xf ∧ xf.stm = some Φ ∧
    C.view (orbitOf xf) = some y ∧ C.bp y = some bp ∧ ∀ i, ∃ g, C.value bp y (C.objs i).param = .ok (F w i, g) ∧
      ∀ j (k : Fin 6), (C.vars j).comp = component k →
        J w i j = ∑ r : Fin 6, g r * Φ ⟨r.val, by omega⟩ ⟨k.val, by omega⟩

theorem dualEval_smooth {x x' : Craft ℝ Fr} {t : Int} {ρ : ℝ} {F : (Fin nv → ℝ) → Fin no → ℝ}
    {J : (Fin nv → ℝ) → Matrix (Fin no) (Fin nv) ℝ} (h : StmObjectives C x t ρ F J)
    (hv : ∀ j, ∃ k, (C.vars j).comp = component k) {w : Fin nv → ℝ} (hw : nrm w ≤ ρ)
    (hx : x'.resetStm = x.resetStm.add6 (named C w)) :
    ∃ ev, C.dualEval x' t = .ok ev ∧ (∀ i, ev.2.met i = decide (|errs C F w i| ≤ (C.objs i).tol)) ∧
      ev.2.err = errs C F w ∧ ev.2.jac = J w := by
  obtain ⟨xf, y, bp, Φ, h1, h2, h3, h4, h5⟩ := h w hw
  choose g hg hk using h5
  choose k hkv using hv
  refine ⟨(xf, ⟨orbitOf xf, fun i => (C.objs i).met (F w i), fun i => (C.objs i).error (F w i), J w⟩), ?_,
    fun i => rfl, rfl, rfl⟩
  refine bind_ok.2 ⟨xf, orErr_ok.2 (by rw [hx]; exact h1), bind_ok.2 ⟨Φ, by rw [h2]; rfl, bind_ok.2 ⟨y, orErr_ok.2 h3, bind_ok.2 ⟨bp,
    orErr_ok.2 h4, bind_ok.2 ⟨fun i => (F w i, fun j => J w i j), seqFin_ok.2 fun i => ?_, rfl⟩⟩⟩⟩⟩
  refine bind_ok.2 ⟨(F w i, g i), hg i, bind_ok.2 ⟨fun j => J w i j, seqFin_ok.2 fun j => ?_, rfl⟩⟩
  refine bind_ok.2 ⟨k j, by rw [(stateIndex_component _ _).2 (hkv j)]; rfl, ?_⟩
  rw [hk i j (k j) (hkv j)]
  rfl

/-- Specification: the setting of the local convergence; `ε` bounds the error of the Jacobian. -/
structure StmNear (C : Cfg Fr E LF nv no) (F : (Fin nv → ℝ) → Fin no → ℝ)
    (A J : (Fin nv → ℝ) → Matrix (Fin no) (Fin nv) ℝ) (ρ L β θ M ε κ q η τ : ℝ) : Prop where
  factor : ∀ i, |1 - (C.objs i).mult| ≤ θ ∧ |(C.objs i).mult| ≤ M
  jacobian : ∀ w, nrm w ≤ ρ → ∀ v, nrm (J w *ᵥ v - A w *ᵥ v) ≤ ε * nrm v
  error_nonneg : 0 ≤ ε
  well_posed : β * ε < 1
  gain : κ = β / (1 - β * ε)
  first : η = nrm (errs C F 0)
  contraction : θ + M * κ * (ε + L / 2 * κ * η) ≤ q
  contracts : q < 1
  room : κ * η / (1 - q) ≤ ρ
  limits : ∀ j, κ * η ≤ (C.vars j).maxStep ∧ (C.vars j).minValue ≤ -(κ * η) ∧ κ * η ≤ (C.vars j).maxValue
  tolerance : ∀ i, τ ≤ (C.objs i).tol
  visible : 1 / 10000000000 ≤ (1 - q) * τ

/-- C223. Near a regular solution of a smooth problem, `try_achieve_dual` succeeds, even if the state transition
matrix is not exact: its error only slows the convergence, as long as the contraction `q` is less than one. -/
theorem dual_local_convergence {x0 start : Craft ℝ Fr} {t0 t : Int} (hno : no ≠ 0) (hle : no ≤ nv)
    (hv : ∀ j, ∃ k, (C.vars j).comp = component k) (hguess : ∀ j, (C.vars j).guess = 0)
    (hs : C.prop none none x0 t0 = some start) {F : (Fin nv → ℝ) → Fin no → ℝ}
    {A J : (Fin nv → ℝ) → Matrix (Fin no) (Fin nv) ℝ} {ρ L β θ M ε κ q η τ : ℝ}
    (hF : StmObjectives C start t ρ F J) (hS : Smooth F A ρ L β) (hN : StmNear C F A J ρ L β θ M ε κ q η τ)
    {N : Nat} (hrate : q ^ N * η ≤ τ) (hit : N ≤ C.iterations) :
    ∃ s, C.tryDual x0 t0 t = .ok s ∧ s.iterations ≤ N ∧ s.corrected = start.add6 (named C s.correction) ∧
      s.errors = errs C F s.correction ∧ (∀ i, |s.errors i| ≤ (C.objs i).tol) ∧
      nrm s.errors ≤ q ^ s.iterations * η ∧ nrm s.correction ≤ κ * η / (1 - q) := by
  have hno' : 0 < no := Nat.pos_of_ne_zero hno
  have hθ0 : 0 ≤ θ := (abs_nonneg _).trans (hN.factor ⟨0, hno'⟩).1
  have hM0 : 0 ≤ M := (abs_nonneg _).trans (hN.factor ⟨0, hno'⟩).2
  have hε0 : 0 ≤ ε := hN.error_nonneg
  have hκ0 : 0 ≤ κ := by rw [hN.gain]; exact div_nonneg hS.bound (by linarith [hN.well_posed])
  have hη0 : 0 ≤ η := by rw [hN.first]; exact nrm_pos_or _
  have hL : 0 ≤ L / 2 := by linarith [hS.curvature]
  have hq0 : 0 ≤ q := le_trans (by positivity) hN.contraction
  have hq1 : 0 < 1 - q := by linarith [hN.contracts]
  have hτ : 0 < τ := by
    by_contra h
    have := hN.visible
    nlinarith
  have hgeo : ∀ k, κ * η * ∑ i ∈ Finset.range k, q ^ i ≤ κ * η / (1 - q) := by
    intro k
    rw [div_eq_mul_one_div]
    refine mul_le_mul_of_nonneg_left ?_ (mul_nonneg hκ0 hη0)
    rw [le_div_iff₀ hq1, geom_sum_mul_neg]
    linarith [pow_nonneg hq0 k]
  have fin : ∀ (fuel k : Nat) (w : Fin nv → ℝ) (prev : Option ℝ) (x : Craft ℝ Fr), k ≤ N →
      x.resetStm = start.resetStm.add6 (named C w) →
      nrm w ≤ κ * η * ∑ i ∈ Finset.range k, q ^ i → nrm (errs C F w) ≤ q ^ k * η →
      (∀ i, |errs C F w i| ≤ (C.objs i).tol) →
      ∃ s, C.dualLoop start t (fuel + 1) k prev x w = .ok s ∧ s.iterations ≤ N ∧
        s.corrected = start.add6 (named C s.correction) ∧ s.errors = errs C F s.correction ∧
        (∀ i, |s.errors i| ≤ (C.objs i).tol) ∧ nrm s.errors ≤ q ^ s.iterations * η ∧
        nrm s.correction ≤ κ * η / (1 - q) := by
    intro fuel k w prev x hkN hx hw he hall
    have hwρ := (hw.trans (hgeo k)).trans hN.room
    obtain ⟨ev, hev, hmet, herr, -⟩ := dualEval_smooth hF hv hwρ hx
    refine ⟨⟨start.add6 (named C w), ev.1, w, ev.2.err, k⟩, ?_, hkN, rfl, herr, by rw [herr]; exact hall,
      by rw [herr]; exact he, hw.trans (hgeo _)⟩
    rw [Cfg.dualLoop, hev, ok_then, if_pos (fun i => by rw [hmet, decide_eq_true_eq]; exact hall i),
      dualCorr_total hv, ok_then]
  have key : ∀ (fuel k : Nat) (w : Fin nv → ℝ) (prev : Option ℝ) (x : Craft ℝ Fr), N ≤ k + fuel → k ≤ N →
      x.resetStm = start.resetStm.add6 (named C w) →
      nrm w ≤ κ * η * ∑ i ∈ Finset.range k, q ^ i → nrm (errs C F w) ≤ q ^ k * η →
      (∀ p, prev = some p → nrm (errs C F w) ≤ q * p) →
      ∃ s, C.dualLoop start t (fuel + 1) k prev x w = .ok s ∧ s.iterations ≤ N ∧
        s.corrected = start.add6 (named C s.correction) ∧ s.errors = errs C F s.correction ∧
        (∀ i, |s.errors i| ≤ (C.objs i).tol) ∧ nrm s.errors ≤ q ^ s.iterations * η ∧
        nrm s.correction ≤ κ * η / (1 - q) := by
    intro fuel
    induction fuel with
    | zero =>
      intro k w prev x hk hkN hx hw he hprev
      have hkk : k = N := by omega
      subst hkk
      exact fin 0 k w prev x le_rfl hx hw he fun i => (abs_le_nrm _ i).trans (he.trans (hrate.trans (hN.tolerance i)))
    | succ fuel ih =>
      intro k w prev x hk hkN hx hw he hprev
      by_cases hall : ∀ i, |errs C F w i| ≤ (C.objs i).tol
      · exact fin _ k w prev x hkN hx hw he hall
      have hlt : k < N := by
        rcases Nat.lt_or_eq_of_le hkN with h | h
        · exact h
        · subst h
          exact absurd (fun i => (abs_le_nrm _ i).trans (he.trans (hrate.trans (hN.tolerance i)))) hall
      have hwρ := (hw.trans (hgeo k)).trans hN.room
      obtain ⟨ev, hev, hmet, herr, hjac⟩ := dualEval_smooth hF hv hwρ hx
      have hτe : τ < nrm (errs C F w) := by
        push Not at hall
        obtain ⟨i, hi⟩ := hall
        exact (hN.tolerance i).trans_lt (hi.trans_le (abs_le_nrm _ i))
      have hstall : stalled prev ev.2.err = false := by
        rcases prev with _ | p
        · rfl
        · have h1 := hprev p rfl
          have hp : 0 < p := by
            by_contra hc
            push Not at hc
            nlinarith
          have h2 : nrm (errs C F w) ≤ p := h1.trans (by nlinarith)
          have h3 : (1 - q) * τ < p - nrm (errs C F w) := by
            have : (1 - q) * τ < (1 - q) * p := mul_lt_mul_of_pos_left (hτe.trans_le h2) hq1
            linarith
          simp only [stalled, Option.elim_some, herr, decide_eq_false_iff_not, not_lt]
          rw [abs_sub_comm, abs_of_pos (by linarith [hN.visible])]
          linarith [hN.visible]
      obtain ⟨B, hAB, hB⟩ := hS.regular w hwρ
      have hnear := hN.jacobian w hwρ
      obtain ⟨P, hP, hPe⟩ := pinv_bound hle hAB hS.bound hB hε0 hnear hN.well_posed
      rw [← hN.gain] at hPe
      obtain ⟨hδ, hδb⟩ := hPe (errs C F w)
      have heη : nrm (errs C F w) ≤ η := he.trans (mul_le_of_le_one_left hη0 (pow_le_one₀ hq0 hN.contracts.le))
      set δ := P *ᵥ errs C F w with hδdef
      have hδη : nrm δ ≤ κ * η := hδb.trans (mul_le_mul_of_nonneg_left heη hκ0)
      have hfree : (fun i => (C.vars i).dualStep (δ i)) = δ := by
        funext j
        have hj := (abs_le_nrm δ j).trans hδη
        have hj' := abs_le.1 hj
        obtain ⟨l1, l2, l3⟩ := hN.limits j
        exact dualStep_free _ (hj.trans l1) (by linarith) (by linarith)
      have hw' : nrm (w + δ) ≤ κ * η * ∑ i ∈ Finset.range (k + 1), q ^ i := by
        refine (nrm_add_le _ _).trans ?_
        rw [Finset.sum_range_succ, mul_add]
        refine add_le_add hw (hδb.trans ?_)
        calc κ * nrm (errs C F w) ≤ κ * (q ^ k * η) := mul_le_mul_of_nonneg_left he hκ0
          _ = κ * η * q ^ k := by ring
      have hstep : nrm (errs C F (w + δ)) ≤ q * nrm (errs C F w) := by
        refine (errs_step hS hnear hε0 (fun i => (hN.factor i).1) (fun i => (hN.factor i).2) hθ0 hM0 hδ hδb hκ0 hwρ
          ((hw'.trans (hgeo _)).trans hN.room)).trans (mul_le_mul_of_nonneg_right ?_ (nrm_pos_or _))
        refine le_trans ?_ hN.contraction
        have := mul_le_mul_of_nonneg_left heη (mul_nonneg hL hκ0)
        have := mul_le_mul_of_nonneg_left this (mul_nonneg hM0 hκ0)
        linarith
      have hxn : (x.resetStm.add6 (named C δ)).resetStm = start.resetStm.add6 (named C (w + δ)) := by
        have h1 : ∀ (u : Craft ℝ Fr) (c : Fin 6 → ℝ), (u.resetStm.add6 c).resetStm = u.resetStm.add6 c := by
          intros; rfl
        rw [h1, hx, add6_add6, ← named_add]
        rfl
      obtain ⟨s, h1, h2⟩ := ih (k + 1) (w + δ) (some (nrm (errs C F w))) (x.resetStm.add6 (named C δ)) (by omega)
        (by omega) hxn hw' (hstep.trans (by rw [pow_succ]; nlinarith)) (by rintro p hp; cases hp; exact hstep)
      refine ⟨s, ?_, h2⟩
      rw [← h1, Cfg.dualLoop, hev, ok_then, if_neg (fun h => hall fun i => by
        have := h i; rwa [hmet, decide_eq_true_eq] at this), if_neg (by rw [hstall]; simp), hjac, orErr_ok.2 hP, ok_then,
        dualCorr_total hv, ok_then, herr, ← hδdef, hfree]
      congr 1
      funext i
      exact congrArg (w i + ·) (congrFun hfree i)
  have h0 : named C (fun i => (C.vars i).guess) = 0 := by
    funext k
    simp [named, hguess]
  have hz : named C (0 : Fin nv → ℝ) = 0 := by
    funext k
    simp [named]
  have hstart : C.tryDual x0 t0 t = C.dualLoop start t (C.iterations + 1) 0 none start 0 := by
    rw [Cfg.tryDual, if_neg hno, orErr_ok.2 hs, ok_then, dualCorr_total hv, ok_then, h0, add6_zero]
    congr 1
    funext i
    exact hguess i
  rw [hstart]
  exact key C.iterations 0 0 none start (by omega) (Nat.zero_le _) (by rw [hz, add6_zero]) (by simp [nrm])
    (by rw [pow_zero, one_mul, hN.first]) (by rintro p hp; cases hp)

end Verif.Target
