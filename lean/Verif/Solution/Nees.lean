import Verif.Solution.Stats
/-!
C211: the normalized estimation error of a solution.
-/
namespace Verif.Solution
open Verif.Kalman Matrix

variable {s : Nat}

/-- An estimate: epoch, state vector and covariance. -/
structure NEst (s : Nat) where
  epoch : Int
  x : Fin s → ℝ
  P : Matrix (Fin s) (Fin s) ℝ

/-- The covariance made symmetric. stats.rs:404. -/
noncomputable def NEst.sym (e : NEst s) : Matrix (Fin s) (Fin s) ℝ := (1 / 2 : ℝ) • (e.P + e.Pᵀ)

/-- The number of leading positive variances, counted from index `i` on; `n` remain. stats.rs:410-419. -/
noncomputable def leading (C : Matrix (Fin s) (Fin s) ℝ) : Nat → Nat → Nat
  | 0, _ => 0
  | n + 1, i => if h : i < s then (if C ⟨i, h⟩ ⟨i, h⟩ > 0 then 1 + leading C n (i + 1) else 0) else 0

/-- The size of the estimated block: at least six. stats.rs:407-424. -/
noncomputable def activeSize (C : Matrix (Fin s) (Fin s) ℝ) : Nat := if leading C s 0 < 6 then 6 else leading C s 0

/-- One term, on the leading block of size `d`; a block larger than the matrix is out of bounds. The decomposition in eigenvalues is a parameter.
stats.rs:430-464. -/
noncomputable def blockTerm (macheps : ℝ) (eig : (d : Nat) → Matrix (Fin d) (Fin d) ℝ → Matrix (Fin d) (Fin d) ℝ × (Fin d → ℝ))
    (C : Matrix (Fin s) (Fin s) ℝ) (err : Fin s → ℝ) (d : Nat) : Res ℝ :=
  if h : 0 < d ∧ d ≤ s then
    haveI : NeZero d := ⟨by omega⟩
    let r := eig d (C.submatrix (Fin.castLE h.2) (Fin.castLE h.2))
    .ok (neesTerm macheps r.1 r.2 fun i => err (Fin.castLE h.2 i))
  else .panic

/-- The loop over the estimates: the size is set by the first of them. stats.rs:392-465. -/
noncomputable def neesLoop (macheps : ℝ) (eig : (d : Nat) → Matrix (Fin d) (Fin d) ℝ → Matrix (Fin d) (Fin d) ℝ × (Fin d → ℝ))
    (truth : Int → Option (Fin s → ℝ)) : List (NEst s) → Option Nat → ℝ → Res (ℝ × Option Nat)
  | [], size, sum => .ok (sum, size)
  | e :: es, size, sum =>
    match truth e.epoch with
    | none => .err
    | some t =>
      (blockTerm macheps eig e.sym (e.x - t) (size.getD (activeSize e.sym))).bind fun v =>
        neesLoop macheps eig truth es (some (size.getD (activeSize e.sym))) (sum + v)

/-- `nees_consistency`, with the quantile `z` of the level. stats.rs:360-494. -/
noncomputable def neesConsistency (macheps : ℝ) (eig : (d : Nat) → Matrix (Fin d) (Fin d) ℝ → Matrix (Fin d) (Fin d) ℝ × (Fin d → ℝ))
    (truth : Int → Option (Fin s → ℝ)) (z : ℝ) (ests : List (NEst s)) : Res Consistency :=
  if ests.length ≤ 1 then .err
  else (neesLoop macheps eig truth (ests.drop 1) none 0).bind fun r =>
    match r.2 with
    | none => .panic
    | some d => .ok (wilson r.1 (((ests.length - 1) * d : Nat) : ℝ) z)

theorem leading_spec (C : Matrix (Fin s) (Fin s) ℝ) : ∀ (n i : Nat), i + n = s →
    i + leading C n i ≤ s ∧ (∀ (j : Nat) (h : j < s), i ≤ j → j < i + leading C n i → C ⟨j, h⟩ ⟨j, h⟩ > 0) ∧
      ∀ h : i + leading C n i < s, C ⟨_, h⟩ ⟨_, h⟩ ≤ 0
  | 0, i, hi => by
    simp only [leading]
    exact ⟨by omega, fun j h h1 h2 => by omega, fun h => by omega⟩
  | n + 1, i, hi => by
    have his : i < s := by omega
    rw [leading, dif_pos his]
    obtain ⟨h1, h2, h3⟩ := leading_spec C n (i + 1) (by omega)
    by_cases hp : C ⟨i, his⟩ ⟨i, his⟩ > 0
    · rw [if_pos hp, ← Nat.add_assoc]
      refine ⟨h1, fun j h hj1 hj2 => ?_, h3⟩
      by_cases hji : j = i
      · subst hji; exact hp
      · exact h2 j h (by omega) hj2
    · rw [if_neg hp]
      exact ⟨by omega, fun j h _ _ => by omega, fun h => not_lt.1 hp⟩

/-- What `symmetric_eigen` gives. -/
def EigSpec (eig : (d : Nat) → Matrix (Fin d) (Fin d) ℝ → Matrix (Fin d) (Fin d) ℝ × (Fin d → ℝ)) : Prop :=
  ∀ d (A : Matrix (Fin d) (Fin d) ℝ), Aᵀ = A → EigenOf A (eig d A).1 (eig d A).2

theorem sym_sym (e : NEst s) : e.symᵀ = e.sym := by
  unfold NEst.sym
  rw [Matrix.transpose_smul, Matrix.transpose_add, Matrix.transpose_transpose, add_comm]

/-- The leading block of size `d` of the covariance. -/
def NEst.block (e : NEst s) (d : Nat) (h : d ≤ s) : Matrix (Fin d) (Fin d) ℝ := e.P.submatrix (Fin.castLE h) (Fin.castLE h)

/-- The block is well conditioned: its eigenvalues are positive and above the noise floor, whichever the decomposition. -/
def WellCond {d : Nat} (macheps : ℝ) (A : Matrix (Fin d) (Fin d) ℝ) : Prop :=
  ∀ V lam, EigenOf A V lam → ∀ i, 0 < lam i ∧ ∀ j, lam i > lam j * d * macheps

theorem neesLoop_ok (macheps : ℝ) (hm : 0 ≤ macheps) (eig) (he : EigSpec eig) (truth : Int → Option (Fin s → ℝ)) (d : Nat) (hd0 : 0 < d) (hd : d ≤ s) :
    ∀ (es : List (NEst s)) (size : Option Nat) (sum : ℝ) (r : ℝ × Option Nat),
      (size = some d ∨ (size = none ∧ ∃ e rest, es = e :: rest ∧ activeSize e.sym = d)) →
      (∀ e ∈ es, e.Pᵀ = e.P ∧ WellCond macheps (e.block d hd)) →
      neesLoop macheps eig truth es size sum = .ok r →
      (∃ ts : List (Fin s → ℝ), es.map (fun e => truth e.epoch) = ts.map some ∧
        r.1 = sum + (List.zipWith (fun (e : NEst s) t => (fun i => (e.x - t) (Fin.castLE hd i)) ⬝ᵥ
          ((e.block d hd)⁻¹ *ᵥ fun i => (e.x - t) (Fin.castLE hd i))) es ts).sum) ∧ r.2 = some d
  | [], size, sum, r, hs, _, h => by
    rw [neesLoop, Res.ok.injEq] at h
    subst h
    rcases hs with h | ⟨_, e, rest, h, _⟩
    · exact ⟨⟨[], rfl, by simp⟩, h⟩
    · cases h
  | e :: es, size, sum, r, hs, hw, h => by
    rw [neesLoop] at h
    cases ht : truth e.epoch with
    | none => rw [ht] at h; cases h
    | some t =>
      rw [ht] at h
      simp only at h
      have hsz : size.getD (activeSize e.sym) = d := by
        rcases hs with h | ⟨h, e', rest, h2, h3⟩
        · rw [h]; rfl
        · rw [h]
          cases h2
          exact h3
      rw [hsz] at h
      obtain ⟨v, hv, h⟩ := Res.bind_eq_ok.1 h
      obtain ⟨⟨ts, ht1, ht2⟩, hr⟩ := neesLoop_ok macheps hm eig he truth d hd0 hd es (some d) (sum + v) r (Or.inl rfl)
        (fun e' he' => hw e' (List.mem_cons_of_mem _ he')) h
      refine ⟨⟨t :: ts, by simp [ht, ht1], ?_⟩, hr⟩
      rw [ht2, List.zipWith_cons_cons, List.sum_cons, ← add_assoc]
      congr 2
      rw [blockTerm, dif_pos ⟨hd0, hd⟩, Res.ok.injEq] at hv
      obtain ⟨hP, hwc⟩ := hw e (by simp)
      have hb : e.sym.submatrix (Fin.castLE hd) (Fin.castLE hd) = e.block d hd := by
        unfold NEst.sym NEst.block
        rw [hP]
        congr 1
        ext i j
        simp
        ring
      have hE := he d (e.block d hd) (by rw [NEst.block, Matrix.transpose_submatrix, hP])
      rw [hb] at hv
      rw [← hv]
      haveI : NeZero d := ⟨by omega⟩
      refine (nees_term macheps (e.block d hd) _ _ _ hE hm (fun i => (hwc _ _ hE i).1) fun i => ?_).2
      obtain ⟨j, _, hj⟩ := Finset.exists_mem_eq_sup' (s := (Finset.univ : Finset (Fin d))) ⟨0, Finset.mem_univ _⟩ (eig d (e.block d hd)).2
      rw [hj]
      exact (hwc _ _ hE i).2 j

/-- The size of the estimated block: the leading variances are positive up to it, at least six. -/
def ActiveSpec (C : Matrix (Fin s) (Fin s) ℝ) (d : Nat) : Prop :=
  ∃ d0 ≤ s, (∀ (j : Nat) (h : j < s), j < d0 → 0 < C ⟨j, h⟩ ⟨j, h⟩) ∧ (∀ h : d0 < s, C ⟨d0, h⟩ ⟨d0, h⟩ ≤ 0) ∧ d = max 6 d0

theorem active_spec (C : Matrix (Fin s) (Fin s) ℝ) : ActiveSpec C (activeSize C) := by
  obtain ⟨h1, h2, h3⟩ := leading_spec C s 0 (by omega)
  simp only [Nat.zero_add] at h1 h2 h3
  refine ⟨leading C s 0, h1, fun j h hj => h2 j h (Nat.zero_le _) hj, h3, ?_⟩
  unfold activeSize
  split <;> omega

theorem active_unique (C : Matrix (Fin s) (Fin s) ℝ) (d d' : Nat) (h : ActiveSpec C d) (h' : ActiveSpec C d') : d = d' := by
  obtain ⟨a, a1, a2, a3, rfl⟩ := h
  obtain ⟨b, b1, b2, b3, rfl⟩ := h'
  rcases lt_trichotomy a b with hab | hab | hab
  · exact absurd (a3 (by omega)) (not_le.2 (b2 a (by omega) hab))
  · rw [hab]
  · exact absurd (b3 (by omega)) (not_le.2 (a2 b (by omega) hab))

theorem active_bounds (C : Matrix (Fin s) (Fin s) ℝ) (hs : 6 ≤ s) : 6 ≤ activeSize C ∧ activeSize C ≤ s := by
  obtain ⟨d0, h1, -, -, h⟩ := active_spec C
  omega

/-- The loop fails exactly if the truth misses one of the epochs; it never goes out of bounds. -/
theorem neesLoop_fails (macheps : ℝ) (eig) (truth : Int → Option (Fin s → ℝ)) (hs : 6 ≤ s) :
    ∀ (es : List (NEst s)) (size : Option Nat) (sum : ℝ), (∀ d, size = some d → 6 ≤ d ∧ d ≤ s) →
      (neesLoop macheps eig truth es size sum ≠ .panic) ∧
      (neesLoop macheps eig truth es size sum = .err ↔ ∃ e ∈ es, truth e.epoch = none)
  | [], size, sum, _ => by simp [neesLoop]
  | e :: es, size, sum, hsz => by
    rw [neesLoop]
    cases ht : truth e.epoch with
    | none => simp [ht]
    | some t =>
      simp only
      have hb : 6 ≤ size.getD (activeSize e.sym) ∧ size.getD (activeSize e.sym) ≤ s := by
        cases size with
        | none => exact active_bounds _ hs
        | some d => exact hsz d rfl
      obtain ⟨v, hv⟩ : ∃ v, blockTerm macheps eig e.sym (e.x - t) (size.getD (activeSize e.sym)) = .ok v := by
        rw [blockTerm, dif_pos ⟨by omega, hb.2⟩]
        exact ⟨_, rfl⟩
      rw [hv, Res.bind_ok]
      obtain ⟨h1, h2⟩ := neesLoop_fails macheps eig truth hs es (some (size.getD (activeSize e.sym))) (sum + v)
        (fun d hd => by cases hd; exact hb)
      refine ⟨h1, h2.trans ?_⟩
      simp [ht]

theorem neesLoop_size (macheps : ℝ) (eig) (truth : Int → Option (Fin s → ℝ)) :
    ∀ (es : List (NEst s)) (d : Nat) (sum : ℝ) (r : ℝ × Option Nat), neesLoop macheps eig truth es (some d) sum = .ok r → r.2 = some d
  | [], d, sum, r, h => by rw [neesLoop, Res.ok.injEq] at h; rw [← h]
  | e :: es, d, sum, r, h => by
    rw [neesLoop] at h
    cases ht : truth e.epoch with
    | none => rw [ht] at h; cases h
    | some t =>
      rw [ht] at h
      obtain ⟨v, -, h⟩ := Res.bind_eq_ok.1 h
      exact neesLoop_size macheps eig truth es d _ r h

/-- **C211 (failures).** For states of at least six components, the test never panics, and it fails exactly with fewer than two estimates or if the truth
does not cover an estimate other than the first. -/
theorem nees_fails_iff (macheps : ℝ) (eig) (truth : Int → Option (Fin s → ℝ)) (z : ℝ) (hs : 6 ≤ s) (ests : List (NEst s)) :
    neesConsistency macheps eig truth z ests ≠ .panic ∧
    (neesConsistency macheps eig truth z ests = .err ↔ ests.length ≤ 1 ∨ ∃ e ∈ ests.drop 1, truth e.epoch = none) := by
  unfold neesConsistency
  split
  · rename_i h; simp [h]
  · rename_i hl
    obtain ⟨h1, h2⟩ := neesLoop_fails macheps eig truth hs (ests.drop 1) none 0 (by simp)
    cases hr : neesLoop macheps eig truth (ests.drop 1) none 0 with
    | panic => exact absurd hr h1
    | err =>
      refine ⟨by simp [Res.bind], ?_⟩
      simp only [Res.bind, true_iff]
      exact Or.inr (h2.1 hr)
    | ok r =>
      rw [Res.bind_ok]
      have hsome : ∃ d, r.2 = some d := by
        match ests, hl with
        | [], hl => simp at hl
        | [a], hl => simp at hl
        | a :: e :: es, _ =>
          simp only [List.drop_succ_cons, List.drop_zero] at hr
          rw [neesLoop] at hr
          cases ht : truth e.epoch with
          | none => rw [ht] at hr; cases hr
          | some t =>
            rw [ht] at hr
            obtain ⟨v, -, h⟩ := Res.bind_eq_ok.1 hr
            exact ⟨_, neesLoop_size macheps eig truth es _ _ r h⟩
      obtain ⟨d, hd⟩ := hsome
      rw [hd]
      refine ⟨by simp, ?_⟩
      simp only [reduceCtorEq, false_iff, not_or]
      refine ⟨hl, fun hm => ?_⟩
      rw [h2.2 hm] at hr
      cases hr

/-- **C211 (partial).** With at least two estimates, whose covariances are symmetric and well conditioned on the estimated block: the sum is that of the
squared errors weighted by the inverses of the covariances of all estimates but the first, restricted to the block which the second estimate
determines, and the degrees of freedom are the number of these estimates times the size of the block. Missing: ill conditioned covariances, see
`nees_zero_covariance`. -/
theorem nees_consistency_partial (macheps : ℝ) (hm : 0 ≤ macheps) (eig) (he : EigSpec eig) (truth : Int → Option (Fin s → ℝ)) (z : ℝ) (hs : 6 ≤ s)
    (e0 e1 : NEst s) (es : List (NEst s)) (d : Nat) (hd : d ≤ s) (ha : ActiveSpec e1.P d)
    (hw : ∀ e ∈ e1 :: es, e.Pᵀ = e.P ∧ WellCond macheps (e.block d hd)) (c : Consistency)
    (h : neesConsistency macheps eig truth z (e0 :: e1 :: es) = .ok c) :
    (∃ ts : List (Fin s → ℝ), (e1 :: es).map (fun e => truth e.epoch) = ts.map some ∧
      c.sum = (List.zipWith (fun (e : NEst s) t => (fun i => (e.x - t) (Fin.castLE hd i)) ⬝ᵥ
        ((e.block d hd)⁻¹ *ᵥ fun i => (e.x - t) (Fin.castLE hd i))) (e1 :: es) ts).sum) ∧
    c.k = ((es.length + 1 : Nat) : ℝ) * d ∧ (0 < z → c.lower < c.upper) := by
  have hsym : e1.sym = e1.P := by
    unfold NEst.sym
    rw [(hw e1 (by simp)).1]
    ext i j
    simp
    ring
  have hact : activeSize e1.sym = d := by rw [hsym]; exact active_unique _ _ _ (active_spec _) ha
  have hd0 : 0 < d := by
    have := (active_bounds e1.sym hs).1
    omega
  unfold neesConsistency at h
  rw [if_neg (by simp)] at h
  obtain ⟨r, hr, h⟩ := Res.bind_eq_ok.1 h
  obtain ⟨⟨ts, t1, t2⟩, t3⟩ := neesLoop_ok macheps hm eig he truth d hd0 hd (e1 :: es) none 0 r (Or.inr ⟨rfl, e1, es, rfl, hact⟩) hw hr
  rw [t3] at h
  simp only [Res.ok.injEq] at h
  subst h
  have hk : (((e0 :: e1 :: es).length - 1) * d : Nat) = (es.length + 1) * d := rfl
  refine ⟨⟨ts, t1, ?_⟩, ?_, ?_⟩
  · show r.1 = _
    rw [t2, zero_add]
  · show (((((e0 :: e1 :: es).length - 1) * d : Nat)) : ℝ) = _
    rw [hk]
    push_cast
    ring
  · intro hz
    refine wilson_ordered _ _ _ ?_ hz
    rw [hk]
    exact_mod_cast Nat.mul_pos (by omega) hd0

/-- **C211, refuted.** An estimate which claims to be exact (covariance zero) and is wrong, whatever its error, is found to be under confident: the directions
without variance are dropped from the sum, but not from the degrees of freedom. -/
theorem nees_zero_covariance (macheps : ℝ) (hm : 0 ≤ macheps) (eig) (he : EigSpec eig) (z : ℝ) (hz : 0 < z) (hz4 : z ≤ 4) (x t : Fin 9 → ℝ) :
    ∃ c, neesConsistency macheps eig (fun _ => some t) z [⟨0, x, 0⟩, ⟨1, x, 0⟩] = .ok c ∧ c.sum = 0 ∧ c.k = 6 ∧ c.isUnder ∧
      ¬ c.isOver := by
  have hsym : (⟨1, x, 0⟩ : NEst 9).sym = 0 := by unfold NEst.sym; simp
  have hact : activeSize (0 : Matrix (Fin 9) (Fin 9) ℝ) = 6 :=
    active_unique _ _ _ (active_spec _) ⟨0, by omega, fun j _ h => by omega, fun _ => le_refl _, rfl⟩
  have hterm : blockTerm macheps eig (0 : Matrix (Fin 9) (Fin 9) ℝ) (x - t) 6 = .ok 0 := by
    rw [blockTerm, dif_pos (by omega)]
    congr 1
    have hE := he 6 ((0 : Matrix (Fin 9) (Fin 9) ℝ).submatrix (Fin.castLE (by omega)) (Fin.castLE (by omega))) (by simp)
    generalize eig 6 ((0 : Matrix (Fin 9) (Fin 9) ℝ).submatrix (Fin.castLE (by omega)) (Fin.castLE (by omega))) = r at hE ⊢
    obtain ⟨hV, hP⟩ := hE
    have hV' : r.1 * r.1ᵀ = 1 := mul_eq_one_comm.1 hV
    have hl : r.2 = 0 := by
      have : Matrix.diagonal r.2 = 0 := by
        calc Matrix.diagonal r.2 = (r.1ᵀ * r.1) * Matrix.diagonal r.2 * (r.1ᵀ * r.1) := by rw [hV, Matrix.one_mul, Matrix.mul_one]
          _ = r.1ᵀ * (r.1 * Matrix.diagonal r.2 * r.1ᵀ) * r.1 := by simp only [Matrix.mul_assoc]
          _ = 0 := by rw [← hP]; simp
      funext i
      have h2 := congrFun (congrFun this i) i
      simpa using h2
    have hs : invSpectrum (floorOf macheps r.2) r.2 = 0 := by
      funext i
      rw [invSpectrum, if_neg]
      · rfl
      · rw [hl, floorOf]
        have h0 : Finset.univ.sup' ⟨0, Finset.mem_univ _⟩ (0 : Fin 6 → ℝ) = 0 := Finset.sup'_const ⟨0, Finset.mem_univ _⟩ (0 : ℝ)
        rw [h0]
        simp
    show Res.ok (neesTerm macheps r.1 r.2 _) = _
    unfold neesTerm
    rw [hs]
    simp
  refine ⟨wilson 0 (((2 - 1) * 6 : Nat) : ℝ) z, ?_, rfl, by simp [wilson], ?_, ?_⟩
  · unfold neesConsistency
    rw [if_neg (by simp)]
    simp only [List.drop_succ_cons, List.drop_zero, neesLoop, Option.getD_none, hsym, hact, hterm, Res.bind_ok]
    simp
  all_goals
    have hsq : Real.sqrt (2 / (9 * 6)) < 1 / 5 := by
      rw [Real.sqrt_lt' (by norm_num)]
      norm_num
    have hs0 : 0 ≤ Real.sqrt (2 / (9 * 6)) := Real.sqrt_nonneg _
    have hpos : 0 < 1 - 2 / (9 * 6) - z * Real.sqrt (2 / (9 * 6)) := by nlinarith
  · unfold Consistency.isUnder wilson
    simp only
    norm_num at hpos ⊢
    positivity
  · unfold Consistency.isOver wilson
    simp only
    norm_num at hpos hs0 ⊢
    have : 0 ≤ z * (√27)⁻¹ := by positivity
    have : 0 ≤ 26 / 27 + z * (√27)⁻¹ := by linarith
    positivity

/-- A decomposition exists for every symmetric matrix, so the hypothesis on `eig` is met by a function. -/
theorem eigSpec_exists : ∃ eig, EigSpec eig := by
  classical
  have : ∀ d (A : Matrix (Fin d) (Fin d) ℝ), ∃ r : Matrix (Fin d) (Fin d) ℝ × (Fin d → ℝ), Aᵀ = A → EigenOf A r.1 r.2 := by
    intro d A
    by_cases hA : Aᵀ = A
    · have hH : A.IsHermitian := by rw [Matrix.IsHermitian, Matrix.conjTranspose_eq_transpose_of_trivial, hA]
      refine ⟨((hH.eigenvectorUnitary : Matrix (Fin d) (Fin d) ℝ), hH.eigenvalues), fun _ => ⟨?_, ?_⟩⟩
      · have := Unitary.coe_star_mul_self hH.eigenvectorUnitary
        rwa [Matrix.star_eq_conjTranspose, Matrix.conjTranspose_eq_transpose_of_trivial] at this
      · have := hH.spectral_theorem
        rw [Unitary.conjStarAlgAut_apply, Matrix.star_eq_conjTranspose, Matrix.conjTranspose_eq_transpose_of_trivial] at this
        exact this
    · exact ⟨(0, 0), fun h => absurd h hA⟩
  choose eig h using this
  exact ⟨eig, h⟩

/-- The hypotheses of `nees_consistency_partial` are met: two estimates with the covariance one, and an error of one kilometre on the first axis;
the sum is one with nine degrees of freedom. -/
example (eig) (he : EigSpec eig) : ∃ c, neesConsistency (1 / 2 ^ 52) eig (fun _ => some 0) 2
    [(⟨0, 0, 1⟩ : NEst 9), ⟨1, Pi.single 0 1, 1⟩] = .ok c ∧ c.sum = 1 ∧ c.k = 9 := by
  have hblock : (⟨1, Pi.single 0 1, 1⟩ : NEst 9).block 9 le_rfl = 1 := by
    unfold NEst.block
    ext i j
    rfl
  have hwc : WellCond (1 / 2 ^ 52) (1 : Matrix (Fin 9) (Fin 9) ℝ) := by
    rintro V lam ⟨hV, hP⟩
    have hl : Matrix.diagonal lam = 1 := by
      calc Matrix.diagonal lam = (Vᵀ * V) * Matrix.diagonal lam * (Vᵀ * V) := by rw [hV, Matrix.one_mul, Matrix.mul_one]
        _ = Vᵀ * (V * Matrix.diagonal lam * Vᵀ) * V := by simp only [Matrix.mul_assoc]
        _ = 1 := by rw [← hP, Matrix.mul_one, hV]
    have hi : ∀ i, lam i = 1 := by
      intro i
      have := congrFun (congrFun hl i) i
      simpa using this
    intro i
    refine ⟨by rw [hi]; norm_num, fun j => ?_⟩
    rw [hi, hi]
    norm_num
  cases h : neesConsistency (1 / 2 ^ 52) eig (fun _ => some 0) 2 [(⟨0, 0, 1⟩ : NEst 9), ⟨1, Pi.single 0 1, 1⟩] with
  | panic => exact absurd h (nees_fails_iff _ eig _ 2 (by norm_num) _).1
  | err =>
    have := (nees_fails_iff _ eig _ 2 (by norm_num) _).2.1 h
    simp at this
  | ok c =>
    obtain ⟨⟨ts, t1, t2⟩, t3, -⟩ := nees_consistency_partial (1 / 2 ^ 52) (by positivity) eig he (fun _ => some 0) 2 (by norm_num) ⟨0, 0, 1⟩
      ⟨1, Pi.single 0 1, 1⟩ [] 9 le_rfl ⟨9, le_rfl, fun j h _ => by simp, fun h => by omega, rfl⟩
      (by intro e he; simp only [List.mem_singleton] at he; subst he; exact ⟨by simp, by rw [hblock]; exact hwc⟩) c h
    refine ⟨c, rfl, ?_, by rw [t3]; norm_num⟩
    have hts : ts = [0] := by
      cases ts with
      | nil => simp at t1
      | cons a ts =>
        simp only [List.map_cons, List.map_nil, List.cons.injEq, Option.some.injEq] at t1
        rw [← t1.1]
        cases ts with
        | nil => rfl
        | cons b ts => simp at t1
    rw [t2, hts, List.zipWith_cons_cons, hblock]
    simp [dotProduct, Fin.sum_univ_succ, Pi.single_apply]

end Verif.Solution
