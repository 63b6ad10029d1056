import Verif.Gravity.Model

/-!
The accesses of the gravity field stay in bounds and use finite numbers only (C68), and the powers are those of a
complex number (C69).
-/
namespace Verif.Gravity
open Verif.MathU Matrix
variable {K : Type} {Fr : Type}

set_option linter.unusedSectionVars false

/-! ### Loops -/

theorem loop_empty {σ : Type} {lo hi : ℕ} (f : ℕ → σ → Option σ) (s : σ) (h : hi ≤ lo) : loop lo hi f s = some s := by
  unfold loop
  rw [show hi - lo = 0 by omega]
  rfl

theorem loop_step {σ : Type} {lo hi : ℕ} (f : ℕ → σ → Option σ) (s : σ) (h : lo < hi) :
    loop lo hi f s = (f lo s).bind (loop (lo + 1) hi f) := by
  unfold loop
  obtain ⟨k, hk⟩ : ∃ k, hi - lo = k + 1 := ⟨hi - lo - 1, by omega⟩
  rw [hk, show hi - (lo + 1) = k by omega, List.range'_succ, List.foldlM_cons]
  rfl

/-- A loop whose steps keep an invariant ends, with the invariant. -/
theorem loop_inv {σ : Type} (P : ℕ → σ → Prop) {lo hi : ℕ} {f : ℕ → σ → Option σ} {s : σ} (hle : lo ≤ hi) (h0 : P lo s)
    (hs : ∀ i s, lo ≤ i → i < hi → P i s → ∃ s', f i s = some s' ∧ P (i + 1) s') :
    ∃ s', loop lo hi f s = some s' ∧ P hi s' := by
  obtain ⟨k, rfl⟩ : ∃ k, hi = lo + k := ⟨hi - lo, by omega⟩
  clear hle
  induction k generalizing lo s with
  | zero => exact ⟨s, loop_empty f s (by omega), h0⟩
  | succ k ih =>
    obtain ⟨s1, h1, h2⟩ := hs lo s le_rfl (by omega) h0
    rw [loop_step f s (by omega), h1]
    have := ih (lo := lo + 1) (s := s1) h2 (fun i s hi1 hi2 => hs i s (by omega) (by omega))
    rw [show lo + (k + 1) = lo + 1 + k by omega]
    exact this

/-! ### Matrices -/

theorem get_eq {M : Mat K} {i j : ℕ} (hi : i < M.size) (hj : j < M.size) : M.get i j = M.val i j := by
  simp [Mat.get, hi, hj]

theorem set_eq {M : Mat K} {i j : ℕ} (x : K) (hi : i < M.size) (hj : j < M.size) :
    M.set i j x = some ⟨M.size, fun a b => if a = i ∧ b = j then some x else M.val a b⟩ := by
  simp [Mat.set, hi, hj]

/-! ### Closed forms -/

/-- The diagonal. -/
noncomputable def dg : ℕ → ℝ
  | 0 => 1
  | n + 1 => Real.sqrt (1 + 1 / (2 * ((n + 1 : ℕ) : ℝ))) * dg n

/-- Finite entries of `b_nm`. -/
noncomputable def bb (n m : ℕ) : ℝ := Real.sqrt ((2 * n + 1) * (2 * n - 1) / ((n + m) * (n - m)))

/-- Finite entries of `c_nm`. -/
noncomputable def cc (n m : ℕ) : ℝ :=
  Real.sqrt ((2 * n + 1) * (n + m - 1) * (n - m - 1) / ((n - m) * (n + m) * (2 * n - 3)))

/-- Finite entries of `vr01`. -/
noncomputable def v01 (n m : ℕ) : ℝ := half m (Real.sqrt ((n - m) * (n + m + 1)))

/-- Finite entries of `vr11`. -/
noncomputable def v11 (n m : ℕ) : ℝ := half m (Real.sqrt ((2 * n + 1) * (n + m + 2) * (n + m + 1) / (2 * n + 3)))

theorem bEntry_eq (n m : ℕ) (h : m < n) : bEntry n m = some (bb n m) := by
  have hm : (m : ℝ) < n := by exact_mod_cast h
  have hn : (1 : ℝ) ≤ n := by exact_mod_cast (by omega : 1 ≤ n)
  have hm0 : (0 : ℝ) ≤ m := Nat.cast_nonneg m
  have hp : (0 : ℝ) < (n + m) * (n - m) := mul_pos (by linarith) (by linarith)
  unfold bEntry cdiv csqrt bb
  rw [if_neg hp.ne', Option.bind_some, if_neg (not_lt.mpr (div_nonneg (mul_nonneg (by linarith) (by linarith)) hp.le))]

theorem cEntry_eq (n m : ℕ) (h : m + 2 ≤ n) : cEntry n m = some (cc n m) := by
  have hm : (m : ℝ) + 2 ≤ n := by exact_mod_cast h
  have hm0 : (0 : ℝ) ≤ m := Nat.cast_nonneg m
  have hp : (0 : ℝ) < (n - m) * (n + m) * (2 * n - 3) := mul_pos (mul_pos (by linarith) (by linarith)) (by linarith)
  unfold cEntry cdiv csqrt cc
  rw [if_neg hp.ne', Option.bind_some, if_neg (not_lt.mpr (div_nonneg
    (mul_nonneg (mul_nonneg (by linarith) (by linarith)) (by linarith)) hp.le))]

theorem vr01Entry_eq (n m : ℕ) (h : m ≤ n) : vr01Entry n m = some (v01 n m) := by
  have hm : (m : ℝ) ≤ n := by exact_mod_cast h
  have hm0 : (0 : ℝ) ≤ m := Nat.cast_nonneg m
  unfold vr01Entry csqrt v01
  rw [if_neg (not_lt.mpr (mul_nonneg (by linarith) (by linarith)))]
  rfl

theorem vr11Entry_eq (n m : ℕ) : vr11Entry n m = some (v11 n m) := by
  have hn : (0 : ℝ) ≤ n := Nat.cast_nonneg n
  have hm0 : (0 : ℝ) ≤ m := Nat.cast_nonneg m
  unfold vr11Entry cdiv csqrt v11
  rw [if_neg (by linarith : ¬ (2 * n + 3 : ℝ) = 0), Option.bind_some, if_neg (not_lt.mpr (by positivity))]
  rfl

theorem diagonal_eq (size : ℕ) : ∃ a, diagonal size = some a ∧ a.size = size + 1 ∧
    (∀ n, n ≤ size → a.val n n = some (dg n)) ∧ ∀ n m, n ≠ m → a.val n m = some 0 := by
  unfold diagonal
  rw [set_eq _ (by simp [Mat.const]) (by simp [Mat.const]), Option.bind_some]
  obtain ⟨a, h1, h2, h3, h4⟩ := loop_inv (lo := 1) (hi := size + 1)
    (P := fun i (a : Mat ℝ) => a.size = size + 1 ∧ (∀ n, n < i → a.val n n = some (dg n)) ∧ ∀ n m, n ≠ m → a.val n m = some 0)
    (f := fun n a => (a.get (n - 1) (n - 1)).bind fun x => a.set n n (Real.sqrt (1 + 1 / (2 * (n : ℝ))) * x))
    (s := ⟨size + 1, fun a b => if a = 0 ∧ b = 0 then some 1 else (Mat.const (size + 1) (0 : ℝ)).val a b⟩)
    (by omega)
    ⟨rfl, fun n hn => by
        obtain rfl : n = 0 := by omega
        simp [dg],
      fun n m hnm => by
        simp only [Mat.const]
        rw [if_neg (by omega)]⟩
    (by
      rintro i a h1 h2 ⟨hs, hd, ho⟩
      rw [get_eq (by omega) (by omega), hd (i - 1) (by omega), Option.bind_some, set_eq _ (by omega) (by omega)]
      refine ⟨_, rfl, hs, fun n hn => ?_, fun n m hnm => ?_⟩
      · by_cases hni : n = i
        · subst hni
          obtain ⟨k, rfl⟩ : ∃ k, n = k + 1 := ⟨n - 1, by omega⟩
          simp only [and_self, if_true, dg, Nat.add_sub_cancel]
        · simp only [hni, and_self, if_false]
          exact hd n (by omega)
      · simp only
        rw [if_neg (by omega)]
        exact ho n m hnm)
  exact ⟨a, h1, h2, fun n hn => h3 n (by omega), h4⟩

section
variable [Add K] [Sub K] [Mul K] [Div K] (lift : ℝ → K)

/-- The column `m` of the functions of Legendre, by recursion on the degree minus the order. -/
noncomputable def legCol (u : K) (m : ℕ) : ℕ → K
  | 0 => lift (dg m)
  | 1 => if m = 0 then u * lift (Real.sqrt 3) else lift (Real.sqrt (2 * m + 3)) * u * lift (dg m)
  | k + 2 => u * lift (bb (m + k + 2) m) * legCol u m (k + 1) - lift (cc (m + k + 2) m) * legCol u m k

/-- The functions of Legendre. -/
noncomputable def legA (u : K) (n m : ℕ) : K := if n < m then lift 0 else legCol lift u m (n - m)

theorem legA_below (u : K) (n m : ℕ) (h : n < m) : legA lift u n m = lift 0 := by simp [legA, h]
theorem legA_diag (u : K) (n : ℕ) : legA lift u n n = lift (dg n) := by simp [legA, legCol]
theorem legA_rec (u : K) (n m : ℕ) (h : m + 2 ≤ n) :
    legA lift u n m = u * lift (bb n m) * legA lift u (n - 1) m - lift (cc n m) * legA lift u (n - 2) m := by
  obtain ⟨k, rfl⟩ : ∃ k, n = m + k + 2 := ⟨n - m - 2, by omega⟩
  simp only [legA]
  rw [if_neg (by omega), if_neg (by omega), if_neg (by omega), show m + k + 2 - m = k + 2 by omega,
    show m + k + 2 - 1 - m = k + 1 by omega, show m + k + 2 - 2 - m = k by omega]
  rfl

/-- What `table` expects of the matrix it starts from. -/
def Starts (N : ℕ) (a : Mat K) : Prop :=
  a.size = N + 3 ∧ (∀ n, n ≤ N + 1 → a.val n n = some (lift (dg n))) ∧
    ∀ n m, n < m → m < N + 3 → a.val n m = some (lift 0)

theorem table_eq (N M : ℕ) (u : K) (a : Mat K) (h : Starts lift N a) :
    ∃ t, table lift N M ⟨N + 2, bEntry⟩ ⟨N + 2, cEntry⟩ u a = some t ∧
      ∀ n m, n ≤ N + 1 → m ≤ N + 1 → m ≤ M + 1 → t.get n m = some (legA lift u n m) := by
  obtain ⟨hs, hd, hz⟩ := h
  unfold table
  rw [set_eq _ (by omega) (by omega), Option.bind_some]
  -- the line below the diagonal
  obtain ⟨a1, h1, hs1, hd1, hz1, ho1⟩ := loop_inv (lo := 1) (hi := N + 1 + 1)
    (P := fun i (a : Mat K) => a.size = N + 3 ∧ (∀ n, n ≤ N + 1 → a.val n n = some (lift (dg n))) ∧
      (∀ n m, n < m → m < N + 3 → a.val n m = some (lift 0)) ∧
      ∀ n, n < i → a.val (n + 1) n = some (legA lift u (n + 1) n))
    (f := fun n a => (a.get n n).bind fun x => a.set (n + 1) n (lift (Real.sqrt (2 * n + 3)) * u * x))
    (s := ⟨a.size, fun i j => if i = 1 ∧ j = 0 then some (u * lift (Real.sqrt 3)) else a.val i j⟩) (by omega)
    ⟨hs, fun n hn => by simp only; rw [if_neg (by omega)]; exact hd n hn,
      fun n m h1 h2 => by simp only; rw [if_neg (by omega)]; exact hz n m h1 h2,
      fun n hn => by
        obtain rfl : n = 0 := by omega
        simp [legA, legCol]⟩
    (by
      rintro i a h1 h2 ⟨hs, hd, hz, ho⟩
      rw [get_eq (by omega) (by omega), hd i (by omega), Option.bind_some, set_eq _ (by omega) (by omega)]
      refine ⟨_, rfl, hs, fun n hn => ?_, fun n m h3 h4 => ?_, fun n hn => ?_⟩
      · simp only; rw [if_neg (by omega)]; exact hd n hn
      · simp only; rw [if_neg (by omega)]; exact hz n m h3 h4
      · by_cases hni : n = i
        · subst hni
          simp only [and_self, if_true, legA]
          rw [if_neg (by omega), show n + 1 - n = 1 by omega]
          simp only [legCol]
          rw [if_neg (by omega)]
        · simp only
          rw [if_neg (by omega)]
          exact ho n (by omega))
  rw [h1, Option.bind_some]
  -- the columns
  obtain ⟨t, h2, hs2, hz2, hn2, hc2⟩ := loop_inv (lo := 0) (hi := M + 1 + 1)
    (P := fun i (a : Mat K) => a.size = N + 3 ∧ (∀ n m, n < m → m < N + 3 → a.val n m = some (lift 0)) ∧
      (∀ n m, n ≤ N + 1 → m ≤ n → n ≤ m + 1 → a.val n m = some (legA lift u n m)) ∧
      ∀ n m, n ≤ N + 1 → m ≤ n → m < i → a.val n m = some (legA lift u n m))
    (f := fun m a => loop (m + 2) (N + 1 + 1) (fun n a =>
            (((⟨N + 2, bEntry⟩ : Mat ℝ).map lift).get n m).bind fun bv => (a.get (n - 1) m).bind fun a1 =>
              (((⟨N + 2, cEntry⟩ : Mat ℝ).map lift).get n m).bind fun cv => (a.get (n - 2) m).bind fun a2 =>
                a.set n m (u * bv * a1 - cv * a2)) a)
    (s := a1) (by omega)
    ⟨hs1, hz1, fun n m hn h3 h4 => by
        by_cases he : n = m
        · subst he; rw [hd1 n hn, legA_diag]
        · obtain rfl : n = m + 1 := by omega
          exact ho1 m (by omega),
      fun n m _ _ h5 => absurd h5 (by omega)⟩
    (by
      rintro m a h1 h2 ⟨hs, hz, hn, hc⟩
      by_cases hlt : m + 2 ≤ N + 1 + 1
      · obtain ⟨a', h3, hs', hz', hn', hc', hk'⟩ := loop_inv (lo := m + 2) (hi := N + 1 + 1)
          (P := fun i (a : Mat K) => a.size = N + 3 ∧ (∀ n m, n < m → m < N + 3 → a.val n m = some (lift 0)) ∧
            (∀ n m, n ≤ N + 1 → m ≤ n → n ≤ m + 1 → a.val n m = some (legA lift u n m)) ∧
            (∀ n m', n ≤ N + 1 → m' ≤ n → m' < m → a.val n m' = some (legA lift u n m')) ∧
            ∀ n, m ≤ n → n < i → a.val n m = some (legA lift u n m))
          (f := fun n a =>
            (((⟨N + 2, bEntry⟩ : Mat ℝ).map lift).get n m).bind fun bv => (a.get (n - 1) m).bind fun a1 =>
              (((⟨N + 2, cEntry⟩ : Mat ℝ).map lift).get n m).bind fun cv => (a.get (n - 2) m).bind fun a2 =>
                a.set n m (u * bv * a1 - cv * a2)) (s := a) hlt
          ⟨hs, hz, hn, hc, fun n h4 h5 => hn n m (by omega) h4 (by omega)⟩
          (by
            rintro n a h4 h5 ⟨hs, hz, hn, hc, hk⟩
            have eb : ((⟨N + 2, bEntry⟩ : Mat ℝ).map lift).get n m = some (lift (bb n m)) := by
              rw [get_eq (by simp [Mat.map]; omega) (by simp [Mat.map]; omega)]
              simp only [Mat.map, bEntry_eq n m (by omega), Option.map_some]
            have ec : ((⟨N + 2, cEntry⟩ : Mat ℝ).map lift).get n m = some (lift (cc n m)) := by
              rw [get_eq (by simp [Mat.map]; omega) (by simp [Mat.map]; omega)]
              simp only [Mat.map, cEntry_eq n m (by omega), Option.map_some]
            rw [eb, ec, Option.bind_some, get_eq (by omega) (by omega), hk (n - 1) (by omega) (by omega), Option.bind_some, Option.bind_some,
              get_eq (by omega) (by omega), hk (n - 2) (by omega) (by omega), Option.bind_some, set_eq _ (by omega) (by omega)]
            refine ⟨_, rfl, hs, fun a b h6 h7 => ?_, fun a b h6 h7 h8 => ?_, fun a b h6 h7 h8 => ?_, fun a h6 h7 => ?_⟩
            · simp only; rw [if_neg (by omega)]; exact hz a b h6 h7
            · simp only; rw [if_neg (by omega)]; exact hn a b h6 h7 h8
            · simp only; rw [if_neg (by omega)]; exact hc a b h6 h7 h8
            · by_cases he : a = n
              · subst he
                simp only [and_self, if_true]
                rw [legA_rec lift u a m (by omega)]
              · simp only; rw [if_neg (by omega)]; exact hk a h6 (by omega))
        refine ⟨a', h3, hs', hz', hn', fun n k h4 h5 h6 => ?_⟩
        by_cases he : k = m
        · subst he; exact hk' n h5 (by omega)
        · exact hc' n k h4 h5 (by omega)
      · rw [loop_empty _ _ (by omega)]
        refine ⟨a, rfl, hs, hz, hn, fun n k h4 h5 h6 => ?_⟩
        by_cases he : k = m
        · subst he; exact hn n k h4 h5 (by omega)
        · exact hc n k h4 h5 (by omega))
  refine ⟨t, h2, fun n m h3 h4 h5 => ?_⟩
  rw [get_eq (by omega) (by omega)]
  by_cases hnm : n < m
  · rw [hz2 n m hnm (by omega), legA_below lift u n m hnm]
  · exact hc2 n m h3 (by omega) (by omega)

/-- The real and imaginary parts of the powers of `s + i t`. -/
noncomputable def pw (s t : K) : ℕ → K × K
  | 0 => (lift 1, lift 0)
  | m + 1 => (s * (pw s t m).1 - t * (pw s t m).2, s * (pw s t m).2 + t * (pw s t m).1)

theorem powers_eq (k : ℕ) (s t : K) : ∃ p, powers lift k s t = some p ∧ p.1.length = k + 1 ∧ p.2.length = k + 1 ∧
    ∀ m, m ≤ k → p.1[m]? = some (pw lift s t m).1 ∧ p.2[m]? = some (pw lift s t m).2 := by
  unfold powers
  obtain ⟨p, h1, h2, h3, h4⟩ := loop_inv (lo := 1) (hi := k + 1)
    (P := fun i (p : List K × List K) => p.1.length = i ∧ p.2.length = i ∧
      ∀ m, m < i → p.1[m]? = some (pw lift s t m).1 ∧ p.2[m]? = some (pw lift s t m).2)
    (f := fun m p => (p.1[m - 1]?).bind fun r => (p.2[m - 1]?).map fun i =>
      (p.1 ++ [s * r - t * i], p.2 ++ [s * i + t * r])) (s := ([lift 1], [lift 0])) (by omega)
    ⟨rfl, rfl, fun m hm => by obtain rfl : m = 0 := by omega
                              exact ⟨rfl, rfl⟩⟩
    (by
      rintro i p h1 h2 ⟨l1, l2, hp⟩
      obtain ⟨e1, e2⟩ := hp (i - 1) (by omega)
      rw [e1, e2, Option.bind_some, Option.map_some]
      refine ⟨_, rfl, by simp [l1], by simp [l2], fun m hm => ?_⟩
      by_cases he : m = i
      · subst he
        obtain ⟨j, rfl⟩ : ∃ j, m = j + 1 := ⟨m - 1, by omega⟩
        simp only [Nat.add_sub_cancel]
        constructor
        · rw [List.getElem?_append_right (by omega), l1]
          simp [pw]
        · rw [List.getElem?_append_right (by omega), l2]
          simp [pw]
      · simp only
        rw [List.getElem?_append_left (by omega), List.getElem?_append_left (by omega)]
        exact hp m (by omega))
  exact ⟨p, h1, h2, h3, fun m hm => h4 m (by omega)⟩

/-- Sum of `f 0`, ..., `f (k - 1)`, from the left. -/
def accK (f : ℕ → K) : ℕ → K
  | 0 => lift 0
  | k + 1 => accK f k + f k

/-- The opposite of it. -/
def accS (f : ℕ → K) : ℕ → K
  | 0 => lift 0
  | k + 1 => accS f k - f k

/-- `d_` -/
noncomputable def dK (s t : K) (m : ℕ) (c v : K) : K := (c * (pw lift s t m).1 + v * (pw lift s t m).2) * lift (Real.sqrt 2)

/-- `e_` -/
noncomputable def eK (s t : K) (m : ℕ) (c v : K) : K :=
  if m = 0 then lift 0 else (c * (pw lift s t (m - 1)).1 + v * (pw lift s t (m - 1)).2) * lift (Real.sqrt 2)

/-- `f_` -/
noncomputable def fK (s t : K) (m : ℕ) (c v : K) : K :=
  if m = 0 then lift 0 else (v * (pw lift s t (m - 1)).1 - c * (pw lift s t (m - 1)).2) * lift (Real.sqrt 2)

theorem def3_eq (k : ℕ) (s t : K) (p : List K × List K) (m : ℕ) (c v : K) (hm : m ≤ k)
    (hp : ∀ m, m ≤ k → p.1[m]? = some (pw lift s t m).1 ∧ p.2[m]? = some (pw lift s t m).2) :
    def3 lift p m c v = some (dK lift s t m c v, eK lift s t m c v, fK lift s t m c v) := by
  obtain ⟨h1, h2⟩ := hp m hm
  obtain ⟨h3, h4⟩ := hp (m - 1) (by omega)
  unfold def3 dK eK fK
  rw [h1, h2, h3, h4]
  by_cases h : m = 0 <;> simp [h]

/-- The sums for a degree. -/
noncomputable def sums (M : ℕ) (C S : ℕ → ℕ → ℝ) (s t u : K) (n : ℕ) : Four K where
  x := accK lift (fun m => lift m * legA lift u n m * eK lift s t m (lift (C n m)) (lift (S n m))) (min n M + 1)
  y := accK lift (fun m => lift m * legA lift u n m * fK lift s t m (lift (C n m)) (lift (S n m))) (min n M + 1)
  z := accK lift (fun m => lift (v01 n m) * legA lift u n (m + 1) * dK lift s t m (lift (C n m)) (lift (S n m))) (min n M + 1)
  w := accK lift (fun m => lift (v11 n m) * legA lift u (n + 1) (m + 1) * dK lift s t m (lift (C n m)) (lift (S n m))) (min n M + 1)

/-- `rho_np1` after `k` rounds. -/
noncomputable def rhoK (mu radius : ℝ) (r : K) : ℕ → K
  | 0 => lift mu / r * (lift radius / r)
  | k + 1 => rhoK mu radius r k * (lift radius / r)

/-- The acceleration as a formula. -/
noncomputable def pureG (N M : ℕ) (C S : ℕ → ℕ → ℝ) (mu radius : ℝ) (x : Fin 3 → K) (r : K) : Fin 3 → K :=
  let sm := fun k => sums lift M C S (x 0 / r) (x 1 / r) (x 2 / r) (k + 1)
  let rr := fun k => rhoK lift mu radius r (k + 1) / lift radius
  let w := accS lift (fun k => rr k * (sm k).w) N
  ![accK lift (fun k => rr k * (sm k).x) N + w * (x 0 / r), accK lift (fun k => rr k * (sm k).y) N + w * (x 1 / r),
    accK lift (fun k => rr k * (sm k).z) N + w * (x 2 / r)]

end

/-- Specification: the storage has the coefficients `C` and `S`, finite, up to its degree and order. -/
def Data.Has (d : Data Fr) (C S : ℕ → ℕ → ℝ) : Prop :=
  ∀ n m, 1 ≤ n → n ≤ d.degree → m ≤ n → m ≤ d.order → d.cs n m = some (C n m, S n m)

theorem new_eq (d : Data Fr) : ∃ f, Field.new d = some f ∧ f.data = d ∧ f.b = ⟨d.degree + 2, bEntry⟩ ∧ f.c = ⟨d.degree + 2, cEntry⟩ ∧
    f.vr01 = ⟨d.degree + 2, vr01Entry⟩ ∧ f.vr11 = ⟨d.degree + 2, vr11Entry⟩ ∧ f.a.size = d.degree + 3 ∧
    (∀ n, n ≤ d.degree + 2 → f.a.val n n = some (dg n)) ∧ ∀ n m, n ≠ m → f.a.val n m = some 0 := by
  obtain ⟨a, h1, h2, h3, h4⟩ := diagonal_eq (d.degree + 2)
  exact ⟨⟨d, a, ⟨d.degree + 2, bEntry⟩, ⟨d.degree + 2, cEntry⟩, ⟨d.degree + 2, vr01Entry⟩, ⟨d.degree + 2, vr11Entry⟩⟩,
    by simp [Field.new, h1], rfl, rfl, rfl, rfl, rfl, h2, h3, h4⟩

section
variable [Add K] [Sub K] [Mul K] [Div K] (lift : ℝ → K)

theorem gradStart_eq (f : Field Fr) (N : ℕ) (hs : f.a.size = N + 3) (hd : ∀ n, n ≤ N + 2 → f.a.val n n = some (dg n)) :
    ∃ a, gradStart lift f N = some a ∧ Starts lift N a := by
  unfold gradStart
  obtain ⟨a, h1, h2, h3, h4⟩ := loop_inv (lo := 0) (hi := N + 1 + 1)
    (P := fun i (a : Mat K) => a.size = N + 3 ∧ (∀ n, n < i → a.val n n = some (lift (dg n))) ∧
      ∀ n m, n < m → m < N + 3 → a.val n m = some (lift 0))
    (f := fun i a => ((f.a.map lift).get i i).bind fun x => a.set i i x) (s := Mat.const (N + 3) (lift 0)) (by omega)
    ⟨rfl, fun n hn => absurd hn (by omega), fun n m _ _ => rfl⟩
    (by
      rintro i a h1 h2 ⟨hs', hd', hz'⟩
      have e : (f.a.map lift).get i i = some (lift (dg i)) := by
        rw [get_eq (by simp only [Mat.map]; omega) (by simp only [Mat.map]; omega)]
        simp only [Mat.map, hd i (by omega), Option.map_some]
      rw [e, Option.bind_some, set_eq _ (by omega) (by omega)]
      refine ⟨_, rfl, hs', fun n hn => ?_, fun n m h3 h4 => ?_⟩
      · by_cases he : n = i
        · subst he; simp
        · simp only; rw [if_neg (by omega)]; exact hd' n (by omega)
      · simp only; rw [if_neg (by omega)]; exact hz' n m h3 h4)
  exact ⟨a, h1, h2, fun n hn => h3 n (by omega), h4⟩

theorem gradSum_eq (f : Field Fr) (a : Mat K) (p : List K × List K) (n : ℕ) (C S : ℕ → ℕ → ℝ) (s t u : K)
    (hC : f.data.Has C S) (hv0 : f.vr01 = ⟨f.data.degree + 2, vr01Entry⟩) (hv1 : f.vr11 = ⟨f.data.degree + 2, vr11Entry⟩)
    (ha : ∀ n m, n ≤ f.data.degree + 1 → m ≤ f.data.degree + 1 → m ≤ f.data.order + 1 → a.get n m = some (legA lift u n m))
    (hp : ∀ m, m ≤ min f.data.degree f.data.order → p.1[m]? = some (pw lift s t m).1 ∧ p.2[m]? = some (pw lift s t m).2)
    (hn1 : 1 ≤ n) (hn : n ≤ f.data.degree) : gradSum lift f a p n = some (sums lift f.data.order C S s t u n) := by
  unfold gradSum
  obtain ⟨sm, h1, h2⟩ := loop_inv (lo := 0) (hi := min n f.data.order + 1)
    (P := fun i (sm : Four K) =>
      sm = ⟨accK lift (fun m => lift m * legA lift u n m * eK lift s t m (lift (C n m)) (lift (S n m))) i,
        accK lift (fun m => lift m * legA lift u n m * fK lift s t m (lift (C n m)) (lift (S n m))) i,
        accK lift (fun m => lift (v01 n m) * legA lift u n (m + 1) * dK lift s t m (lift (C n m)) (lift (S n m))) i,
        accK lift (fun m => lift (v11 n m) * legA lift u (n + 1) (m + 1) * dK lift s t m (lift (C n m)) (lift (S n m))) i⟩)
    (f := fun m sum =>
      (f.data.cs n m).bind fun cs => (def3 lift p m (lift cs.1) (lift cs.2)).bind fun d =>
        (a.get n m).bind fun anm => ((f.vr01.map lift).get n m).bind fun v0 => (a.get n (m + 1)).bind fun a1 =>
          ((f.vr11.map lift).get n m).bind fun v1 => (a.get (n + 1) (m + 1)).map fun a2 =>
            ⟨sum.x + lift m * anm * d.2.1, sum.y + lift m * anm * d.2.2, sum.z + v0 * a1 * d.1, sum.w + v1 * a2 * d.1⟩)
    (s := ⟨lift 0, lift 0, lift 0, lift 0⟩) (by omega) rfl
    (by
      rintro m sm h1 h2 rfl
      have e0 : (f.vr01.map lift).get n m = some (lift (v01 n m)) := by
        rw [hv0, get_eq (by simp only [Mat.map]; omega) (by simp only [Mat.map]; omega)]
        simp only [Mat.map, vr01Entry_eq n m (by omega), Option.map_some]
      have e1 : (f.vr11.map lift).get n m = some (lift (v11 n m)) := by
        rw [hv1, get_eq (by simp only [Mat.map]; omega) (by simp only [Mat.map]; omega)]
        simp only [Mat.map, vr11Entry_eq n m, Option.map_some]
      rw [hC n m hn1 hn (by omega) (by omega), Option.bind_some, def3_eq lift _ s t p m _ _ (by omega) hp, Option.bind_some,
        ha n m (by omega) (by omega) (by omega), Option.bind_some, e0, Option.bind_some, ha n (m + 1) (by omega) (by omega) (by omega),
        Option.bind_some, e1, Option.bind_some, ha (n + 1) (m + 1) (by omega) (by omega) (by omega), Option.map_some]
      exact ⟨_, rfl, rfl⟩)
  rw [h1, h2]
  rfl

/-- The gradient computes a formula: no access is out of bounds and no number used is not finite. -/
theorem accelD_eq (d : Data Fr) (f : Field Fr) (C S : ℕ → ℕ → ℝ) (mu radius : ℝ) (x : Fin 3 → K) (r : K)
    (hf : Field.new d = some f) (hC : d.Has C S) (hR : radius ≠ 0) :
    accelD lift f mu radius x r = some (pureG lift d.degree d.order C S mu radius x r) := by
  obtain ⟨f', h1, hd, hb, hc, hv0, hv1, hs, hdg, -⟩ := new_eq d
  obtain rfl : f' = f := Option.some.inj (h1.symm.trans hf)
  subst hd
  obtain ⟨a, ha, hst⟩ := gradStart_eq lift f' f'.data.degree hs hdg
  obtain ⟨t, ht, hget⟩ := table_eq lift f'.data.degree f'.data.order (x 2 / r) a hst
  obtain ⟨p, hp, -, -, hpw⟩ := powers_eq lift (min f'.data.degree f'.data.order) (x 0 / r) (x 1 / r)
  unfold accelD
  simp only [ha, Option.bind_some, hb, hc, ht, hp, cdiv, hR, if_false]
  obtain ⟨st, h2, h3⟩ := loop_inv (lo := 1) (hi := f'.data.degree + 1)
    (P := fun i (st : K × Four K) =>
      st = (rhoK lift mu radius r (i - 1),
        ⟨accK lift (fun k => rhoK lift mu radius r (k + 1) / lift radius * (sums lift f'.data.order C S (x 0 / r) (x 1 / r) (x 2 / r) (k + 1)).x) (i - 1),
        accK lift (fun k => rhoK lift mu radius r (k + 1) / lift radius * (sums lift f'.data.order C S (x 0 / r) (x 1 / r) (x 2 / r) (k + 1)).y) (i - 1),
        accK lift (fun k => rhoK lift mu radius r (k + 1) / lift radius * (sums lift f'.data.order C S (x 0 / r) (x 1 / r) (x 2 / r) (k + 1)).z) (i - 1),
        accS lift (fun k => rhoK lift mu radius r (k + 1) / lift radius * (sums lift f'.data.order C S (x 0 / r) (x 1 / r) (x 2 / r) (k + 1)).w) (i - 1)⟩))
    (f := fun n st =>
        (gradSum lift f' t p n).map fun sum =>
          (st.1 * (lift radius / r), (⟨st.2.x + st.1 * (lift radius / r) / lift radius * sum.x, st.2.y + st.1 * (lift radius / r) / lift radius * sum.y,
            st.2.z + st.1 * (lift radius / r) / lift radius * sum.z, st.2.w - st.1 * (lift radius / r) / lift radius * sum.w⟩ : Four K)))
    (s := (lift mu / r * (lift radius / r), ⟨lift 0, lift 0, lift 0, lift 0⟩)) (by omega) rfl
    (by
      rintro n st h1 h2 rfl
      rw [gradSum_eq lift f' t p n C S (x 0 / r) (x 1 / r) (x 2 / r) hC hv0 hv1 hget hpw (by omega) (by omega), Option.map_some]
      obtain ⟨k, rfl⟩ : ∃ k, n = k + 1 := ⟨n - 1, by omega⟩
      exact ⟨_, rfl, rfl⟩)
  rw [h2, h3]
  rfl

end

theorem eomSum_eq (f : Field Fr) (a : Mat ℝ) (p : List ℝ × List ℝ) (n : ℕ) (C S : ℕ → ℕ → ℝ) (s t u : ℝ)
    (hC : f.data.Has C S) (hv0 : f.vr01 = ⟨f.data.degree + 2, vr01Entry⟩) (hv1 : f.vr11 = ⟨f.data.degree + 2, vr11Entry⟩)
    (ha : ∀ n m, n ≤ f.data.degree + 1 → m ≤ f.data.degree + 1 → m ≤ f.data.order + 1 → a.get n m = some (legA id u n m))
    (hp : ∀ m, m ≤ min f.data.degree f.data.order → p.1[m]? = some (pw id s t m).1 ∧ p.2[m]? = some (pw id s t m).2)
    (hn1 : 1 ≤ n) (hn : n ≤ f.data.degree) :
    eomSum f a p n = some ⟨(sums id f.data.order C S s t u n).x, (sums id f.data.order C S s t u n).y,
      (sums id f.data.order C S s t u n).z, -(sums id f.data.order C S s t u n).w⟩ := by
  unfold eomSum
  obtain ⟨sm, h1, h2⟩ := loop_inv (lo := 0) (hi := min n f.data.order + 1)
    (P := fun i (sm : Four ℝ) =>
      sm = ⟨accK id (fun m => id (m : ℝ) * legA id u n m * eK id s t m (id (C n m)) (id (S n m))) i,
        accK id (fun m => id (m : ℝ) * legA id u n m * fK id s t m (id (C n m)) (id (S n m))) i,
        accK id (fun m => id (v01 n m) * legA id u n (m + 1) * dK id s t m (id (C n m)) (id (S n m))) i,
        -accK id (fun m => id (v11 n m) * legA id u (n + 1) (m + 1) * dK id s t m (id (C n m)) (id (S n m))) i⟩)
    (f := fun m sum =>
      (f.data.cs n m).bind fun cs => (def3 id p m cs.1 cs.2).bind fun d =>
        (a.get n m).bind fun anm => (f.vr01.get n m).bind fun v0 => (a.get n (m + 1)).bind fun a1 =>
          (f.vr11.get n m).bind fun v1 => (a.get (n + 1) (m + 1)).map fun a2 =>
            ⟨sum.x + m * anm * d.2.1, sum.y + m * anm * d.2.2, sum.z + v0 * a1 * d.1, sum.w - v1 * a2 * d.1⟩)
    (s := ⟨0, 0, 0, 0⟩) (by omega) (by simp [accK])
    (by
      rintro m sm h1 h2 rfl
      have e0 : f.vr01.get n m = some (v01 n m) := by
        rw [hv0, get_eq (by simp only; omega) (by simp only; omega)]
        exact vr01Entry_eq n m (by omega)
      have e1 : f.vr11.get n m = some (v11 n m) := by
        rw [hv1, get_eq (by simp only; omega) (by simp only; omega)]
        exact vr11Entry_eq n m
      rw [hC n m hn1 hn (by omega) (by omega), Option.bind_some, def3_eq id _ s t p m _ _ (by omega) hp, Option.bind_some,
        ha n m (by omega) (by omega) (by omega), Option.bind_some, e0, Option.bind_some, ha n (m + 1) (by omega) (by omega) (by omega),
        Option.bind_some, e1, Option.bind_some, ha (n + 1) (m + 1) (by omega) (by omega) (by omega), Option.map_some]
      refine ⟨_, rfl, ?_⟩
      simp only [accK, id, Four.mk.injEq, true_and]
      ring)
  rw [h1, h2]
  rfl

theorem accS_eq (f : ℕ → ℝ) (k : ℕ) : accS id f k = -accK id f k := by
  induction k with
  | zero => simp [accS, accK]
  | succ k ih => simp only [accS, accK, ih]; ring

/-- The equations of motion compute the same formula. -/
theorem accel_eq (d : Data Fr) (f : Field Fr) (C S : ℕ → ℕ → ℝ) (mu radius : ℝ) (q : V3)
    (hf : Field.new d = some f) (hC : d.Has C S) (hR : radius ≠ 0) (hq : nrm q ≠ 0) :
    accel f mu radius q = some (pureG id d.degree d.order C S mu radius q (nrm q)) := by
  obtain ⟨f', h1, hd, hb, hc, hv0, hv1, hs, hdg, hz⟩ := new_eq d
  obtain rfl : f' = f := Option.some.inj (h1.symm.trans hf)
  subst hd
  have hst : Starts id f'.data.degree f'.a :=
    ⟨hs, fun n hn => hdg n (by omega), fun n m h _ => hz n m (by omega)⟩
  obtain ⟨t, ht, hget⟩ := table_eq id f'.data.degree f'.data.order (q 2 / nrm q) f'.a hst
  obtain ⟨p, hp, -, -, hpw⟩ := powers_eq id (min f'.data.degree f'.data.order) (q 0 / nrm q) (q 1 / nrm q)
  unfold accel
  simp only [hq, Option.bind_some, hb, hc, ht, hp, cdiv, hR, if_false]
  obtain ⟨st, h2, h3⟩ := loop_inv (lo := 1) (hi := f'.data.degree + 1)
    (P := fun i (st : ℝ × Four ℝ) =>
      st = (rhoK id mu radius (nrm q) (i - 1),
        ⟨accK id (fun k => rhoK id mu radius (nrm q) (k + 1) / id radius * (sums id f'.data.order C S (q 0 / nrm q) (q 1 / nrm q) (q 2 / nrm q) (k + 1)).x) (i - 1),
        accK id (fun k => rhoK id mu radius (nrm q) (k + 1) / id radius * (sums id f'.data.order C S (q 0 / nrm q) (q 1 / nrm q) (q 2 / nrm q) (k + 1)).y) (i - 1),
        accK id (fun k => rhoK id mu radius (nrm q) (k + 1) / id radius * (sums id f'.data.order C S (q 0 / nrm q) (q 1 / nrm q) (q 2 / nrm q) (k + 1)).z) (i - 1),
        accS id (fun k => rhoK id mu radius (nrm q) (k + 1) / id radius * (sums id f'.data.order C S (q 0 / nrm q) (q 1 / nrm q) (q 2 / nrm q) (k + 1)).w) (i - 1)⟩))
    (f := fun n st =>
        (eomSum f' t p n).map fun sum =>
          (st.1 * (radius / nrm q), (⟨st.2.x + st.1 * (radius / nrm q) / radius * sum.x, st.2.y + st.1 * (radius / nrm q) / radius * sum.y,
            st.2.z + st.1 * (radius / nrm q) / radius * sum.z, st.2.w + st.1 * (radius / nrm q) / radius * sum.w⟩ : Four ℝ)))
    (s := (mu / nrm q * (radius / nrm q), ⟨0, 0, 0, 0⟩)) (by omega) rfl
    (by
      rintro n st h1 h2 rfl
      rw [eomSum_eq f' t p n C S (q 0 / nrm q) (q 1 / nrm q) (q 2 / nrm q) hC hv0 hv1 hget hpw (by omega) (by omega), Option.map_some]
      obtain ⟨k, rfl⟩ : ∃ k, n = k + 1 := ⟨n - 1, by omega⟩
      refine ⟨_, rfl, ?_⟩
      simp only [Nat.add_sub_cancel, accK, accS, rhoK, id, Prod.mk.injEq, Four.mk.injEq, true_and]
      ring)
  rw [h2, h3]
  rfl

end Verif.Gravity
