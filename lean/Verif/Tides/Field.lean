import Verif.Gravity.Theorems
import Verif.Tides.Model

/-!
The solid tides are a gravity field of degree and order 3 with the coefficients of the tides.
-/
namespace Verif.Tides
open Verif.MathU Matrix
open Verif.Force (Alm Orb AModel Dual M3)
open Verif.Gravity (Mat loop cdiv csqrt half powers def3 Four Data Starts dg legA pw sums pureG rhoK accK accS loop_inv loop_step loop_empty
  get_eq set_eq bEntry cEntry vr01Entry vr11Entry)
variable {Fr : Type}

/-- The rules on zero that are used. -/
structure Zeros {K : Type} [Add K] [Sub K] [Mul K] (lift : ℝ → K) : Prop where
  left : ∀ x, lift 0 * x = lift 0
  right : ∀ x, x * lift 0 = lift 0
  add : lift 0 + lift 0 = lift 0
  sub : lift 0 - lift 0 = lift 0
  hom : ∀ a b, lift a * lift b = lift (a * b)

theorem zeros_real : Zeros (K := ℝ) id := ⟨fun x => zero_mul x, fun x => mul_zero x, add_zero 0, sub_zero 0, fun _ _ => rfl⟩

theorem dual_ext {n : ℕ} {a b : Dual n} (h1 : a.re = b.re) (h2 : ∀ j, a.eps j = b.eps j) : a = b := by
  cases a; cases b
  simp only at h1 h2
  rw [h1, funext h2]

theorem zeros_dual {n : ℕ} : Zeros (K := Dual n) Dual.ofReal where
  left x := dual_ext (zero_mul _) fun j => by
    show (0 : ℝ) * x.eps j + 0 * x.re = 0
    ring
  right x := dual_ext (mul_zero _) fun j => by
    show x.re * (0 : ℝ) + x.eps j * 0 = 0
    ring
  add := dual_ext (add_zero _) fun j => by
    show (0 : ℝ) + 0 = 0
    ring
  sub := dual_ext (sub_zero _) fun j => by
    show (0 : ℝ) - 0 = 0
    ring
  hom a b := dual_ext rfl fun j => by
    show a * (0 : ℝ) + 0 * b = 0
    ring

theorem loop_congr {σ : Type} {lo hi : ℕ} {f g : ℕ → σ → Option σ} (s : σ) (h : ∀ i s, lo ≤ i → i < hi → f i s = g i s) :
    loop lo hi f s = loop lo hi g s := by
  by_cases hl : hi ≤ lo
  · rw [loop_empty f s hl, loop_empty g s hl]
  · obtain ⟨k, rfl⟩ : ∃ k, hi = lo + k := ⟨hi - lo, by omega⟩
    clear hl
    induction k generalizing lo s with
    | zero => rw [loop_empty f s (by omega), loop_empty g s (by omega)]
    | succ k ih =>
      rw [loop_step f s (by omega), loop_step g s (by omega), h lo s le_rfl (by omega)]
      congr 1
      funext s'
      have := ih (lo := lo + 1) s' (fun i s h1 h2 => h i s (by omega) (by omega))
      rw [show lo + 1 + k = lo + (k + 1) by omega] at this
      exact this

section
variable {K : Type} [Add K] [Sub K] [Mul K] [Div K] (lift : ℝ → K) (hl : Zeros lift)
include hl

theorem diagonal_starts : ∃ a, diagonal lift = some a ∧ Starts lift 3 a := by
  unfold diagonal
  rw [set_eq _ (by simp [Mat.const]) (by simp [Mat.const]), Option.bind_some]
  obtain ⟨a, h1, h2, h3, h4⟩ := loop_inv (lo := 1) (hi := 5)
    (P := fun i (a : Mat K) => a.size = 6 ∧ (∀ n, n < i → a.val n n = some (lift (dg n))) ∧
      ∀ n m, n < m → m < 6 → a.val n m = some (lift 0))
    (f := fun n a => (a.get (n - 1) (n - 1)).bind fun x => a.set n n (lift (Real.sqrt (1 + 1 / (2 * (n : ℝ)))) * x))
    (s := ⟨(Mat.const 6 (lift 0)).size, fun a b => if a = 0 ∧ b = 0 then some (lift 1) else (Mat.const 6 (lift 0)).val a b⟩) (by omega)
    ⟨rfl, fun n hn => by
      obtain rfl : n = 0 := by omega
      simp [dg], fun n m h _ => by simp only; rw [if_neg (by omega)]; rfl⟩
    (by
      rintro i a h1 h2 ⟨hs, hd, hz⟩
      obtain ⟨k, rfl⟩ : ∃ k, i = k + 1 := ⟨i - 1, by omega⟩
      rw [Nat.add_sub_cancel, get_eq (by omega) (by omega), hd k (by omega), Option.bind_some, set_eq _ (by omega) (by omega), hl.hom]
      refine ⟨_, rfl, hs, fun n hn => ?_, fun n m h3 h4 => ?_⟩
      · by_cases he : n = k + 1
        · subst he; simp [dg]
        · simp only; rw [if_neg (by omega)]; exact hd n (by omega)
      · simp only; rw [if_neg (by omega)]; exact hz n m h3 h4)
  exact ⟨a, h1, h2, fun n hn => h3 n (by omega), h4⟩

theorem table_tides (u : K) : ∃ t, table lift u = some t ∧ ∀ n m, n ≤ 4 → m ≤ 4 → t.get n m = some (legA lift u n m) := by
  obtain ⟨a, ha, hst⟩ := diagonal_starts lift hl
  obtain ⟨t, ht, hget⟩ := Gravity.table_eq lift 3 3 u a hst
  refine ⟨t, ?_, fun n m h1 h2 => hget n m h1 h2 h2⟩
  rw [← ht]
  unfold table Gravity.table
  rw [ha, Option.bind_some]
  congr 1
  funext a
  congr 1
  funext a
  obtain ⟨s4, h4⟩ : ∃ x, x = loop 0 4 (fun m a => loop (m + 2) (3 + 1 + 1) (fun n a =>
      (((⟨3 + 2, bEntry⟩ : Mat ℝ).map lift).get n m).bind fun bv => (a.get (n - 1) m).bind fun a1 =>
        (((⟨3 + 2, cEntry⟩ : Mat ℝ).map lift).get n m).bind fun cv => (a.get (n - 2) m).bind fun a2 =>
          a.set n m (u * bv * a1 - cv * a2)) a) a := ⟨_, rfl⟩
  have e1 : ∀ {σ : Type} (f : ℕ → σ → Option σ) (s : σ), loop 0 (3 + 1 + 1) f s = (loop 0 4 f s).bind (f 4) := by
    intro σ f s
    rw [loop_step f s (by omega), loop_step f s (show 0 < 4 by omega)]
    cases f 0 s with
    | none => rfl
    | some s =>
      simp only [Option.bind_some]
      rw [loop_step f s (by omega), loop_step f s (show 0 + 1 < 4 by omega)]
      cases f (0 + 1) s with
      | none => rfl
      | some s =>
        simp only [Option.bind_some]
        rw [loop_step f s (by omega), loop_step f s (show 0 + 1 + 1 < 4 by omega)]
        cases f (0 + 1 + 1) s with
        | none => rfl
        | some s =>
          simp only [Option.bind_some]
          rw [loop_step f s (by omega), loop_step f s (show 0 + 1 + 1 + 1 < 4 by omega)]
          cases f (0 + 1 + 1 + 1) s with
          | none => rfl
          | some s =>
            simp only [Option.bind_some]
            rw [loop_step f s (by omega), loop_empty f s (show 4 ≤ 0 + 1 + 1 + 1 + 1 by omega)]
            cases h : f (0 + 1 + 1 + 1 + 1) s with
            | none => simpa using h.symm
            | some s' =>
              simp only [Option.bind_some]
              rw [loop_empty f s' (by omega)]
              simpa using h.symm
  rw [e1]
  have e2 : ∀ x : Option (Mat K), (x.bind fun a => loop (4 + 2) (3 + 1 + 1) (fun n a =>
      (((⟨3 + 2, bEntry⟩ : Mat ℝ).map lift).get n 4).bind fun bv => (a.get (n - 1) 4).bind fun a1 =>
        (((⟨3 + 2, cEntry⟩ : Mat ℝ).map lift).get n 4).bind fun cv => (a.get (n - 2) 4).bind fun a2 =>
          a.set n 4 (u * bv * a1 - cv * a2)) a) = x := by
    intro x
    cases x with
    | none => rfl
    | some x => exact loop_empty _ _ (by omega)
  rw [e2]
  refine loop_congr _ fun m a h1 h2 => loop_congr _ fun n a h3 h4 => ?_
  have eb : ((⟨3 + 2, bEntry⟩ : Mat ℝ).map lift).get n m = (bNm n m).map lift := by
    rw [get_eq (by simp only [Mat.map]; omega) (by simp only [Mat.map]; omega)]
    rfl
  have ec : ((⟨3 + 2, cEntry⟩ : Mat ℝ).map lift).get n m = (cNm n m).map lift := by
    rw [get_eq (by simp only [Mat.map]; omega) (by simp only [Mat.map]; omega)]
    rfl
  rw [eb, ec]
  simp only [Option.bind_map, Function.comp_def]

end

/-- The coefficients as matrices of the code. -/
def full (C : ℕ → ℕ → ℝ) : Mat ℝ := ⟨4, fun i j => some (C i j)⟩

/-- The gravity field of degree and order 3 with these coefficients. -/
def asData (frame : Fr) (C S : ℕ → ℕ → ℝ) : Data Fr := ⟨3, 3, full C, full S, frame⟩

theorem asData_has (frame : Fr) (C S : ℕ → ℕ → ℝ) : (asData frame C S).Has C S := by
  intro n m h1 h2 h3 h4
  have h2' : n ≤ 3 := h2
  simp only [Data.cs, asData]
  rw [get_eq (by simp only [full]; omega) (by simp only [full]; omega), get_eq (by simp only [full]; omega) (by simp only [full]; omega)]
  rfl

theorem full_get (C : ℕ → ℕ → ℝ) (n m : ℕ) (h1 : n ≤ 3) (h2 : m ≤ 3) : (full C).get n m = some (C n m) := by
  rw [get_eq (by simp only [full]; omega) (by simp only [full]; omega)]
  rfl

section
variable {K : Type} [Add K] [Sub K] [Mul K] [Div K] (lift : ℝ → K) (hl : Zeros lift)
include hl

theorem sums_zero (C S : ℕ → ℕ → ℝ) (s t u : K) (h : ∀ m, C 1 m = 0 ∧ S 1 m = 0) :
    sums lift 3 C S s t u 1 = ⟨lift 0, lift 0, lift 0, lift 0⟩ := by
  have hd : ∀ m, Gravity.dK lift s t m (lift (C 1 m)) (lift (S 1 m)) = lift 0 := by
    intro m
    rw [Gravity.dK, (h m).1, (h m).2, hl.left, hl.left, hl.add, hl.left]
  have he : ∀ m, Gravity.eK lift s t m (lift (C 1 m)) (lift (S 1 m)) = lift 0 := by
    intro m
    rw [Gravity.eK, (h m).1, (h m).2, hl.left, hl.left, hl.add, hl.left]
    simp
  have hf : ∀ m, Gravity.fK lift s t m (lift (C 1 m)) (lift (S 1 m)) = lift 0 := by
    intro m
    rw [Gravity.fK, (h m).1, (h m).2, hl.left, hl.left, hl.sub, hl.left]
    simp
  have ha : ∀ k, accK lift (fun _ => lift 0) k = lift 0 := by
    intro k
    induction k with
    | zero => rfl
    | succ k ih => rw [accK, ih, hl.add]
  simp only [sums, hd, he, hf, hl.right, ha]

theorem gradSum_tides (C S : ℕ → ℕ → ℝ) (a : Mat K) (s t u : K) (p : List K × List K) (n : ℕ)
    (ha : ∀ n m, n ≤ 4 → m ≤ 4 → a.get n m = some (legA lift u n m))
    (hp : ∀ m, m ≤ 3 → p.1[m]? = some (pw lift s t m).1 ∧ p.2[m]? = some (pw lift s t m).2)
    (hn1 : 1 ≤ n) (hn : n ≤ 3) : gradSum lift (full C, full S) a p n = some (sums lift 3 C S s t u n) := by
  obtain ⟨f, hf, hd, -, -, hv0, hv1, -⟩ := Gravity.new_eq (asData () C S)
  have hF : f.data.Has C S := hd ▸ asData_has () C S
  have e3 : f.data.degree = 3 := by rw [hd]; rfl
  have e4 : f.data.order = 3 := by rw [hd]; rfl
  have hg := Gravity.gradSum_eq lift f a p n C S s t u hF (by rw [e3]; exact hv0) (by rw [e3]; exact hv1)
    (by rw [e3, e4]; intro n m h1 h2 _; exact ha n m h1 h2) (by rw [e3, e4]; exact hp) hn1 (by rw [e3]; exact hn)
  rw [e4] at hg
  rw [← hg]
  unfold gradSum Gravity.gradSum
  rw [e4, show min n 3 = n by omega]
  refine loop_congr _ fun m sm h1 h2 => ?_
  rw [hF n m hn1 (by omega) (by omega) (by omega)]
  dsimp only
  rw [full_get C n m hn (by omega), full_get S n m hn (by omega), hv0, hv1]
  have eb : ((⟨(asData () C S).degree + 2, vr01Entry⟩ : Mat ℝ).map lift).get n m = (vr01 n m).map lift := by
    rw [get_eq (by simp only [Mat.map, asData]; omega) (by simp only [Mat.map, asData]; omega)]
    rfl
  have ec : ((⟨(asData () C S).degree + 2, vr11Entry⟩ : Mat ℝ).map lift).get n m = (vr11 n m).map lift := by
    rw [get_eq (by simp only [Mat.map, asData]; omega) (by simp only [Mat.map, asData]; omega)]
    rfl
  rw [eb, ec]
  simp only [Option.bind_some, Option.bind_map, Function.comp_def]

/-- The gradient of the code computes the formula of a gravity field. -/
theorem accelD_tides (C S : ℕ → ℕ → ℝ) (mu radius : ℝ) (x : Fin 3 → K) (r : K) (hR : radius ≠ 0) (h1 : ∀ m, C 1 m = 0 ∧ S 1 m = 0) :
    accelD lift (full C, full S) mu radius x r = some (pureG lift 3 3 C S mu radius x r) := by
  obtain ⟨t, ht, hget⟩ := table_tides lift hl (x 2 / r)
  obtain ⟨p, hp, -, -, hpw⟩ := Gravity.powers_eq lift 3 (x 0 / r) (x 1 / r)
  have hg := fun n h1 h2 => gradSum_tides lift hl C S t (x 0 / r) (x 1 / r) (x 2 / r) p n hget hpw h1 h2
  unfold accelD
  simp only [ht, hp, Option.bind_some, cdiv, hR, if_false]
  rw [loop_step _ _ (by omega)]
  simp only [show (1 : ℕ) < 2 by omega, if_true, Option.bind_some]
  rw [loop_step _ _ (by omega)]
  simp only [show ¬ (1 + 1 : ℕ) < 2 by omega, if_false, hg (1 + 1) (by omega) (by omega), Option.map_some, Option.bind_some]
  rw [loop_step _ _ (by omega)]
  simp only [show ¬ (1 + 1 + 1 : ℕ) < 2 by omega, if_false, hg (1 + 1 + 1) (by omega) (by omega), Option.map_some, Option.bind_some]
  rw [loop_empty _ _ (by omega)]
  simp only [pureG, accK, accS, rhoK, Option.map_some, Nat.reduceAdd, sums_zero lift hl C S _ _ _ h1, hl.right, hl.add, hl.sub]

end

theorem eomSum_tides (C S : ℕ → ℕ → ℝ) (a : Mat ℝ) (s t u : ℝ) (p : List ℝ × List ℝ) (n : ℕ)
    (ha : ∀ n m, n ≤ 4 → m ≤ 4 → a.get n m = some (legA id u n m))
    (hp : ∀ m, m ≤ 3 → p.1[m]? = some (pw id s t m).1 ∧ p.2[m]? = some (pw id s t m).2)
    (hn1 : 1 ≤ n) (hn : n ≤ 3) : eomSum (full C, full S) a p n = some ⟨(sums id 3 C S s t u n).x, (sums id 3 C S s t u n).y,
      (sums id 3 C S s t u n).z, -(sums id 3 C S s t u n).w⟩ := by
  obtain ⟨f, hf, hd, -, -, hv0, hv1, -⟩ := Gravity.new_eq (asData () C S)
  have hF : f.data.Has C S := hd ▸ asData_has () C S
  have e3 : f.data.degree = 3 := by rw [hd]; rfl
  have e4 : f.data.order = 3 := by rw [hd]; rfl
  have hg := Gravity.eomSum_eq f a p n C S s t u hF (by rw [e3]; exact hv0) (by rw [e3]; exact hv1)
    (by rw [e3, e4]; intro n m h1 h2 _; exact ha n m h1 h2) (by rw [e3, e4]; exact hp) hn1 (by rw [e3]; exact hn)
  rw [e4] at hg
  rw [← hg]
  unfold eomSum Gravity.eomSum
  rw [e4, show min n 3 = n by omega]
  refine loop_congr _ fun m sm h1 h2 => ?_
  rw [hF n m hn1 (by omega) (by omega) (by omega)]
  dsimp only
  rw [full_get C n m hn (by omega), full_get S n m hn (by omega), hv0, hv1]
  have eb : (⟨(asData () C S).degree + 2, vr01Entry⟩ : Mat ℝ).get n m = vr01 n m := by
    rw [get_eq (by simp only [asData]; omega) (by simp only [asData]; omega)]
    rfl
  have ec : (⟨(asData () C S).degree + 2, vr11Entry⟩ : Mat ℝ).get n m = vr11 n m := by
    rw [get_eq (by simp only [asData]; omega) (by simp only [asData]; omega)]
    rfl
  rw [eb, ec]
  simp only [Option.bind_some]

/-- The equations of motion compute the same formula. -/
theorem accel_tides (C S : ℕ → ℕ → ℝ) (mu radius : ℝ) (q : V3) (hR : radius ≠ 0) (hq : nrm q ≠ 0)
    (h1 : ∀ m, C 1 m = 0 ∧ S 1 m = 0) :
    accel (full C, full S) mu radius q = some (pureG id 3 3 C S mu radius q (nrm q)) := by
  obtain ⟨t, ht, hget⟩ := table_tides id zeros_real (q 2 / nrm q)
  obtain ⟨p, hp, -, -, hpw⟩ := Gravity.powers_eq id 3 (q 0 / nrm q) (q 1 / nrm q)
  have hg := fun n h1 h2 => eomSum_tides C S t (q 0 / nrm q) (q 1 / nrm q) (q 2 / nrm q) p n hget hpw h1 h2
  unfold accel
  simp only [ht, hp, Option.bind_some, cdiv, hR, hq, if_false]
  rw [loop_step _ _ (by omega)]
  simp only [show (1 : ℕ) < 2 by omega, if_true, Option.bind_some]
  rw [loop_step _ _ (by omega)]
  simp only [show ¬ (1 + 1 : ℕ) < 2 by omega, if_false, hg (1 + 1) (by omega) (by omega), Option.map_some, Option.bind_some]
  rw [loop_step _ _ (by omega)]
  simp only [show ¬ (1 + 1 + 1 : ℕ) < 2 by omega, if_false, hg (1 + 1 + 1) (by omega) (by omega), Option.map_some, Option.bind_some]
  rw [loop_empty _ _ (by omega)]
  simp only [pureG, accK, accS, rhoK, Option.map_some, Nat.reduceAdd, sums_zero id zeros_real C S _ _ _ h1, id]
  congr 1
  funext i
  fin_cases i <;> simp <;> ring_nf <;> simp

end Verif.Tides
