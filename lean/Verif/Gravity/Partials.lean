import Verif.Gravity.Potential

/-!
The partials of the acceleration of a gravity field (C164).
-/
namespace Verif.Gravity
open Verif.MathU Matrix
open Verif.Force (Dual Tracks lin linM linM_apply lin_apply lin_congr hdf M3 Alm Orb AModel Exact stack posPart posPart_stack)
variable {Fr : Type}

section
variable {p : V3} {f g : V3 → ℝ} {a b : Dual 3}

theorem lift_tracks (c : ℝ) : Tracks p (fun _ => id c) (Dual.ofReal c) := Tracks.ofReal c

theorem tr_leg (hf : Tracks p f a) (m k : ℕ) : Tracks p (fun y => legCol id (f y) m k) (legCol Dual.ofReal a m k) := by
  induction k using Nat.strong_induction_on with
  | _ k ih =>
    match k, ih with
    | 0, _ => exact lift_tracks _
    | 1, _ =>
      simp only [legCol]
      by_cases hm : m = 0
      · simp only [hm, if_true]
        exact hf.mul (lift_tracks _)
      · simp only [hm, if_false]
        exact ((lift_tracks _).mul hf).mul (lift_tracks _)
    | k + 2, ih =>
      simp only [legCol]
      exact ((hf.mul (lift_tracks _)).mul (ih (k + 1) (by omega))).sub ((lift_tracks _).mul (ih k (by omega)))

theorem tr_legA (hf : Tracks p f a) (n m : ℕ) : Tracks p (fun y => legA id (f y) n m) (legA Dual.ofReal a n m) := by
  unfold legA
  by_cases h : n < m
  · simp only [h, if_true]
    exact lift_tracks _
  · simp only [h, if_false]
    exact tr_leg hf _ _

theorem tr_pwD (hf : Tracks p f a) (hg : Tracks p g b) (m : ℕ) :
    Tracks p (fun y => (pw id (f y) (g y) m).1) (pw Dual.ofReal a b m).1 ∧
    Tracks p (fun y => (pw id (f y) (g y) m).2) (pw Dual.ofReal a b m).2 := by
  induction m with
  | zero => exact ⟨lift_tracks _, lift_tracks _⟩
  | succ m ih => exact ⟨(hf.mul ih.1).sub (hg.mul ih.2), (hf.mul ih.2).add (hg.mul ih.1)⟩

theorem tr_acc {F : ℕ → V3 → ℝ} {A : ℕ → Dual 3} (h : ∀ k, Tracks p (F k) (A k)) (k : ℕ) :
    Tracks p (fun y => accK id (fun i => F i y) k) (accK Dual.ofReal A k) := by
  induction k with
  | zero => exact lift_tracks _
  | succ k ih => exact ih.add (h k)

theorem tr_accS {F : ℕ → V3 → ℝ} {A : ℕ → Dual 3} (h : ∀ k, Tracks p (F k) (A k)) (k : ℕ) :
    Tracks p (fun y => accS id (fun i => F i y) k) (accS Dual.ofReal A k) := by
  induction k with
  | zero => exact lift_tracks _
  | succ k ih => exact ih.sub (h k)

theorem tr_def (hf : Tracks p f a) (hg : Tracks p g b) (m : ℕ) (c v : ℝ) :
    Tracks p (fun y => dK id (f y) (g y) m (id c) (id v)) (dK Dual.ofReal a b m (Dual.ofReal c) (Dual.ofReal v)) ∧
    Tracks p (fun y => eK id (f y) (g y) m (id c) (id v)) (eK Dual.ofReal a b m (Dual.ofReal c) (Dual.ofReal v)) ∧
    Tracks p (fun y => fK id (f y) (g y) m (id c) (id v)) (fK Dual.ofReal a b m (Dual.ofReal c) (Dual.ofReal v)) := by
  obtain ⟨h1, h2⟩ := tr_pwD hf hg m
  obtain ⟨h3, h4⟩ := tr_pwD hf hg (m - 1)
  refine ⟨(((lift_tracks c).mul h1).add ((lift_tracks v).mul h2)).mul (lift_tracks _), ?_, ?_⟩
  · unfold eK
    by_cases hm : m = 0
    · simp only [hm, if_true]; exact lift_tracks _
    · simp only [hm, if_false]
      exact (((lift_tracks c).mul h3).add ((lift_tracks v).mul h4)).mul (lift_tracks _)
  · unfold fK
    by_cases hm : m = 0
    · simp only [hm, if_true]; exact lift_tracks _
    · simp only [hm, if_false]
      exact (((lift_tracks v).mul h3).sub ((lift_tracks c).mul h4)).mul (lift_tracks _)

theorem tr_rho (hf : Tracks p f a) (h0 : f p ≠ 0) (mu R : ℝ) (k : ℕ) :
    Tracks p (fun y => rhoK id mu R (f y) k) (rhoK Dual.ofReal mu R a k) := by
  induction k with
  | zero => exact ((lift_tracks _).div hf h0).mul ((lift_tracks _).div hf h0)
  | succ k ih => exact ih.mul ((lift_tracks _).div hf h0)

end

/-- The acceleration and its partials, in the frame of the field. -/
theorem pure_tracks (N M : ℕ) (C S : ℕ → ℕ → ℝ) (mu R : ℝ) (hR : R ≠ 0) (q : V3) (hq : q ≠ 0) (i : Fin 3) :
    Tracks q (fun y => pureG id N M C S mu R y (nrm y) i)
      (pureG Dual.ofReal N M C S mu R (Dual.vars q) (Dual.norm3 (Dual.vars q)) i) := by
  have h0 : nrm q ≠ 0 := (nrm_pos q hq).ne'
  have hn : Tracks q nrm (Dual.norm3 (Dual.vars q)) :=
    Tracks.norm3 (x := q) (F := fun y => y) (v := Dual.vars q) (fun i => Tracks.var i) hq
  have hd : ∀ i, Tracks q (fun y => y i / nrm y) (Dual.vars q i / Dual.norm3 (Dual.vars q)) := fun i => (Tracks.var i).div hn h0
  have hrr : ∀ k, Tracks q (fun y => rhoK id mu R (nrm y) (k + 1) / id R) (rhoK Dual.ofReal mu R (Dual.norm3 (Dual.vars q)) (k + 1) / Dual.ofReal R) :=
    fun k => (tr_rho hn h0 mu R (k + 1)).div (lift_tracks R) hR
  have hx := tr_acc (p := q) (fun k => (hrr k).mul (tr_acc (p := q) (fun m => ((lift_tracks (m : ℝ)).mul (tr_legA (hd 2) (k + 1) m)).mul
    (tr_def (hd 0) (hd 1) m (C (k + 1) m) (S (k + 1) m)).2.1) (min (k + 1) M + 1))) N
  have hy := tr_acc (p := q) (fun k => (hrr k).mul (tr_acc (p := q) (fun m => ((lift_tracks (m : ℝ)).mul (tr_legA (hd 2) (k + 1) m)).mul
    (tr_def (hd 0) (hd 1) m (C (k + 1) m) (S (k + 1) m)).2.2) (min (k + 1) M + 1))) N
  have hz := tr_acc (p := q) (fun k => (hrr k).mul (tr_acc (p := q) (fun m => ((lift_tracks (v01 (k + 1) m)).mul (tr_legA (hd 2) (k + 1) (m + 1))).mul
    (tr_def (hd 0) (hd 1) m (C (k + 1) m) (S (k + 1) m)).1) (min (k + 1) M + 1))) N
  have hw := tr_accS (p := q) (fun k => (hrr k).mul (tr_acc (p := q) (fun m => ((lift_tracks (v11 (k + 1) m)).mul (tr_legA (hd 2) (k + 1 + 1) (m + 1))).mul
    (tr_def (hd 0) (hd 1) m (C (k + 1) m) (S (k + 1) m)).1) (min (k + 1) M + 1))) N
  fin_cases i
  · exact hx.add (hw.mul (hd 0))
  · exact hy.add (hw.mul (hd 1))
  · exact hz.add (hw.mul (hd 2))

end Verif.Gravity
