import Verif.Rk.Tree
import Verif.Rk.Order
import Mathlib.Algebra.Module.LinearMap.End
import Mathlib.Algebra.Polynomial.Roots
import Mathlib.LinearAlgebra.Prod
import Mathlib.LinearAlgebra.Dual.Lemmas
import Mathlib.Algebra.CharZero.Infinite
import Mathlib.LinearAlgebra.BilinearMap
/-!
C210: order on non linear problems: one step on `x' = f(x)`, `f` any polynomial map of any module, agrees with the Taylor polynomial of
the solution up to the order of the method.
-/
namespace Verif.Rk
open Finset

variable {V : Type} [AddCommGroup V] [Module ℚ V]

/-- The polynomial maps: what is built from constants, linear maps, sums and bilinear products. -/
inductive PolyMap : (V → V) → Prop where
  | const (c : V) : PolyMap fun _ => c
  | lin (L : V →ₗ[ℚ] V) : PolyMap fun x => L x
  | add {p q : V → V} : PolyMap p → PolyMap q → PolyMap fun x => p x + q x
  | bil (B : V →ₗ[ℚ] V →ₗ[ℚ] V) {p q : V → V} : PolyMap p → PolyMap q → PolyMap fun x => B (p x) (q x)

/-- A polynomial map stays one when the origin is moved. -/
theorem PolyMap.shift {f : V → V} (hf : PolyMap f) (x : V) : PolyMap fun v => f (x + v) := by
  induction hf with
  | const c => exact .const c
  | lin L => simp only [map_add]; exact .add (.const _) (.lin L)
  | add _ _ ih1 ih2 => exact .add ih1 ih2
  | bil B _ _ ih1 ih2 => exact .bil B ih1 ih2

/-- A function of lists which is linear in each argument. -/
structure Multi (g : List V → V) : Prop where
  add : ∀ l a b r, g (l ++ (a + b) :: r) = g (l ++ a :: r) + g (l ++ b :: r)
  smul : ∀ l (c : ℚ) a r, g (l ++ (c • a) :: r) = c • g (l ++ a :: r)

theorem Multi.zero {g : List V → V} (hg : Multi g) (l r : List V) : g (l ++ 0 :: r) = 0 := by
  have := hg.smul l 0 0 r
  rwa [zero_smul, zero_smul] at this

theorem Multi.sum {g : List V → V} (hg : Multi g) {ι : Type} (l r : List V) (φ : ι → V) (S : List ι) :
    g (l ++ (S.map φ).sum :: r) = (S.map fun c => g (l ++ φ c :: r)).sum := by
  induction S with
  | nil => simpa using hg.zero l r
  | cons a S ih => rw [List.map_cons, List.sum_cons, hg.add, ih, List.map_cons, List.sum_cons]

/-- A polynomial map is a sum of homogeneous parts, each linear in every copy of its argument. -/
def Expands (f : V → V) (D : Nat) (g : List V → V) : Prop :=
  Multi g ∧ (∀ l, D < l.length → g l = 0) ∧ ∀ v, f v = ∑ d ∈ range (D + 1), g (List.replicate d v)

theorem Expands.sum {f : V → V} {D : Nat} {g : List V → V} (h : Expands f D g) (N : Nat) (hN : D + 1 ≤ N) (v : V) :
    f v = ∑ d ∈ range N, g (List.replicate d v) := by
  rw [h.2.2 v]
  refine sum_subset (range_subset_range.2 hN) fun d _ hd => h.2.1 _ ?_
  rw [List.length_replicate]
  simp only [mem_range] at hd
  omega

theorem multi_bil (B : V →ₗ[ℚ] V →ₗ[ℚ] V) {g k : List V → V} (hg : Multi g) (hk : Multi k) :
    Multi fun l => ∑ n ∈ range (l.length + 1), B (g (l.take n)) (k (l.drop n)) := by
  have t1 : ∀ (l r : List V) (a : V) (n : Nat), n ≤ l.length → (l ++ a :: r).take n = l.take n ∧ (l ++ a :: r).drop n = l.drop n ++ a :: r := by
    intro l r a n hn
    exact ⟨List.take_append_of_le_length hn, List.drop_append_of_le_length hn⟩
  have t2 : ∀ (l r : List V) (a : V) (n : Nat), l.length < n → (l ++ a :: r).take n = l ++ a :: r.take (n - l.length - 1) ∧
      (l ++ a :: r).drop n = r.drop (n - l.length - 1) := by
    intro l r a n hn
    obtain ⟨m, rfl⟩ : ∃ m, n = l.length + 1 + m := ⟨n - l.length - 1, by omega⟩
    have e : l.length + 1 + m - l.length - 1 = m := by omega
    rw [e, Nat.add_assoc, List.take_append, List.drop_append]
    constructor
    · rw [List.take_of_length_le (by omega), show l.length + (1 + m) - l.length = m + 1 by omega, List.take_succ_cons]
    · rw [List.drop_of_length_le (by omega), show l.length + (1 + m) - l.length = m + 1 by omega, List.drop_succ_cons, List.nil_append]
  constructor
  · intro l a b r
    simp only [List.length_append, List.length_cons]
    rw [← sum_add_distrib]
    refine sum_congr rfl fun n _ => ?_
    by_cases hn : n ≤ l.length
    · simp only [t1 l r _ n hn]
      rw [hk.add, map_add]
    · simp only [t2 l r _ n (by omega)]
      rw [hg.add, map_add, LinearMap.add_apply]
  · intro l c a r
    simp only [List.length_append, List.length_cons]
    rw [smul_sum]
    refine sum_congr rfl fun n _ => ?_
    by_cases hn : n ≤ l.length
    · simp only [t1 l r _ n hn]
      rw [hk.smul, map_smul]
    · simp only [t2 l r _ n (by omega)]
      rw [hg.smul, map_smul, LinearMap.smul_apply]

theorem cauchy_bil (B : V →ₗ[ℚ] V →ₗ[ℚ] V) (a b : Nat → V) (D1 D2 : Nat) (ha : ∀ n, D1 < n → a n = 0) (hb : ∀ n, D2 < n → b n = 0) :
    B (∑ i ∈ range (D1 + 1), a i) (∑ j ∈ range (D2 + 1), b j) =
      ∑ d ∈ range (D1 + D2 + 1), ∑ n ∈ range (d + 1), B (a n) (b (d - n)) := by
  have e : ∑ d ∈ range (D1 + D2 + 1), ∑ n ∈ range (d + 1), B (a n) (b (d - n)) =
      ∑ n ∈ range (D1 + D2 + 1), ∑ d ∈ Ico n (D1 + D2 + 1), B (a n) (b (d - n)) :=
    sum_comm' fun x y => by simp only [mem_range, mem_Ico]; omega
  have e2 : ∑ i ∈ range (D1 + 1), a i = ∑ i ∈ range (D1 + D2 + 1), a i :=
    sum_subset (range_subset_range.2 (by omega)) fun d _ hd => ha d (by simp only [mem_range] at hd; omega)
  rw [e, e2, map_sum B, LinearMap.sum_apply]
  refine sum_congr rfl fun n hn => ?_
  by_cases hn' : D1 < n
  · simp only [ha n hn', map_zero, LinearMap.zero_apply, sum_const_zero]
  · rw [sum_Ico_eq_sum_range, map_sum]
    simp only [Nat.add_sub_cancel_left]
    refine sum_subset (range_subset_range.2 (by omega)) fun d _ hd => ?_
    rw [hb d (by simp only [mem_range] at hd; omega), map_zero]

theorem PolyMap.expands {f : V → V} (hf : PolyMap f) : ∃ D g, Expands f D g := by
  induction hf with
  | const c =>
    refine ⟨0, fun l => if l = [] then c else 0, ⟨?_, ?_⟩, ?_, ?_⟩
    · intro l a b r; simp
    · intro l c a r; simp
    · intro l hl; simp [List.ne_nil_of_length_pos hl]
    · intro v; simp
  | lin L =>
    refine ⟨1, fun l => match l with | [a] => L a | _ => 0, ⟨?_, ?_⟩, ?_, ?_⟩
    · intro l a b r
      rcases l with _ | ⟨x, _ | ⟨y, l⟩⟩ <;> rcases r with _ | ⟨z, r⟩ <;> simp
    · intro l c a r
      rcases l with _ | ⟨x, _ | ⟨y, l⟩⟩ <;> rcases r with _ | ⟨z, r⟩ <;> simp
    · intro l hl
      rcases l with _ | ⟨x, _ | ⟨y, l⟩⟩
      · rfl
      · simp at hl
      · rfl
    · intro v; rw [sum_range_succ, sum_range_succ]; simp
  | add _ _ ih1 ih2 =>
    obtain ⟨D1, g1, h1⟩ := ih1
    obtain ⟨D2, g2, h2⟩ := ih2
    refine ⟨max D1 D2, fun l => g1 l + g2 l, ⟨?_, ?_⟩, ?_, ?_⟩
    · intro l a b r; simp only [h1.1.add, h2.1.add]; abel
    · intro l c a r; simp only [h1.1.smul, h2.1.smul, smul_add]
    · intro l hl; simp only [h1.2.1 l (by omega), h2.2.1 l (by omega), add_zero]
    · intro v
      simp only
      rw [h1.sum (max D1 D2 + 1) (by omega) v, h2.sum (max D1 D2 + 1) (by omega) v, ← sum_add_distrib]
  | bil B _ _ ih1 ih2 =>
    obtain ⟨D1, g1, h1⟩ := ih1
    obtain ⟨D2, g2, h2⟩ := ih2
    refine ⟨D1 + D2, _, multi_bil B h1.1 h2.1, ?_, ?_⟩
    · intro l hl
      refine sum_eq_zero fun n hn => ?_
      by_cases hn' : D1 < n
      · rw [h1.2.1 (l.take n) (by simp only [mem_range] at hn; rw [List.length_take]; omega), map_zero, LinearMap.zero_apply]
      · rw [h2.2.1 (l.drop n) (by rw [List.length_drop]; omega), map_zero]
    · intro v
      simp only
      rw [h1.2.2 v, h2.2.2 v]
      have := cauchy_bil B (fun n => g1 (List.replicate n v)) (fun n => g2 (List.replicate n v)) D1 D2
        (fun n hn => h1.2.1 _ (by rwa [List.length_replicate])) (fun n hn => h2.2.1 _ (by rwa [List.length_replicate]))
      rw [this]
      refine sum_congr rfl fun d _ => ?_
      rw [List.length_replicate]
      refine sum_congr rfl fun n hn => ?_
      have hn := mem_range.1 hn
      rw [List.take_replicate, List.drop_replicate, min_eq_left (by omega)]

/-! ### Expansion over the trees -/

/-- The elementary differentials of the trees of a forest. -/
def ed (g : List V → V) : Forest → List V
  | .nil => []
  | .cons c r => g (ed g c) :: ed g r

/-- Product of a coefficient over the trees of a forest. -/
def prodc (u : Forest → ℚ) : Forest → ℚ
  | .nil => 1
  | .cons c r => u c * prodc u r

/-- The forests of `d` trees above the forests of `S`. -/
def lists (S : List Forest) : Nat → List Forest
  | 0 => [.nil]
  | d + 1 => S.flatMap fun c => (lists S d).map (.cons c)

/-- The forests of at most `D` trees above the forests of `S`. -/
def alls (D : Nat) (S : List Forest) : List Forest := (List.range (D + 1)).flatMap (lists S)

/-- The forests of degree at most `D` and height at most `m - 1`. -/
def bounded (D : Nat) : Nat → List Forest
  | 0 => []
  | m + 1 => alls D (bounded D m)

theorem sum_flatMap {ι κ M : Type} [AddCommMonoid M] (l : List ι) (k : ι → List κ) (φ : κ → M) :
    ((l.flatMap k).map φ).sum = (l.map fun i => ((k i).map φ).sum).sum := by
  induction l with
  | nil => rfl
  | cons a l ih => rw [List.flatMap_cons, List.map_append, List.sum_append, ih, List.map_cons, List.sum_cons]

theorem smul_list_sum {ι : Type} (l : List ι) (c : ℚ) (φ : ι → V) : c • (l.map φ).sum = (l.map fun i => c • φ i).sum := by
  induction l with
  | nil => simp
  | cons a l ih => simp only [List.map_cons, List.sum_cons, smul_add, ih]

theorem expand_lists {g : List V → V} (hg : Multi g) (u : Forest → ℚ) (S : List Forest) : ∀ (d : Nat) (pre : List V),
    g (pre ++ List.replicate d (S.map fun c => u c • g (ed g c)).sum) =
      ((lists S d).map fun r => prodc u r • g (pre ++ ed g r)).sum
  | 0, pre => by simp [lists, prodc, ed]
  | d + 1, pre => by
    rw [List.replicate_succ, hg.sum, lists, sum_flatMap]
    congr 1
    refine List.map_congr_left fun c _ => ?_
    rw [hg.smul, show ∀ (a : V) (r : List V), pre ++ a :: r = (pre ++ [a]) ++ r from fun a r => by simp,
      expand_lists hg u S d, smul_list_sum, List.map_map]
    congr 1
    refine List.map_congr_left fun r _ => ?_
    simp only [Function.comp, prodc, ed]
    rw [smul_smul, List.append_assoc, List.singleton_append]

/-- The value of a polynomial map at a sum of elementary differentials is another one. -/
theorem expand {f : V → V} {D : Nat} {g : List V → V} (h : Expands f D g) (u : Forest → ℚ) (S : List Forest) :
    f (S.map fun c => u c • g (ed g c)).sum = ((alls D S).map fun r => prodc u r • g (ed g r)).sum := by
  rw [h.2.2, alls, sum_flatMap, ← sum_range_list]
  congr 1
  refine List.map_congr_left fun d _ => ?_
  have := expand_lists h.1 u S d []
  simpa using this

theorem finset_list_sum {ι : Type} (n : Nat) (l : List ι) (φ : Nat → ι → V) :
    ∑ j ∈ range n, (l.map (φ j)).sum = (l.map fun c => ∑ j ∈ range n, φ j c).sum := by
  induction l with
  | nil => simp
  | cons a l ih => simp only [List.map_cons, List.sum_cons, sum_add_distrib, ih]

theorem prodc_stage (t : Tab) (h : ℚ) (i : Nat) : ∀ r : Forest,
    prodc (fun c => h ^ (c.ord + 1) * ∑ j ∈ range i, t.a i j * c.ph t j) r = h ^ r.ord * r.ph t i
  | .nil => by simp [prodc, Forest.ord, Forest.ph]
  | .cons c r => by rw [prodc, prodc_stage t h i r, Forest.ord, Forest.ph, pow_add]; ring

/-- The stages of a step are series over the trees. -/
theorem stage_series (t : Tab) {f : V → V} {D : Nat} {g : List V → V} (x : V) (hf : Expands (fun v => f (x + v)) D g) (h : ℚ)
    (K : Nat → V) (n : Nat) (hK : ∀ i < n, f (x + h • ∑ j ∈ range i, t.a i j • K j) = K i) :
    ∀ i < n, ∀ m, i < m → K i = ((bounded D m).map fun r => (h ^ r.ord * r.ph t i) • g (ed g r)).sum := by
  intro i
  induction i using Nat.strong_induction_on with
  | _ i ih =>
    intro hi m hm
    obtain ⟨m, rfl⟩ : ∃ k, m = k + 1 := ⟨m - 1, by omega⟩
    have e1 : h • ∑ j ∈ range i, t.a i j • K j =
        ((bounded D m).map fun c => (h ^ (c.ord + 1) * ∑ j ∈ range i, t.a i j * c.ph t j) • g (ed g c)).sum := by
      have : ∀ j ∈ range i, t.a i j • K j =
          ((bounded D m).map fun r => (t.a i j * (h ^ r.ord * r.ph t j)) • g (ed g r)).sum := by
        intro j hj
        have hj := mem_range.1 hj
        rw [ih j hj (by omega) m (by omega), smul_list_sum]
        simp only [smul_smul]
      rw [sum_congr rfl this, finset_list_sum, smul_list_sum]
      congr 1
      refine List.map_congr_left fun c _ => ?_
      rw [← sum_smul, smul_smul, pow_succ, mul_sum, mul_sum]
      congr 1
      exact sum_congr rfl fun j _ => by ring
    rw [← hK i hi, e1]
    refine (expand hf _ _).trans ?_
    rw [bounded]
    congr 1
    refine List.map_congr_left fun r _ => ?_
    rw [prodc_stage]

/-- One step is a series over the trees. -/
theorem next_series (t : Tab) (w : Nat → ℚ) {f : V → V} {D : Nat} {g : List V → V} (x : V) (hf : Expands (fun v => f (x + v)) D g) (h : ℚ)
    (K : Nat → V) (hK : ∀ i < t.stages, f (x + h • ∑ j ∈ range i, t.a i j • K j) = K i) :
    h • ∑ i ∈ range t.stages, w i • K i =
      ((bounded D t.stages).map fun r => (h ^ (r.ord + 1) * ∑ i ∈ range t.stages, w i * r.ph t i) • g (ed g r)).sum := by
  have : ∀ j ∈ range t.stages, w j • K j =
      ((bounded D t.stages).map fun r => (w j * (h ^ r.ord * r.ph t j)) • g (ed g r)).sum := by
    intro j hj
    have hj := mem_range.1 hj
    rw [stage_series t x hf h K t.stages hK j hj t.stages hj, smul_list_sum]
    simp only [smul_smul]
  rw [sum_congr rfl this, finset_list_sum, smul_list_sum]
  congr 1
  refine List.map_congr_left fun c _ => ?_
  rw [← sum_smul, smul_smul, pow_succ, mul_sum, mul_sum]
  congr 1
  exact sum_congr rfl fun j _ => by ring

/-! ### The Taylor polynomial of the solution -/

theorem cons_filter (n k : Nat) (hk : k ≤ n + 1) (A B : List Forest)
    (h : ∀ k, k ≤ n + 1 → A.filter (fun r => r.ord < k) = B.filter fun r => r.ord < k) (S : List Forest) :
    ((S.filter fun c => c.ord < n).flatMap fun c => (A.map (Forest.cons c)).filter fun (r : Forest) => r.ord < k) =
      S.flatMap fun c => (B.map (Forest.cons c)).filter fun (r : Forest) => r.ord < k := by
  have e : ∀ (c : Forest) (L : List Forest), (L.map (Forest.cons c)).filter (fun r => r.ord < k) =
      (L.filter fun r => r.ord < k - (c.ord + 1)).map (.cons c) := by
    intro c L
    rw [List.filter_map]
    congr 1
    refine List.filter_congr fun r _ => ?_
    show decide ((Forest.cons c r).ord < k) = decide (r.ord < k - (c.ord + 1))
    rw [Forest.ord, decide_eq_decide]
    omega
  simp only [e]
  induction S with
  | nil => rfl
  | cons c S ih =>
    rw [List.flatMap_cons]
    by_cases hc : c.ord < n
    · rw [List.filter_cons_of_pos (by simpa using hc), List.flatMap_cons, ih, h _ (by omega)]
    · rw [List.filter_cons_of_neg (by simpa using hc), ih, show k - (c.ord + 1) = 0 by omega]
      simp

theorem lists_filter (S : List Forest) (n : Nat) : ∀ (d k : Nat), k ≤ n + 1 →
    (lists (S.filter fun c => c.ord < n) d).filter (fun r => r.ord < k) = (lists S d).filter fun r => r.ord < k
  | 0, k, _ => rfl
  | d + 1, k, hk => by
    rw [lists, lists, List.filter_flatMap, List.filter_flatMap]
    exact cons_filter n k hk _ _ (lists_filter S n d) S

/-- The forests of less than `n` nodes are all there as soon as the height allows. -/
theorem bounded_stable (D : Nat) : ∀ (n m : Nat), n ≤ m →
    (bounded D (m + 1)).filter (fun r => r.ord < n) = (bounded D m).filter fun r => r.ord < n
  | 0, m, _ => by simp
  | n + 1, m, hm => by
    obtain ⟨m, rfl⟩ : ∃ k, m = k + 1 := ⟨m - 1, by omega⟩
    have key : ∀ S, (alls D (S.filter fun c => c.ord < n)).filter (fun r => r.ord < n + 1) = (alls D S).filter fun r => r.ord < n + 1 := by
      intro S
      rw [alls, alls, List.filter_flatMap, List.filter_flatMap]
      congr 1
      funext d
      exact lists_filter S n d (n + 1) (by omega)
    rw [bounded, ← key, bounded_stable D n m (by omega), key]
    rfl

/-- The forests of less than `n` nodes above any of the forests of less than `n - 1` nodes. -/
theorem alls_filter (D n : Nat) (S : List Forest) :
    (alls D (S.filter fun c => c.ord < n)).filter (fun r => r.ord < n + 1) = (alls D S).filter fun r => r.ord < n + 1 := by
  rw [alls, alls, List.filter_flatMap, List.filter_flatMap]
  congr 1
  funext d
  exact lists_filter S n d (n + 1) (by omega)

/-- A sum of monomials, ordered by the exponent. -/
theorem group {ι : Type} (l : List ι) (o : ι → Nat) (φ : ι → V) : ∃ N, ∀ M, N ≤ M → ∀ h : ℚ,
    (l.map fun r => h ^ o r • φ r).sum = ∑ n ∈ range M, h ^ n • ((l.filter fun r => o r = n).map φ).sum := by
  induction l with
  | nil => exact ⟨0, fun M _ h => by simp⟩
  | cons a l ih =>
    obtain ⟨N, hN⟩ := ih
    refine ⟨max N (o a + 1), fun M hM h => ?_⟩
    rw [List.map_cons, List.sum_cons, hN M (by omega) h]
    have : ∀ n ∈ range M, h ^ n • (((a :: l).filter fun r => o r = n).map φ).sum =
        (if n = o a then h ^ n • φ a else 0) + h ^ n • ((l.filter fun r => o r = n).map φ).sum := by
      intro n _
      by_cases hn : n = o a
      · rw [if_pos hn, List.filter_cons_of_pos (by simp [hn]), List.map_cons, List.sum_cons, smul_add]
      · rw [if_neg hn, List.filter_cons_of_neg (by simpa using fun e => hn e.symm), zero_add]
    rw [sum_congr rfl this, sum_add_distrib]
    congr 1
    rw [sum_ite_eq' (range M) (o a) fun n => h ^ n • φ a, if_pos (mem_range.2 (by omega))]

/-- The terms of low order of such a sum. -/
theorem group_lt (l : List Forest) (φ : Forest → V) (p : Nat) (h : ℚ) :
    ((l.filter fun r => r.ord < p).map fun r => h ^ r.ord • φ r).sum =
      ∑ n ∈ range p, h ^ n • ((l.filter fun r => r.ord = n).map φ).sum := by
  induction l with
  | nil => simp
  | cons a l ih =>
    have : ∀ n ∈ range p, h ^ n • (((a :: l).filter fun r => r.ord = n).map φ).sum =
        (if n = a.ord then h ^ n • φ a else 0) + h ^ n • ((l.filter fun r => r.ord = n).map φ).sum := by
      intro n _
      by_cases hn : n = a.ord
      · rw [if_pos hn, List.filter_cons_of_pos (by simp [hn]), List.map_cons, List.sum_cons, smul_add]
      · rw [if_neg hn, List.filter_cons_of_neg (by simpa using fun e => hn e.symm), zero_add]
    rw [sum_congr rfl this, sum_add_distrib, ← ih, sum_ite_eq' (range p) a.ord fun n => h ^ n • φ a]
    by_cases ha : a.ord < p
    · rw [if_pos (mem_range.2 ha), List.filter_cons_of_pos (by simpa using ha), List.map_cons, List.sum_cons]
    · rw [if_neg (by simpa using ha), List.filter_cons_of_neg (by simpa using ha), zero_add]

theorem sum_filter_add {ι : Type} (l : List ι) (P : ι → Bool) (φ : ι → V) :
    (l.map φ).sum = ((l.filter P).map φ).sum + ((l.filter fun i => !P i).map φ).sum := by
  induction l with
  | nil => simp
  | cons a l ih =>
    rw [List.map_cons, List.sum_cons, ih]
    cases h : P a with
    | true => rw [List.filter_cons_of_pos h, List.filter_cons_of_neg (by simp [h]), List.map_cons, List.sum_cons]; abel
    | false => rw [List.filter_cons_of_neg (by simp [h]), List.filter_cons_of_pos (by simp [h]), List.map_cons, List.sum_cons]; abel

/-- A sum over forests: the terms of low order, and a multiple of `h^p`. -/
theorem split_order (l : List Forest) (p : Nat) (φ : Forest → V) : ∃ (q : Nat → V) (N : Nat), ∀ M, N ≤ M → ∀ h : ℚ,
    (l.map fun r => h ^ r.ord • φ r).sum =
      ∑ n ∈ range p, h ^ n • ((l.filter fun r => r.ord = n).map φ).sum + h ^ p • ∑ n ∈ range M, h ^ n • q n := by
  obtain ⟨N, hN⟩ := group (l.filter fun r => !decide (r.ord < p)) (fun r => r.ord - p) φ
  refine ⟨fun n => (((l.filter fun r => !decide (r.ord < p)).filter fun r => r.ord - p = n).map φ).sum, N, fun M hM h => ?_⟩
  rw [sum_filter_add l (fun r => decide (r.ord < p)), group_lt l φ p h, ← hN M hM h, smul_list_sum]
  congr 2
  refine List.map_congr_left fun r hr => ?_
  have : p ≤ r.ord := by
    have := (List.mem_filter.1 hr).2
    simpa using this
  rw [smul_smul, ← pow_add]
  congr 2
  omega

theorem prodc_taylor (h : ℚ) : ∀ r : Forest,
    prodc (fun c => h ^ (c.ord + 1) * (1 / (((c.ord + 1) * c.gam : Nat) : ℚ))) r = h ^ r.ord * (1 / (r.gam : ℚ))
  | .nil => by simp [prodc, Forest.ord, Forest.gam]
  | .cons c r => by
    have h1 : (c.gam : ℚ) ≠ 0 := by exact_mod_cast c.gam_pos.ne'
    have h2 : (r.gam : ℚ) ≠ 0 := by exact_mod_cast r.gam_pos.ne'
    have h3 : (c.ord + 1 : ℚ) ≠ 0 := by positivity
    rw [prodc, prodc_taylor h r, Forest.ord, Forest.gam]
    push_cast
    field_simp
    ring

/-- Coefficient of degree `n + 1` of the Taylor polynomial. -/
def tay (D : Nat) (g : List V → V) (s n : Nat) : V :=
  (((bounded D s).filter fun r => r.ord = n).map fun r => (1 / (((r.ord + 1) * r.gam : Nat) : ℚ)) • g (ed g r)).sum

/-- The polynomial with the coefficients `tay` satisfies the differential equation up to the order. -/
theorem tay_solves {f : V → V} {D : Nat} {g : List V → V} (hf : Expands f D g) (s p : Nat) (hp : p ≤ s) :
    ∃ (q : Nat → V) (N : Nat), ∀ M, N ≤ M → ∀ h : ℚ, f (∑ n ∈ range p, h ^ (n + 1) • tay D g s n) =
      ∑ n ∈ range p, h ^ n • (((n : ℚ) + 1) • tay D g s n) + h ^ p • ∑ n ∈ range M, h ^ n • q n := by
  have e1 : ∀ h : ℚ, ∑ n ∈ range p, h ^ (n + 1) • tay D g s n =
      (((bounded D s).filter fun r => r.ord < p).map fun c =>
        (h ^ (c.ord + 1) * (1 / (((c.ord + 1) * c.gam : Nat) : ℚ))) • g (ed g c)).sum := by
    intro h
    have := group_lt (bounded D s) (fun r => (1 / (((r.ord + 1) * r.gam : Nat) : ℚ)) • g (ed g r)) p h
    have e : ∑ n ∈ range p, h ^ (n + 1) • tay D g s n = h • ∑ n ∈ range p, h ^ n • tay D g s n := by
      rw [smul_sum]
      exact sum_congr rfl fun n _ => by rw [smul_smul, ← pow_succ']
    rw [e, show ∑ n ∈ range p, h ^ n • tay D g s n = _ from this.symm, smul_list_sum]
    congr 1
    refine List.map_congr_left fun r _ => ?_
    rw [smul_smul, smul_smul, pow_succ']
  obtain ⟨q, N, hq⟩ := split_order (alls D ((bounded D s).filter fun r => r.ord < p)) p
    (fun r => (1 / (r.gam : ℚ)) • g (ed g r))
  refine ⟨q, N, fun M hM h => ?_⟩
  rw [e1 h, expand hf]
  simp only [prodc_taylor, ← smul_smul]
  rw [hq M hM h]
  congr 1
  refine sum_congr rfl fun n hn => ?_
  have hn := mem_range.1 hn
  congr 1
  have e2 : (alls D ((bounded D s).filter fun r => r.ord < p)).filter (fun r => r.ord = n) =
      (bounded D s).filter fun r => r.ord = n := by
    have f1 : ∀ l : List Forest, l.filter (fun r => r.ord = n) = (l.filter fun r => r.ord < p).filter fun r => r.ord = n := by
      intro l
      rw [List.filter_filter]
      refine List.filter_congr fun r _ => ?_
      by_cases hr : r.ord = n <;> simp [hr, hn]
    have f2 : ∀ l : List Forest, l.filter (fun r => r.ord < p) = (l.filter fun r => r.ord < p + 1).filter fun r => r.ord < p := by
      intro l
      rw [List.filter_filter]
      refine List.filter_congr fun r _ => ?_
      by_cases hr : r.ord < p
      · simp [hr, Nat.lt_succ_of_lt hr]
      · simp [hr]
    rw [f1, f2, alls_filter, ← f2, show alls D (bounded D s) = bounded D (s + 1) from rfl, bounded_stable D p s hp, ← f1]
  rw [e2, tay, smul_list_sum]
  congr 1
  refine List.map_congr_left fun r hr => ?_
  have hr : r.ord = n := by simpa using (List.mem_filter.1 hr).2
  have h1 : (r.gam : ℚ) ≠ 0 := by exact_mod_cast r.gam_pos.ne'
  have h3 : (n + 1 : ℚ) ≠ 0 := by positivity
  rw [smul_smul, hr]
  congr 1
  push_cast
  field_simp

/-- The weights of the trees: the step, or the error estimate, for weights `w`. -/
theorem weights_series (t : Tab) (w : Nat → ℚ) {f : V → V} {D : Nat} {g : List V → V} (x : V) (hf : Expands (fun v => f (x + v)) D g)
    (p : Nat) : ∃ (q : Nat → V) (N : Nat), ∀ M, N ≤ M → ∀ (h : ℚ) (K : Nat → V)
      (_ : ∀ i < t.stages, f (x + h • ∑ j ∈ range i, t.a i j • K j) = K i),
      h • ∑ i ∈ range t.stages, w i • K i = ∑ n ∈ range p, h ^ (n + 1) • (((bounded D t.stages).filter fun r => r.ord = n).map fun r =>
        (∑ i ∈ range t.stages, w i * r.ph t i) • g (ed g r)).sum + h ^ (p + 1) • ∑ n ∈ range M, h ^ n • q n := by
  obtain ⟨q, N, hq⟩ := split_order (bounded D t.stages) p (fun r => (∑ i ∈ range t.stages, w i * r.ph t i) • g (ed g r))
  refine ⟨q, N, fun M hM h K hK => ?_⟩
  have e := hq M hM h
  rw [next_series t w x hf h K hK]
  have e1 : ((bounded D t.stages).map fun r => (h ^ (r.ord + 1) * ∑ i ∈ range t.stages, w i * r.ph t i) • g (ed g r)).sum =
      h • ((bounded D t.stages).map fun r => h ^ r.ord • (∑ i ∈ range t.stages, w i * r.ph t i) • g (ed g r)).sum := by
    rw [smul_list_sum]
    congr 1
    refine List.map_congr_left fun r _ => ?_
    rw [smul_smul, smul_smul, pow_succ']
  rw [e1, e, smul_add, smul_sum, smul_smul, ← pow_succ']
  congr 1
  exact sum_congr rfl fun n _ => by rw [smul_smul, ← pow_succ']

theorem sum_defect {ι : Type} (l : List ι) (a b : ι → ℚ) (v : ι → V) :
    (l.map fun i => a i • v i).sum = (l.map fun i => b i • v i).sum + (l.map fun i => (a i - b i) • v i).sum := by
  induction l with
  | nil => simp
  | cons i l ih => simp only [List.map_cons, List.sum_cons, ih, sub_smul]; abel

/-- The stages and the weights of a step give the Taylor polynomial, up to the defects and to terms of higher degree. -/
theorem order_expands (m : Method) (f : V → V) (x : V) (D : Nat) (g : List V → V) (hg : Expands (fun v => f (x + v)) D g) : ∃ (y e r q : Nat → V) (N : Nat),
    y 0 = x ∧ e 0 = 0 ∧
    (∀ h : ℚ, f (∑ n ∈ range (m.tab.order + 1), h ^ n • y n) =
      ∑ n ∈ range m.tab.order, h ^ n • (((n : ℚ) + 1) • y (n + 1)) + h ^ m.tab.order • ∑ n ∈ range N, h ^ n • q n) ∧
    (∀ n < m.tab.order, ∃ ts : List (ℚ × ℚ × V), (∀ t ∈ ts, 0 < t.1 ∧ |t.2.1| ≤ treeTol m false) ∧
      y (n + 1) = (ts.map fun t => t.1 • t.2.2).sum ∧ e (n + 1) = (ts.map fun t => t.2.1 • t.2.2).sum) ∧
    ∀ (h : ℚ) (K : Nat → V) (_ : ∀ i < m.tab.stages, f (x + h • ∑ j ∈ range i, m.tab.a i j • K j) = K i),
      x + h • ∑ i ∈ range m.tab.stages, m.tab.b i • K i =
        ∑ n ∈ range (m.tab.order + 1), h ^ n • (y n + e n) + h ^ (m.tab.order + 1) • ∑ n ∈ range N, h ^ n • r n := by
  have hps : m.tab.order ≤ m.tab.stages := by cases m <;> decide
  obtain ⟨q, N1, hq⟩ := tay_solves hg m.tab.stages m.tab.order hps
  obtain ⟨r, N2, hr⟩ := weights_series m.tab m.tab.b x hg m.tab.order
  refine ⟨fun n => match n with | 0 => x | n + 1 => tay D g m.tab.stages n,
    fun n => match n with
      | 0 => 0
      | n + 1 => (((bounded D m.tab.stages).filter fun r => r.ord = n).map fun r =>
        ((∑ i ∈ range m.tab.stages, m.tab.b i * r.ph m.tab i) - 1 / (((r.ord + 1) * r.gam : Nat) : ℚ)) • g (ed g r)).sum,
    r, q, max N1 N2, rfl, rfl, ?_, ?_, ?_⟩
  · intro h
    rw [sum_range_succ', pow_zero, one_smul, add_comm _ x]
    exact hq (max N1 N2) (le_max_left _ _) h
  · intro n hn
    refine ⟨((bounded D m.tab.stages).filter fun r => r.ord = n).map fun r => (1 / (((r.ord + 1) * r.gam : Nat) : ℚ),
      (∑ i ∈ range m.tab.stages, m.tab.b i * r.ph m.tab i) - 1 / (((r.ord + 1) * r.gam : Nat) : ℚ), g (ed g r)), ?_, ?_, ?_⟩
    · intro t ht
      obtain ⟨r, hr, rfl⟩ := List.mem_map.1 ht
      have hr : r.ord = n := by simpa using (List.mem_filter.1 hr).2
      refine ⟨?_, tree_conditions m r (by omega)⟩
      have h1 : (0 : ℚ) < ((r.ord + 1) * r.gam : Nat) := by exact_mod_cast Nat.mul_pos (by omega) r.gam_pos
      exact one_div_pos.2 h1
    · rw [List.map_map]; rfl
    · rw [List.map_map]; rfl
  · intro h K hK
    rw [hr (max N1 N2) (le_max_right _ _) h K hK, sum_range_succ', ← add_assoc]
    congr 1
    rw [add_comm, pow_zero, one_smul, add_zero]
    congr 1
    refine sum_congr rfl fun n _ => ?_
    congr 1
    exact sum_defect _ _ _ _

theorem order_core (m : Method) (f : V → V) (hf : PolyMap f) (x : V) : ∃ (y e r q : Nat → V) (N : Nat),
    y 0 = x ∧ e 0 = 0 ∧
    (∀ h : ℚ, f (∑ n ∈ range (m.tab.order + 1), h ^ n • y n) =
      ∑ n ∈ range m.tab.order, h ^ n • (((n : ℚ) + 1) • y (n + 1)) + h ^ m.tab.order • ∑ n ∈ range N, h ^ n • q n) ∧
    (∀ n < m.tab.order, ∃ ts : List (ℚ × ℚ × V), (∀ t ∈ ts, 0 < t.1 ∧ |t.2.1| ≤ treeTol m false) ∧
      y (n + 1) = (ts.map fun t => t.1 • t.2.2).sum ∧ e (n + 1) = (ts.map fun t => t.2.1 • t.2.2).sum) ∧
    ∀ (h : ℚ) (K : Nat → V) (_ : ∀ i < m.tab.stages, f (x + h • ∑ j ∈ range i, m.tab.a i j • K j) = K i),
      x + h • ∑ i ∈ range m.tab.stages, m.tab.b i • K i =
        ∑ n ∈ range (m.tab.order + 1), h ^ n • (y n + e n) + h ^ (m.tab.order + 1) • ∑ n ∈ range N, h ^ n • r n := by
  obtain ⟨D, g, hg⟩ := (hf.shift x).expands
  exact order_expands m f x D g hg

/-- **C210 (non linear problems), all methods.** One step of a shipped method of order `p` on `x' = f(x)`, `f` any polynomial map.
There are coefficients `y` with `y 0 = x` such that `Y(h) = Σ_{n≤p} h^n y_n` satisfies the differential equation up to terms of degree `p`
and more (so it is the Taylor polynomial of the solution), and the next state is
`Y(h)` plus terms of degree more than `p`, plus a defect `Σ_{n≤p} h^n e_n` due to the rounding of the coefficients: `y_n` and `e_n` are combinations of
the same vectors, the first with positive coefficients, the second with coefficients of at most `treeTol`. -/
theorem nonlinear_order (m : Method) (f : V → V) (hf : PolyMap f) (x : V) : ∃ (y e r q : Nat → V) (N : Nat),
    y 0 = x ∧ e 0 = 0 ∧
    (∀ h : ℚ, f (∑ n ∈ range (m.tab.order + 1), h ^ n • y n) =
      ∑ n ∈ range m.tab.order, h ^ n • (((n : ℚ) + 1) • y (n + 1)) + h ^ m.tab.order • ∑ n ∈ range N, h ^ n • q n) ∧
    (∀ n < m.tab.order, ∃ ts : List (ℚ × ℚ × V), (∀ t ∈ ts, 0 < t.1 ∧ |t.2.1| ≤ treeTol m false) ∧
      y (n + 1) = (ts.map fun t => t.1 • t.2.2).sum ∧ e (n + 1) = (ts.map fun t => t.2.1 • t.2.2).sum) ∧
    ∀ (fixed : Bool) (h : ℚ), ∃ err, rkStep m.tab (fun _ v => some (f v)) fixed x h =
      .ok (∑ n ∈ range (m.tab.order + 1), h ^ n • (y n + e n) + h ^ (m.tab.order + 1) • ∑ n ∈ range N, h ^ n • r n, err) := by
  obtain ⟨y, e, r, q, N, h0, he0, h1, h2, h3⟩ := order_core m f hf x
  refine ⟨y, e, r, q, N, h0, he0, h1, h2, fun fixed h => ?_⟩
  obtain ⟨⟨next, err⟩, hs⟩ := rkStep_total m.tab (method_shaped m) (fun _ v => some (f v)) (fun τ v => ⟨_, rfl⟩) fixed x h
  obtain ⟨K, k1, k2, -⟩ := rkStep_ok m.tab (method_shaped m).1 _ fixed x h next err hs
  refine ⟨err, ?_⟩
  rw [hs]
  congr 2
  rw [k2]
  exact h3 h K fun i hi => by simpa using k1 i hi

/-- **C210 (non linear problems), exact methods.** One step of size `h` is the Taylor polynomial of degree `p` of the solution of `x' = f(x)`, plus
`h^(p+1)` times a polynomial: the local error has order `p + 1` for every polynomial map, in any dimension. -/
theorem nonlinear_exact (m : Method) (hm : Exact m) (f : V → V) (hf : PolyMap f) (x : V) : ∃ (y r q : Nat → V) (N : Nat),
    y 0 = x ∧
    (∀ h : ℚ, f (∑ n ∈ range (m.tab.order + 1), h ^ n • y n) =
      ∑ n ∈ range m.tab.order, h ^ n • (((n : ℚ) + 1) • y (n + 1)) + h ^ m.tab.order • ∑ n ∈ range N, h ^ n • q n) ∧
    ∀ (fixed : Bool) (h : ℚ), ∃ err, rkStep m.tab (fun _ v => some (f v)) fixed x h =
      .ok (∑ n ∈ range (m.tab.order + 1), h ^ n • y n + h ^ (m.tab.order + 1) • ∑ n ∈ range N, h ^ n • r n, err) := by
  obtain ⟨y, e, r, q, N, h0, he0, h1, h2, h3⟩ := nonlinear_order m f hf x
  have ht : treeTol m false = 0 := by rcases hm with rfl | rfl | rfl | rfl <;> rfl
  have he : ∀ n < m.tab.order + 1, e n = 0 := by
    intro n hn
    cases n with
    | zero => exact he0
    | succ n =>
      obtain ⟨ts, t1, -, t2⟩ := h2 n (by omega)
      rw [t2]
      apply List.sum_eq_zero
      intro v hv
      obtain ⟨t, ht1, rfl⟩ := List.mem_map.1 hv
      have := (t1 t ht1).2
      rw [ht, abs_nonpos_iff] at this
      rw [this, zero_smul]
  refine ⟨y, r, q, N, h0, h1, fun fixed h => ?_⟩
  obtain ⟨err, hs⟩ := h3 fixed h
  refine ⟨err, ?_⟩
  rw [hs]
  congr 3
  exact sum_congr rfl fun n hn => by rw [he n (mem_range.1 hn), add_zero]

/-- **C210 (error estimate), all methods.** With an embedded formula of order `p'`, the error estimate of a step of size `h`
is `h^(p'+1)` times a polynomial, up to a defect whose coefficients are combinations of the same vectors as those of the Taylor polynomial of the solution. -/
theorem nonlinear_estimate (m : Method) (f : V → V) (hf : PolyMap f) (x : V) : ∃ (y e r q : Nat → V) (N : Nat),
    y 0 = x ∧
    (∀ h : ℚ, f (∑ n ∈ range (tailOrder m + 1), h ^ n • y n) =
      ∑ n ∈ range (tailOrder m), h ^ n • (((n : ℚ) + 1) • y (n + 1)) + h ^ tailOrder m • ∑ n ∈ range N, h ^ n • q n) ∧
    (∀ n < tailOrder m, ∃ ts : List (ℚ × ℚ × V), (∀ t ∈ ts, 0 < t.1 ∧ |t.2.1| ≤ treeTol m false + treeTol m true) ∧
      y (n + 1) = (ts.map fun t => t.1 • t.2.2).sum ∧ e (n + 1) = (ts.map fun t => t.2.1 • t.2.2).sum) ∧
    ∀ h : ℚ, ∃ next, rkStep m.tab (fun _ v => some (f v)) false x h =
      .ok (next, ∑ n ∈ range (tailOrder m), h ^ (n + 1) • e (n + 1) + h ^ (tailOrder m + 1) • ∑ n ∈ range N, h ^ n • r n) := by
  obtain ⟨D, g, hg⟩ := (hf.shift x).expands
  have t3 : tailOrder m ≤ m.tab.order := by cases m <;> decide
  have t4 : tailOrder m ≤ m.tab.stages := by cases m <;> decide
  obtain ⟨q, N1, hq⟩ := tay_solves hg m.tab.stages (tailOrder m) t4
  obtain ⟨r, N2, hr⟩ := weights_series m.tab (fun i => m.tab.b i - m.tab.b' i) x hg (tailOrder m)
  refine ⟨fun n => match n with | 0 => x | n + 1 => tay D g m.tab.stages n,
    fun n => (((bounded D m.tab.stages).filter fun r => r.ord = n - 1).map fun r =>
        (∑ i ∈ range m.tab.stages, (m.tab.b i - m.tab.b' i) * r.ph m.tab i) • g (ed g r)).sum,
    r, q, max N1 N2, rfl, ?_, ?_, ?_⟩
  · intro h
    rw [sum_range_succ', pow_zero, one_smul, add_comm _ x]
    exact hq (max N1 N2) (le_max_left _ _) h
  · intro n hn
    refine ⟨((bounded D m.tab.stages).filter fun r => r.ord = n).map fun r => (1 / (((r.ord + 1) * r.gam : Nat) : ℚ),
      (∑ i ∈ range m.tab.stages, (m.tab.b i - m.tab.b' i) * r.ph m.tab i), g (ed g r)), ?_, ?_, ?_⟩
    · intro t ht
      obtain ⟨r, hr, rfl⟩ := List.mem_map.1 ht
      have hr : r.ord = n := by simpa using (List.mem_filter.1 hr).2
      have h1 : (0 : ℚ) < ((r.ord + 1) * r.gam : Nat) := by exact_mod_cast Nat.mul_pos (by omega) r.gam_pos
      refine ⟨one_div_pos.2 h1, ?_⟩
      have a1 := tree_conditions m r (by omega)
      have a2 := tail_conditions m r (by omega)
      simp only [sub_mul, sum_sub_distrib]
      rw [abs_le] at a1 a2 ⊢
      constructor <;> linarith [a1.1, a1.2, a2.1, a2.2]
    · rw [List.map_map]; rfl
    · rw [List.map_map]; rfl
  · intro h
    obtain ⟨⟨next, err⟩, hs⟩ := rkStep_total m.tab (method_shaped m) (fun _ v => some (f v)) (fun τ v => ⟨_, rfl⟩) false x h
    obtain ⟨K, h1, -, h3⟩ := rkStep_ok m.tab (method_shaped m).1 _ false x h next err hs
    refine ⟨next, ?_⟩
    rw [hs]
    congr 2
    rw [if_neg (by simp)] at h3
    rw [h3, hr (max N1 N2) (le_max_right _ _) h K (fun i hi => by simpa using h1 i hi)]
    rfl

/-- **C210 (error estimate), exact methods.** -/
theorem nonlinear_estimate_exact (m : Method) (hm : Exact m) (f : V → V) (hf : PolyMap f) (x : V) : ∃ (r : Nat → V) (N : Nat),
    ∀ h : ℚ, ∃ next, rkStep m.tab (fun _ v => some (f v)) false x h =
      .ok (next, h ^ (tailOrder m + 1) • ∑ n ∈ range N, h ^ n • r n) := by
  obtain ⟨y, e, r, q, N, -, -, h2, h3⟩ := nonlinear_estimate m f hf x
  refine ⟨r, N, fun h => ?_⟩
  obtain ⟨next, hs⟩ := h3 h
  refine ⟨next, ?_⟩
  rw [hs]
  congr 2
  rw [sum_eq_zero, zero_add]
  intro n hn
  obtain ⟨ts, t1, -, t2⟩ := h2 n (mem_range.1 hn)
  have ht : treeTol m false + treeTol m true = 0 := by rcases hm with rfl | rfl | rfl | rfl <;> exact add_zero (0 : ℚ)
  rw [t2, List.sum_eq_zero, smul_zero]
  intro v hv
  obtain ⟨t, ht1, rfl⟩ := List.mem_map.1 hv
  have := (t1 t ht1).2
  rw [ht, abs_nonpos_iff] at this
  rw [this, zero_smul]

/-! ### Problems which depend on the time -/

/-- A polynomial whose derivative is one up to the order is the time itself. -/
theorem time_is_time (p : Nat) (hp : 1 ≤ p) (u q : Nat → ℚ) (N : Nat) (h0 : u 0 = 0)
    (h : ∀ x : ℚ, 1 = ∑ n ∈ range p, x ^ n • (((n : ℚ) + 1) • u (n + 1)) + x ^ p • ∑ n ∈ range N, x ^ n • q n) (x : ℚ) :
    ∑ n ∈ range (p + 1), x ^ n • u n = x := by
  have hP : (∑ n ∈ range p, Polynomial.C (((n : ℚ) + 1) * u (n + 1)) * Polynomial.X ^ n) +
      (∑ n ∈ range N, Polynomial.C (q n) * Polynomial.X ^ n) * Polynomial.X ^ p = (1 : Polynomial ℚ) := by
    apply Polynomial.funext
    intro x
    rw [Polynomial.eval_one]
    refine Eq.trans ?_ (h x).symm
    simp only [Polynomial.eval_add, Polynomial.eval_mul, Polynomial.eval_finsetSum, Polynomial.eval_C, Polynomial.eval_pow, Polynomial.eval_X,
      smul_eq_mul]
    congr 1
    · exact sum_congr rfl fun n _ => by ring
    · rw [mul_comm]
      congr 1
      exact sum_congr rfl fun n _ => by ring
  have hc : ∀ n < p, ((n : ℚ) + 1) * u (n + 1) = if n = 0 then 1 else 0 := by
    intro n hn
    have e := congrArg (fun P => Polynomial.coeff P n) hP
    rw [Polynomial.coeff_add, Polynomial.coeff_mul_X_pow', if_neg (by omega), add_zero, Polynomial.finset_sum_coeff, Polynomial.coeff_one] at e
    simp only [Polynomial.coeff_C_mul, Polynomial.coeff_X_pow, mul_ite, mul_one, mul_zero] at e
    rw [sum_ite_eq, if_pos (mem_range.2 hn)] at e
    exact e
  rw [sum_range_succ', h0, smul_zero, add_zero]
  obtain ⟨p, rfl⟩ : ∃ k, p = k + 1 := ⟨p - 1, by omega⟩
  rw [sum_range_succ', sum_eq_zero]
  · have := hc 0 (by omega)
    simp only [Nat.cast_zero, zero_add, one_mul, if_true] at this
    rw [zero_add, zero_add, this, pow_one, smul_eq_mul, mul_one]
  · intro n hn
    have := hc (n + 1) (by have := mem_range.1 hn; omega)
    rw [if_neg (by omega)] at this
    have h1 : ((n + 1 : Nat) : ℚ) + 1 ≠ 0 := by positivity
    rw [(mul_eq_zero.1 this).resolve_left h1, smul_zero]

/-- **C210 (problems which depend on the time), all methods.** The same for `x' = f(τ, x)`, `f` polynomial in the time since the start of the step
and in the state: the nodes at which the code evaluates the dynamics are the right ones. -/
theorem time_order (m : Method) (f : ℚ → V → V) (hf : PolyMap fun w : ℚ × V => ((1 : ℚ), f w.1 w.2)) (x : V) :
    ∃ (y e r q : Nat → V) (N : Nat), y 0 = x ∧ e 0 = 0 ∧
    (∀ h : ℚ, f h (∑ n ∈ range (m.tab.order + 1), h ^ n • y n) =
      ∑ n ∈ range m.tab.order, h ^ n • (((n : ℚ) + 1) • y (n + 1)) + h ^ m.tab.order • ∑ n ∈ range N, h ^ n • q n) ∧
    (∀ n < m.tab.order, ∃ ts : List (ℚ × ℚ × V), (∀ t ∈ ts, 0 < t.1 ∧ |t.2.1| ≤ treeTol m false) ∧
      y (n + 1) = (ts.map fun t => t.1 • t.2.2).sum ∧ e (n + 1) = (ts.map fun t => t.2.1 • t.2.2).sum) ∧
    ∀ (fixed : Bool) (h : ℚ), ∃ err, rkStep m.tab (fun τ v => some (f τ v)) fixed x h =
      .ok (∑ n ∈ range (m.tab.order + 1), h ^ n • (y n + e n) + h ^ (m.tab.order + 1) • ∑ n ∈ range N, h ^ n • r n, err) := by
  obtain ⟨y, e, r, q, N, h0, he0, h1, h2, h3⟩ := order_core m _ hf ((0 : ℚ), x)
  have fs : ∀ (s : Finset Nat) (k : Nat → ℚ × V), (∑ n ∈ s, k n).1 = ∑ n ∈ s, (k n).1 := fun s k => Prod.fst_sum
  have sn : ∀ (s : Finset Nat) (k : Nat → ℚ × V), (∑ n ∈ s, k n).2 = ∑ n ∈ s, (k n).2 := fun s k => Prod.snd_sum
  have hp : 1 ≤ m.tab.order := by cases m <;> decide
  have ht : ∀ h : ℚ, (∑ n ∈ range (m.tab.order + 1), h ^ n • y n).1 = h := by
    intro h
    rw [fs]
    refine time_is_time m.tab.order hp (fun n => (y n).1) (fun n => (q n).1) N (by rw [h0]) (fun x => ?_) h
    have := congrArg Prod.fst (h1 x)
    simpa only [Prod.fst_add, Prod.smul_fst, fs] using this
  refine ⟨fun n => (y n).2, fun n => (e n).2, fun n => (r n).2, fun n => (q n).2, N, by simp only [h0], by simp only [he0]; rfl, ?_, ?_, ?_⟩
  · intro h
    have := congrArg Prod.snd (h1 h)
    simp only [ht] at this
    simpa only [Prod.snd_add, Prod.smul_snd, sn] using this
  · intro n hn
    obtain ⟨ts, t1, t2, t3⟩ := h2 n hn
    refine ⟨ts.map fun t => (t.1, t.2.1, t.2.2.2), ?_, ?_, ?_⟩
    · intro t ht
      obtain ⟨t', ht', rfl⟩ := List.mem_map.1 ht
      exact t1 t' ht'
    · show (y (n + 1)).2 = _
      rw [t2, List.map_map, ← LinearMap.snd_apply (R := ℚ), map_list_sum, List.map_map]; rfl
    · show (e (n + 1)).2 = _
      rw [t3, List.map_map, ← LinearMap.snd_apply (R := ℚ), map_list_sum, List.map_map]; rfl
  · intro fixed h
    obtain ⟨⟨next, err⟩, hs⟩ := rkStep_total m.tab (method_shaped m) (fun τ v => some (f τ v)) (fun τ v => ⟨_, rfl⟩) fixed x h
    obtain ⟨K, k1, k2, -⟩ := rkStep_ok m.tab (method_shaped m).1 _ fixed x h next err hs
    refine ⟨err, ?_⟩
    rw [hs]
    congr 2
    rw [k2]
    have := h3 h (fun i => ((1 : ℚ), K i)) fun i hi => by
      refine Prod.ext rfl ?_
      have ki := k1 i hi
      simp only [Option.some.injEq] at ki
      rw [← ki]
      simp only [Prod.fst_add, Prod.snd_add, Prod.smul_fst, Prod.smul_snd, fs, sn, smul_eq_mul, mul_one, zero_add]
      rw [Tab.c, sum_range_list, mul_comm]
    have := congrArg Prod.snd this
    simpa only [Prod.snd_add, Prod.smul_snd, sn] using this

/-! ### The Taylor polynomial is determined -/

/-- The polynomial curves. -/
def Curve (c : ℚ → V) : Prop := ∃ (N : Nat) (v : Nat → V), ∀ h, c h = ∑ n ∈ range N, h ^ n • v n

theorem Curve.const (v : V) : Curve fun _ => v := ⟨1, fun _ => v, fun h => by simp⟩

theorem Curve.add {a b : ℚ → V} (ha : Curve a) (hb : Curve b) : Curve fun h => a h + b h := by
  obtain ⟨N, v, hv⟩ := ha
  obtain ⟨M, w, hw⟩ := hb
  refine ⟨max N M, fun n => (if n < N then v n else 0) + if n < M then w n else 0, fun h => ?_⟩
  simp only [smul_add, sum_add_distrib, smul_ite, smul_zero]
  have e : ∀ (K L : Nat) (u : Nat → V), K ≤ L → ∑ n ∈ range L, (if n < K then h ^ n • u n else 0) = ∑ n ∈ range K, h ^ n • u n := by
    intro K L u hKL
    rw [← sum_filter]
    congr 1
    ext n
    simp only [mem_filter, mem_range]
    omega
  rw [e _ _ _ (le_max_left _ _), e _ _ _ (le_max_right _ _), hv, hw]

theorem Curve.sum {ι : Type} (s : List ι) (c : ι → ℚ → V) (h : ∀ i ∈ s, Curve (c i)) : Curve fun x => (s.map fun i => c i x).sum := by
  induction s with
  | nil => exact Curve.const 0
  | cons a s ih =>
    simp only [List.map_cons, List.sum_cons]
    exact (h a (by simp)).add (ih fun i hi => h i (by simp [hi]))

theorem Curve.pow {c : ℚ → V} (hc : Curve c) (k : Nat) : Curve fun h => h ^ k • c h := by
  obtain ⟨N, v, hv⟩ := hc
  refine ⟨k + N, fun n => if n < k then 0 else v (n - k), fun h => ?_⟩
  show h ^ k • c h = _
  rw [sum_range_add, sum_eq_zero, zero_add, hv, smul_sum]
  · refine sum_congr rfl fun n _ => ?_
    simp only
    rw [if_neg (by omega), Nat.add_sub_cancel_left, pow_add, mul_smul]
  · intro n hn
    simp only
    rw [if_pos (mem_range.1 hn), smul_zero]

theorem Curve.lin {c : ℚ → V} (hc : Curve c) (L : V →ₗ[ℚ] V) : Curve fun h => L (c h) := by
  obtain ⟨N, v, hv⟩ := hc
  exact ⟨N, fun n => L (v n), fun h => by simp only [hv, map_sum, map_smul]⟩

theorem Curve.bil {a b : ℚ → V} (ha : Curve a) (hb : Curve b) (B : V →ₗ[ℚ] V →ₗ[ℚ] V) : Curve fun h => B (a h) (b h) := by
  obtain ⟨N, v, hv⟩ := ha
  have : (fun h => B (a h) (b h)) = fun h => ((List.range N).map fun n => h ^ n • B (v n) (b h)).sum := by
    funext h
    rw [hv, map_sum, LinearMap.sum_apply, sum_range_list]
    simp only [map_smul, LinearMap.smul_apply]
  rw [this]
  exact Curve.sum _ _ fun n _ => (hb.lin (B (v n))).pow n

theorem PolyMap.curve {f : V → V} (hf : PolyMap f) {a : ℚ → V} (ha : Curve a) : Curve fun h => f (a h) := by
  induction hf with
  | const c => exact Curve.const c
  | lin L => exact ha.lin L
  | add _ _ ih1 ih2 => exact ih1.add ih2
  | bil B _ _ ih1 ih2 => exact ih1.bil ih2 B

theorem PolyMap.perturb {f : V → V} (hf : PolyMap f) {a b : ℚ → V} (ha : Curve a) (hb : Curve b) (k : Nat) :
    ∃ c, Curve c ∧ ∀ h, f (a h + h ^ k • b h) = f (a h) + h ^ k • c h := by
  induction hf with
  | const c => exact ⟨fun _ => 0, Curve.const 0, fun h => by simp⟩
  | lin L => exact ⟨_, hb.lin L, fun h => by simp only [map_add, map_smul]⟩
  | add _ _ ih1 ih2 =>
    obtain ⟨c1, h1, e1⟩ := ih1
    obtain ⟨c2, h2, e2⟩ := ih2
    exact ⟨_, h1.add h2, fun h => by simp only [e1, e2, smul_add]; abel⟩
  | bil B hp hq ih1 ih2 =>
    obtain ⟨c1, h1, e1⟩ := ih1
    obtain ⟨c2, h2, e2⟩ := ih2
    refine ⟨_, ((h1.bil (hq.curve ha) B).add ((hp.curve ha).bil h2 B)).add ((h1.bil h2 B).pow k), fun h => ?_⟩
    simp only [e1, e2, map_add, map_smul, LinearMap.add_apply, LinearMap.smul_apply]
    module

/-- A polynomial which vanishes for all steps but zero has no constant term. -/
theorem Curve.const_zero {c : ℚ → V} (hc : Curve c) (v : V) (h : ∀ x : ℚ, x ≠ 0 → v + x • c x = 0) : v = 0 := by
  obtain ⟨N, w, hw⟩ := hc
  rw [← Module.forall_dual_apply_eq_zero_iff ℚ]
  intro φ
  have hP : (Polynomial.C (φ v) + (∑ n ∈ range N, Polynomial.C (φ (w n)) * Polynomial.X ^ n) * Polynomial.X) * Polynomial.X = 0 := by
    apply Polynomial.funext
    intro x
    simp only [Polynomial.eval_add, Polynomial.eval_mul, Polynomial.eval_finsetSum, Polynomial.eval_C, Polynomial.eval_pow, Polynomial.eval_X,
      Polynomial.eval_zero]
    by_cases hx : x = 0
    · rw [hx, mul_zero]
    · have := congrArg φ (h x hx)
      rw [map_add, map_smul, hw, map_sum, map_zero] at this
      simp only [map_smul, smul_eq_mul] at this
      rw [mul_comm (∑ n ∈ range N, φ (w n) * x ^ n), sum_congr rfl fun n _ => mul_comm (φ (w n)) (x ^ n), this, zero_mul]
  have := (mul_eq_zero.1 hP).resolve_right Polynomial.X_ne_zero
  have := congrArg (Polynomial.eval 0) this
  simpa using this

/-- The coefficients of the theorems above are determined by the equation: there is one Taylor polynomial. -/
theorem taylor_unique (f : V → V) (hf : PolyMap f) (p : Nat) (y y' q q' : Nat → V) (N N' : Nat) (h0 : y 0 = y' 0)
    (h : ∀ h : ℚ, f (∑ n ∈ range (p + 1), h ^ n • y n) =
      ∑ n ∈ range p, h ^ n • (((n : ℚ) + 1) • y (n + 1)) + h ^ p • ∑ n ∈ range N, h ^ n • q n)
    (h' : ∀ h : ℚ, f (∑ n ∈ range (p + 1), h ^ n • y' n) =
      ∑ n ∈ range p, h ^ n • (((n : ℚ) + 1) • y' (n + 1)) + h ^ p • ∑ n ∈ range N', h ^ n • q' n) :
    ∀ n ≤ p, y n = y' n := by
  have key : ∀ n, n ≤ p → ∀ i ≤ n, y i = y' i := by
    intro n
    induction n with
    | zero => intro _ i hi; rw [show i = 0 by omega, h0]
    | succ n ih =>
      intro hn i hi
      by_cases hin : i ≤ n
      · exact ih (by omega) i hin
      · rw [show i = n + 1 by omega]
        have ihn := ih (by omega)
        obtain ⟨k, rfl⟩ : ∃ k, p = n + 1 + k := ⟨p - n - 1, by omega⟩
        have eb : ∀ h : ℚ, ∑ m ∈ range (n + 1 + k + 1), h ^ m • y' m = ∑ m ∈ range (n + 1 + k + 1), h ^ m • y m +
            h ^ (n + 1) • ∑ j ∈ range (k + 1), h ^ j • (y' (n + 1 + j) - y (n + 1 + j)) := by
          intro h
          rw [show n + 1 + k + 1 = (n + 1) + (k + 1) by omega, sum_range_add, sum_range_add _ (n + 1) (k + 1), smul_sum, add_assoc, ← sum_add_distrib]
          congr 1
          · exact sum_congr rfl fun m hm => by rw [ihn m (by have := mem_range.1 hm; omega)]
          · exact sum_congr rfl fun j _ => by rw [smul_smul, ← pow_add, smul_sub]; abel
        obtain ⟨c, hc, ec⟩ := hf.perturb (a := fun h => ∑ m ∈ range (n + 1 + k + 1), h ^ m • y m)
          (b := fun h => ∑ j ∈ range (k + 1), h ^ j • (y' (n + 1 + j) - y (n + 1 + j))) ⟨_, _, fun _ => rfl⟩ ⟨_, _, fun _ => rfl⟩ (n + 1)
        have hR : Curve fun h => ∑ j ∈ range k, h ^ j • ((((n + 1 + j : Nat) : ℚ) + 1) • (y' (n + 1 + j + 1) - y (n + 1 + j + 1))) :=
          ⟨_, _, fun _ => rfl⟩
        have hQ : Curve fun h => ∑ j ∈ range N', h ^ j • q' j := ⟨_, _, fun _ => rfl⟩
        have hQ2 : Curve fun h => ∑ j ∈ range N, h ^ j • (- q j) := ⟨_, _, fun _ => rfl⟩
        have hc2 : Curve fun h => (-LinearMap.id : V →ₗ[ℚ] V) (c h) := hc.lin _
        have hz := Curve.const_zero ((hR.add ((hQ.add hQ2).pow k)).add hc2) (((n : ℚ) + 1) • (y' (n + 1) - y (n + 1))) fun x hx => by
          have e := ec x
          rw [← eb, h', h] at e
          have s1 : ∀ z : Nat → V, ∑ m ∈ range (n + 1 + k), x ^ m • (((m : ℚ) + 1) • z (m + 1)) =
              ∑ m ∈ range n, x ^ m • (((m : ℚ) + 1) • z (m + 1)) + x ^ n • (((n : ℚ) + 1) • z (n + 1)) +
                x ^ (n + 1) • ∑ j ∈ range k, x ^ j • ((((n + 1 + j : Nat) : ℚ) + 1) • z (n + 1 + j + 1)) := by
            intro z
            rw [sum_range_add, sum_range_succ, smul_sum]
            congr 1
            exact sum_congr rfl fun j _ => by rw [pow_add x (n + 1) j, mul_smul]
          rw [s1 y, s1 y', sum_congr rfl fun m hm => by rw [← ihn (m + 1) (by have := mem_range.1 hm; omega)]] at e
          have e2 : x ^ n • ((((n : ℚ) + 1) • (y' (n + 1) - y (n + 1))) + x • ((∑ j ∈ range k, x ^ j • ((((n + 1 + j : Nat) : ℚ) + 1) •
              (y' (n + 1 + j + 1) - y (n + 1 + j + 1))) + x ^ k • (∑ j ∈ range N', x ^ j • q' j + ∑ j ∈ range N, x ^ j • (- q j))) +
                (-LinearMap.id : V →ₗ[ℚ] V) (c x))) = 0 := by
            rw [LinearMap.neg_apply, LinearMap.id_apply]
            simp only [smul_sub, sum_sub_distrib, smul_neg, sum_neg_distrib]
            rw [pow_add x (n + 1) k] at e
            generalize (∑ j ∈ range k, x ^ j • ((((n + 1 + j : Nat) : ℚ) + 1) • y' (n + 1 + j + 1))) = R' at e ⊢
            generalize (∑ j ∈ range k, x ^ j • ((((n + 1 + j : Nat) : ℚ) + 1) • y (n + 1 + j + 1))) = R at e ⊢
            generalize (∑ j ∈ range N', x ^ j • q' j) = Q' at e ⊢
            generalize (∑ j ∈ range N, x ^ j • q j) = Q at e ⊢
            generalize (∑ m ∈ range n, x ^ m • (((m : ℚ) + 1) • y (m + 1))) = S at e ⊢
            have e3 := sub_eq_zero.2 e
            rw [← e3]
            module
          exact (smul_eq_zero.1 e2).resolve_left (pow_ne_zero n hx)
        have h1 : ((n : ℚ) + 1) ≠ 0 := by positivity
        exact (sub_eq_zero.1 ((smul_eq_zero.1 hz).resolve_left h1)).symm
  exact fun n hn => key n hn n le_rfl

/-- The hypotheses are met: the logistic equation `x' = x - x²`, and `x' = τ x`, in which the time appears. -/
example : PolyMap fun x : ℚ => x + (-LinearMap.mul ℚ ℚ) x x :=
  .add (.lin LinearMap.id) (.bil (-LinearMap.mul ℚ ℚ) (.lin LinearMap.id) (.lin LinearMap.id))

example := nonlinear_exact .dormandPrince45 (Or.inl rfl) (fun x : ℚ => x + (-LinearMap.mul ℚ ℚ) x x)
  (.add (.lin LinearMap.id) (.bil (-LinearMap.mul ℚ ℚ) (.lin LinearMap.id) (.lin LinearMap.id))) (1 / 2)

theorem exTime : PolyMap fun w : ℚ × ℚ => ((1 : ℚ), w.1 * w.2) := by
  have h := PolyMap.add (PolyMap.const ((1 : ℚ), (0 : ℚ))) (PolyMap.bil
    (((LinearMap.mul ℚ ℚ).compl₁₂ (LinearMap.fst ℚ ℚ ℚ) (LinearMap.snd ℚ ℚ ℚ)).compr₂ (LinearMap.inr ℚ ℚ ℚ))
    (PolyMap.lin LinearMap.id) (PolyMap.lin LinearMap.id))
  have e : (fun w : ℚ × ℚ => ((1 : ℚ), w.1 * w.2)) = fun x => ((1 : ℚ), (0 : ℚ)) +
      (((LinearMap.mul ℚ ℚ).compl₁₂ (LinearMap.fst ℚ ℚ ℚ) (LinearMap.snd ℚ ℚ ℚ)).compr₂ (LinearMap.inr ℚ ℚ ℚ))
        ((LinearMap.id : ℚ × ℚ →ₗ[ℚ] ℚ × ℚ) x) ((LinearMap.id : ℚ × ℚ →ₗ[ℚ] ℚ × ℚ) x) := by
    funext w
    simp
  rw [e]
  exact h

example := time_order .rungeKutta89 (fun τ v : ℚ => τ * v) exTime 1

/-- `taylor_unique` applies to `x' = x²` from one, whose solution `1 / (1 - h)` has the coefficients one: here up to the degree one. -/
example := taylor_unique (fun x : ℚ => LinearMap.mul ℚ ℚ x x) (.bil _ (.lin LinearMap.id) (.lin LinearMap.id)) 1 (fun _ => 1) (fun _ => 1)
  (fun n => if n = 0 then 2 else if n = 1 then 1 else 0) (fun n => if n = 0 then 2 else if n = 1 then 1 else 0) 2 2 rfl
  (fun h => by simp [sum_range_succ]; ring) (fun h => by simp [sum_range_succ]; ring)

example := nonlinear_estimate_exact .dormandPrince45 (.inl rfl) (fun x : ℚ => x + (-LinearMap.mul ℚ ℚ) x x)
  (.add (.lin LinearMap.id) (.bil (-LinearMap.mul ℚ ℚ) (.lin LinearMap.id) (.lin LinearMap.id))) (1 / 2)

end Verif.Rk
