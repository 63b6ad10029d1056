import Verif.Process.Arc
import Verif.Process.Short
/-!
C250: what the values of the measurements change in a solution, with deviation tracking.
-/
namespace Verif.Analysis
open Matrix Verif.Kalman Verif.Process

variable {T K F Ω : Type} [DecidableEq K] {s a m : Nat}

/-! ### Specification -/

/-- Three results: all errors, all panics, or values in a relation. -/
inductive Tri {α : Type} (R : α → α → α → Prop) : Res α → Res α → Res α → Prop
  | ok {x y z} : R x y z → Tri R (.ok x) (.ok y) (.ok z)
  | err : Tri R .err .err .err
  | panic : Tri R .panic .panic .panic

/-- Three results of loops with fuel: all without fuel, or all with it. -/
inductive TriO {α : Type} (R : α → α → α → Prop) : Option (Res α) → Option (Res α) → Option (Res α) → Prop
  | none : TriO R none none none
  | some {x y z} : Tri R x y z → TriO R (some x) (some y) (some z)

/-- Three lists of the same length, whose elements are in a relation. -/
inductive All3 {α : Type} (R : α → α → α → Prop) : List α → List α → List α → Prop
  | nil : All3 R [] [] []
  | cons {x y z xs ys zs} : R x y z → All3 R xs ys zs → All3 R (x :: xs) (y :: ys) (z :: zs)

/-- The vector at the fraction `t` of the way from `x` to `y`. -/
def mix {n : Nat} (t : ℝ) (x y : Fin n → ℝ) : Fin n → ℝ := (1 - t) • x + t • y

/-- Two estimates which only differ in their deviations. -/
def SameButDev (x y : Est Ω s) : Prop :=
  y.nominal = x.nominal ∧ y.covar = x.covar ∧ y.covarBar = x.covarBar ∧ y.stm = x.stm ∧ y.predicted = x.predicted

/-- Estimates which only differ in their deviations; the third deviation is the mixture of the two others. -/
def EstMix (t : ℝ) (x y z : Est Ω s) : Prop :=
  SameButDev x y ∧ SameButDev x z ∧ z.dev = mix t x.dev y.dev

/-- Residuals of accepted measurements with the same epochs, computed observations and expected sizes of the prefit; the prefits, the postfits, the
whitened residuals and the observations of the third are the mixtures. -/
def ResidMix (t : ℝ) (x y z : Resid m) : Prop :=
  (y.epoch = x.epoch ∧ y.noise = x.noise ∧ y.computedObs = x.computedObs ∧ y.rejected = false) ∧
  (z.epoch = x.epoch ∧ z.noise = x.noise ∧ z.computedObs = x.computedObs ∧ z.rejected = false) ∧ x.rejected = false ∧
  z.prefit = mix t x.prefit y.prefit ∧ z.whitened = mix t x.whitened y.whitened ∧ z.realObs = mix t x.realObs y.realObs ∧
  ∃ u v, x.postfit = some u ∧ y.postfit = some v ∧ z.postfit = some (mix t u v)

/-- Entries of solutions: the estimates and the residuals as above, with the same gains, trackers and types. -/
inductive EntryMix (t : ℝ) : Entry T K Ω s m → Entry T K Ω s m → Entry T K Ω s m → Prop
  | time {x y z} : EstMix t x y z → EntryMix t (.time x) (.time y) (.time z)
  | msr {x y z r r' r'' g tr ks} : EstMix t x y z → ResidMix t r r' r'' → EntryMix t (.msr x r g tr ks) (.msr y r' g tr ks) (.msr z r'' g tr ks)

/-- Two measurements with the same tracker, epoch and mark, and with values for the same types; a value is finite in both or in none. -/
def SameShape (z z' : Meas T K) : Prop :=
  z'.tracker = z.tracker ∧ z'.epoch = z.epoch ∧ z'.rejected = z.rejected ∧
  ∀ k, (look z'.data k).map Option.isSome = (look z.data k).map Option.isSome

/-- Measurements of the same shape; the finite values of the third are the mixtures of those of the two others. -/
def MeasMix (t : ℝ) (x y z : Meas T K) : Prop :=
  SameShape x y ∧ SameShape x z ∧
  ∀ k u v, look x.data k = some (some u) → look y.data k = some (some v) → look z.data k = some (some ((1 - t) * u + t * v))

/-! ### The filter -/

/-- The filters: deviation tracking, and only the deviations differ. -/
def FilterMix (t : ℝ) (x y z : KF F Ω s a) : Prop :=
  x.variant = .deviationTracking ∧ EstMix t x.prev y.prev z.prev ∧
  (y.noises = x.noises ∧ y.variant = x.variant ∧ y.prevUsedSnc = x.prevUsedSnc) ∧
  z.noises = x.noises ∧ z.variant = x.variant ∧ z.prevUsedSnc = x.prevUsedSnc

theorem mulVec_mix {n k : Nat} (M : Matrix (Fin n) (Fin k) ℝ) (t : ℝ) (x y : Fin k → ℝ) :
    M *ᵥ mix t x y = mix t (M *ᵥ x) (M *ᵥ y) := by
  simp only [mix, mulVec_add, mulVec_smul]

theorem mix_sub {n : Nat} (t : ℝ) (x y u v : Fin n → ℝ) : mix t x y - mix t u v = mix t (x - u) (y - v) := by
  funext i
  simp only [mix, Pi.sub_apply, Pi.add_apply, Pi.smul_apply, smul_eq_mul]
  ring

theorem mix_add {n : Nat} (t : ℝ) (x y u v : Fin n → ℝ) : mix t x y + mix t u v = mix t (x + u) (y + v) := by
  funext i
  simp only [mix, Pi.add_apply, Pi.smul_apply, smul_eq_mul]
  ring

theorem mix_self {n : Nat} (t : ℝ) (x : Fin n → ℝ) : mix t x x = x := by
  funext i
  simp only [mix, Pi.add_apply, Pi.smul_apply, smul_eq_mul]
  ring

theorem Tri.bind {α β : Type} {R : α → α → α → Prop} {Q : β → β → β → Prop} {x y z : Res α} {f g h : α → Res β} (hx : Tri R x y z)
    (hf : ∀ u v w, R u v w → Tri Q (f u) (g v) (h w)) : Tri Q (x.bind f) (y.bind g) (z.bind h) := by
  cases hx with
  | ok h => exact hf _ _ _ h
  | err => exact .err
  | panic => exact .panic

theorem Tri.same {α β : Type} {Q : β → β → β → Prop} (x : Res α) {f g h : α → Res β} (hf : ∀ u, Tri Q (f u) (g u) (h u)) :
    Tri Q (x.bind f) (x.bind g) (x.bind h) := by
  cases x with
  | ok u => exact hf u
  | err => exact .err
  | panic => exact .panic

theorem time_mix {dcm : F → Ω → Option (Matrix (Fin 3) (Fin 3) ℝ)} {t : ℝ} {k₁ k₂ k₃ : KF F Ω s a} (hk : FilterMix t k₁ k₂ k₃) (x : Nominal Ω s) :
    Tri (fun u v w => FilterMix t u.1 v.1 w.1 ∧ EstMix t u.2 v.2 w.2) (k₁.timeUpdate dcm x) (k₂.timeUpdate dcm x) (k₃.timeUpdate dcm x) := by
  obtain ⟨⟨n₁, d₁, c₁, b₁, s₁, p₁⟩, q₁, v₁, u₁⟩ := k₁
  obtain ⟨⟨n₂, d₂, c₂, b₂, s₂, p₂⟩, q₂, v₂, u₂⟩ := k₂
  obtain ⟨⟨n₃, d₃, c₃, b₃, s₃, p₃⟩, q₃, v₃, u₃⟩ := k₃
  obtain ⟨hv, ⟨⟨h1, h2, h3, h4, h5⟩, ⟨h6, h7, h8, h9, h10⟩, hd⟩, ⟨h11, h12, h13⟩, h14, h15, h16⟩ := hk
  simp only at hv h1 h2 h3 h4 h5 h6 h7 h8 h9 h10 hd h11 h12 h13 h14 h15 h16
  subst hv h1 h2 h3 h4 h5 h6 h7 h8 h9 h10 hd h11 h12 h13 h14 h15 h16
  unfold KF.timeUpdate
  cases x.stm with
  | none => exact .err
  | some stm =>
    refine Tri.same (KF.predict dcm ⟨⟨n₃, d₁, c₃, b₃, s₃, p₃⟩, q₃, .deviationTracking, u₃⟩ x stm) fun pu => .ok ?_
    have e : EstMix t (⟨x, stm *ᵥ d₁, pu.1, pu.1, stm, true⟩ : Est Ω s) ⟨x, stm *ᵥ d₂, pu.1, pu.1, stm, true⟩
        ⟨x, stm *ᵥ mix t d₁ d₂, pu.1, pu.1, stm, true⟩ :=
      ⟨⟨rfl, rfl, rfl, rfl, rfl⟩, ⟨rfl, rfl, rfl, rfl, rfl⟩, mulVec_mix _ _ _ _⟩
    simp only [if_true]
    exact ⟨⟨rfl, e, ⟨rfl, rfl, rfl⟩, rfl, rfl, rfl⟩, e⟩

theorem msr_mix {chol : Chol} {dcm : F → Ω → Option (Matrix (Fin 3) (Fin 3) ℝ)} {t : ℝ} {k₁ k₂ k₃ : KF F Ω s a} (hk : FilterMix t k₁ k₂ k₃)
    (x : Nominal Ω s) (y₁ y₂ c : Fin m → ℝ) (R : Matrix (Fin m) (Fin m) ℝ) (H : Matrix (Fin m) (Fin s) ℝ) :
    Tri (fun u v w => FilterMix t u.1 v.1 w.1 ∧ EstMix t u.2.1 v.2.1 w.2.1 ∧ ResidMix t u.2.2.1 v.2.2.1 w.2.2.1 ∧
        v.2.2.2 = u.2.2.2 ∧ w.2.2.2 = u.2.2.2)
      (k₁.measurementUpdate chol dcm x ⟨y₁, c, R, H⟩ none) (k₂.measurementUpdate chol dcm x ⟨y₂, c, R, H⟩ none)
      (k₃.measurementUpdate chol dcm x ⟨mix t y₁ y₂, c, R, H⟩ none) := by
  obtain ⟨⟨n₁, d₁, c₁, b₁, s₁, p₁⟩, q₁, v₁, u₁⟩ := k₁
  obtain ⟨⟨n₂, d₂, c₂, b₂, s₂, p₂⟩, q₂, v₂, u₂⟩ := k₂
  obtain ⟨⟨n₃, d₃, c₃, b₃, s₃, p₃⟩, q₃, v₃, u₃⟩ := k₃
  obtain ⟨hv, ⟨⟨h1, h2, h3, h4, h5⟩, ⟨h6, h7, h8, h9, h10⟩, hd⟩, ⟨h11, h12, h13⟩, h14, h15, h16⟩ := hk
  simp only at hv h1 h2 h3 h4 h5 h6 h7 h8 h9 h10 hd h11 h12 h13 h14 h15 h16
  subst hv h1 h2 h3 h4 h5 h6 h7 h8 h9 h10 hd h11 h12 h13 h14 h15 h16
  unfold KF.measurementUpdate
  cases x.stm with
  | none => exact .err
  | some stm =>
    refine Tri.same (KF.predict dcm ⟨⟨n₃, d₁, c₃, b₃, s₃, p₃⟩, q₃, .deviationTracking, u₃⟩ x stm) fun pu => ?_
    simp only
    cases hL : factorOf chol (H * (pu.1 * Hᵀ) + R) R with
    | none => exact .err
    | some L =>
      simp only [rejects, Bool.false_eq_true, if_false]
      refine Tri.same (gainOf chol pu.1 H (H * (pu.1 * Hᵀ) + R)) fun G => .ok ?_
      have hy : mix t y₁ y₂ - c = mix t (y₁ - c) (y₂ - c) := by
        conv_lhs => rw [← mix_self t c]
        exact mix_sub _ _ _ _ _
      have hi : mix t y₁ y₂ - c - H *ᵥ (stm *ᵥ mix t d₁ d₂) =
          mix t (y₁ - c - H *ᵥ (stm *ᵥ d₁)) (y₂ - c - H *ᵥ (stm *ᵥ d₂)) := by
        rw [hy, mulVec_mix, mulVec_mix, mix_sub]
      have e : EstMix t (⟨x, stm *ᵥ d₁ + G *ᵥ (y₁ - c - H *ᵥ (stm *ᵥ d₁)), joseph pu.1 H R G, pu.1, stm, false⟩ : Est Ω s)
          ⟨x, stm *ᵥ d₂ + G *ᵥ (y₂ - c - H *ᵥ (stm *ᵥ d₂)), joseph pu.1 H R G, pu.1, stm, false⟩
          ⟨x, stm *ᵥ mix t d₁ d₂ + G *ᵥ (mix t y₁ y₂ - c - H *ᵥ (stm *ᵥ mix t d₁ d₂)), joseph pu.1 H R G, pu.1, stm, false⟩ := by
        refine ⟨⟨rfl, rfl, rfl, rfl, rfl⟩, ⟨rfl, rfl, rfl, rfl, rfl⟩, ?_⟩
        show stm *ᵥ mix t d₁ d₂ + G *ᵥ (mix t y₁ y₂ - c - H *ᵥ (stm *ᵥ mix t d₁ d₂)) = _
        rw [hi, mulVec_mix, mulVec_mix, mix_add]
      refine ⟨⟨rfl, e, ⟨rfl, rfl, rfl⟩, rfl, rfl, rfl⟩, e, ?_, rfl, rfl⟩
      refine ⟨⟨rfl, rfl, rfl, rfl⟩, ⟨rfl, rfl, rfl, rfl⟩, rfl, hy, ?_, rfl, _, _, rfl, rfl, congrArg some hi⟩
      show L⁻¹ *ᵥ (mix t y₁ y₂ - c) = _
      rw [hy, mulVec_mix]

/-! ### The process -/

/-- The states of the process: only the filters and the solutions differ. -/
def StMix (t : ℝ) (x y z : PSt T K F Ω s a m) : Prop :=
  (y.inst = x.inst ∧ y.epoch = x.epoch ∧ y.traj = x.traj) ∧ (z.inst = x.inst ∧ z.epoch = x.epoch ∧ z.traj = x.traj) ∧
  FilterMix t x.kf y.kf z.kf ∧ All3 (EntryMix t) x.sol y.sol z.sol

theorem All3.snoc {α : Type} {R : α → α → α → Prop} {xs ys zs : List α} {x y z : α} (h : All3 R xs ys zs) (hx : R x y z) :
    All3 R (xs ++ [x]) (ys ++ [y]) (zs ++ [z]) := by
  induction h with
  | nil => exact .cons hx .nil
  | cons h _ ih => exact .cons h ih

theorem timeUp_mix {cfg : Cfg T K F Ω s a m} {t : ℝ} {x y z : PSt T K F Ω s a m} (h : StMix t x y z) (n : Nominal Ω s) :
    Tri (StMix t) (timeUp cfg n x) (timeUp cfg n y) (timeUp cfg n z) := by
  obtain ⟨⟨h1, h2, h3⟩, ⟨h4, h5, h6⟩, hk, hs⟩ := h
  unfold timeUp
  refine Tri.bind (time_mix hk n) fun u v w huv => .ok ⟨⟨?_, h2, h3⟩, ⟨?_, h5, h6⟩, huv.1, hs.snoc (.time huv.2)⟩
  · exact congrArg resetStm h1
  · exact congrArg resetStm h4

theorem available_shape {z z' : Meas T K} (h : SameShape z z') (types : List K) : z'.anyAvailable types = z.anyAvailable types := by
  unfold Meas.anyAvailable
  refine congrArg (List.any types) (funext fun k => ?_)
  have := congrArg Option.isSome (h.2.2.2 k)
  simpa using this

theorem finite_shape {z z' : Meas T K} (h : SameShape z z') (k : K) : look z'.data k = some none ↔ look z.data k = some none := by
  have := h.2.2.2 k
  rcases h1 : look z'.data k with _ | _ | _ <;> rcases h2 : look z.data k with _ | _ | _ <;> simp_all

theorem observation_some (data : List (K × Option ℝ)) (types : List K) :
    ((∃ k ∈ types, look data k = some none) → observation m data types = none) ∧
    ((¬ ∃ k ∈ types, look data k = some none) → observation m data types = some fun i => match types[i.val]? with
      | none => 0
      | some t => match look data t with
        | some (some v) => v
        | _ => 0) := by
  unfold observation
  refine ⟨?_, fun h => if_pos ?_⟩
  · rintro ⟨k, hk, h⟩
    refine if_neg fun hall => ?_
    have := List.all_eq_true.1 hall k hk
    simp [h] at this
  · refine List.all_eq_true.2 fun k hk => ?_
    rcases h1 : look data k with _ | _ | _
    · rfl
    · exact absurd ⟨k, hk, h1⟩ h
    · rfl

theorem observation_mix {t : ℝ} {z₁ z₂ z₃ : Meas T K} (h : MeasMix t z₁ z₂ z₃) (types : List K) :
    (observation m z₁.data types = none ∧ observation m z₂.data types = none ∧ observation m z₃.data types = none) ∨
    ∃ y₁ y₂, observation m z₁.data types = some y₁ ∧ observation m z₂.data types = some y₂ ∧
      observation m z₃.data types = some (mix t y₁ y₂) := by
  obtain ⟨h12, h13, hmix⟩ := h
  by_cases hex : ∃ k ∈ types, look z₁.data k = some none
  · refine Or.inl ⟨(observation_some _ _).1 hex, (observation_some _ _).1 ?_, (observation_some _ _).1 ?_⟩
    · simpa only [finite_shape h12] using hex
    · simpa only [finite_shape h13] using hex
  · refine Or.inr ⟨_, _, (observation_some _ _).2 hex, (observation_some _ _).2 (by simpa only [finite_shape h12] using hex),
      ((observation_some _ _).2 (by simpa only [finite_shape h13] using hex)).trans (congrArg some (funext fun i => ?_))⟩
    simp only [mix, Pi.add_apply, Pi.smul_apply, smul_eq_mul]
    cases types[i.val]? with
    | none => simp
    | some k =>
      simp only
      have e2 := h12.2.2.2 k
      have e3 := h13.2.2.2 k
      have hm := hmix k
      rcases h1 : look z₁.data k with _ | _ | u <;> rcases h2 : look z₂.data k with _ | _ | v <;>
        rcases h3 : look z₃.data k with _ | _ | w <;> simp_all

theorem resolve_mix (moduli : Option (List (K × ℝ))) (types : List K) (c y₁ y₂ : Fin m → ℝ) (t : ℝ) :
    resolve moduli types c (mix t y₁ y₂) = mix t (resolve moduli types c y₁) (resolve moduli types c y₂) := by
  cases moduli with
  | none => rfl
  | some ms =>
    funext i
    simp only [resolve, mix, Pi.add_apply, Pi.smul_apply, smul_eq_mul]
    ring

/-- The sensitivity of a device to its own types does not use the values which are measured. -/
def BlindDev (dev : Dev T K Ω s m) : Prop :=
  ∀ z z' types x, (∀ k ∈ types, k ∈ dev.types) → SameShape z z' → dev.hTilde z' types x = dev.hTilde z types x

/-- The sensitivities of the devices do not use the values which are measured. -/
def Blind (cfg : Cfg T K F Ω s a m) : Prop := ∀ tr dev, cfg.devices tr = some dev → BlindDev dev

theorem windows_types {dim : Nat} {types w : List K} (h : w ∈ windows dim types) : ∀ k ∈ w, k ∈ types := by
  intro k hk
  obtain ⟨i, _, rfl⟩ := List.mem_map.1 ((List.takeWhile_sublist _).subset h)
  exact List.mem_of_mem_drop (List.mem_of_mem_take hk)

theorem applyUpdate_tracking {cfg : Cfg T K F Ω s a m} (hv : cfg.variant = .deviationTracking) (p : PInst Ω s) (l : List (Nominal Ω s)) (e : Est Ω s)
    (b : Bool) : applyUpdate cfg p l e b = (resetStm p, l) := by
  unfold applyUpdate
  rw [if_neg (by simp [hv])]

theorem window_mix {cfg : Cfg T K F Ω s a m} (hv : cfg.variant = .deviationTracking) (hr : cfg.sigmaReject = none) {arc arc₂ arc₃ : PArc T K}
    (hf : arc.forceReject = false) (hm₂ : arc₂.moduli = arc.moduli ∧ arc₂.forceReject = arc.forceReject)
    (hm₃ : arc₃.moduli = arc.moduli ∧ arc₃.forceReject = arc.forceReject) {t : ℝ} {z₁ z₂ z₃ : Meas T K} (hz : MeasMix t z₁ z₂ z₃)
    {dev : Dev T K Ω s m} (hH : BlindDev dev) (types : List K) (hty : ∀ k ∈ types, k ∈ dev.types)
    {x y w : PSt T K F Ω s a m} (h : StMix t x y w) :
    Tri (StMix t) (oneWindow cfg arc z₁ dev types x) (oneWindow cfg arc₂ z₂ dev types y) (oneWindow cfg arc₃ z₃ dev types w) := by
  obtain ⟨⟨h1, h2, h3⟩, ⟨h4, h5, h6⟩, hk, hs⟩ := id h
  have hth : threshold cfg arc = none := by simp [threshold, hf, hr]
  have hth₂ : threshold cfg arc₂ = none := by simp [threshold, hm₂.2, hf, hr]
  have hth₃ : threshold cfg arc₃ = none := by simp [threshold, hm₃.2, hf, hr]
  unfold oneWindow
  rw [available_shape hz.1, available_shape hz.2.1, h1, h2, h3, h4, h5, h6, hth, hth₂, hth₃, hm₂.1, hm₃.1]
  split
  · rcases observation_mix (m := m) hz types with ⟨o1, o2, o3⟩ | ⟨y₁, y₂, o1, o2, o3⟩
    · rw [o1, o2, o3]; exact .err
    · rw [o1, o2, o3]
      simp only [hH _ _ types x.inst.state hty hz.1, hH _ _ types x.inst.state hty hz.2.1]
      refine Tri.same _ fun H => Tri.same _ fun R => Tri.same _ fun o => ?_
      cases o with
      | none => exact .ok h
      | some comp =>
        refine Tri.same _ fun b => ?_
        rw [resolve_mix]
        refine Tri.bind (msr_mix hk _ _ _ _ _ _) ?_
        rintro ⟨k, e, r, g⟩ ⟨k', e', r', g'⟩ ⟨k'', e'', r'', g''⟩ ⟨a1, a2, a3, a4, a5⟩
        simp only at a1 a2 a3 a4 a5
        subst a4 a5
        simp only [applyUpdate_tracking hv]
        refine .ok ⟨⟨rfl, rfl, rfl⟩, ⟨rfl, rfl, rfl⟩, a1, ?_⟩
        rw [show z₂.tracker = z₁.tracker from hz.1.1, show z₃.tracker = z₁.tracker from hz.2.1.1]
        exact hs.snoc (.msr a2 a3)
  · exact .ok h

theorem windows_mix {cfg : Cfg T K F Ω s a m} (hv : cfg.variant = .deviationTracking) (hr : cfg.sigmaReject = none) {arc arc₂ arc₃ : PArc T K}
    (hf : arc.forceReject = false) (hm₂ : arc₂.moduli = arc.moduli ∧ arc₂.forceReject = arc.forceReject)
    (hm₃ : arc₃.moduli = arc.moduli ∧ arc₃.forceReject = arc.forceReject) {t : ℝ} {z₁ z₂ z₃ : Meas T K} (hz : MeasMix t z₁ z₂ z₃)
    {dev : Dev T K Ω s m} (hH : BlindDev dev) :
    ∀ (ws : List (List K)) (_ : ∀ w ∈ ws, ∀ k ∈ w, k ∈ dev.types) {x y w : PSt T K F Ω s a m}, StMix t x y w →
      Tri (StMix t) (allWindows cfg arc z₁ dev ws x) (allWindows cfg arc₂ z₂ dev ws y) (allWindows cfg arc₃ z₃ dev ws w)
  | [], _, _, _, _, h => .ok h
  | types :: ws, hw, _, _, _, h => by
    simp only [allWindows]
    exact Tri.bind (window_mix hv hr hf hm₂ hm₃ hz hH types (hw _ (by simp)) h) fun _ _ _ h' =>
      windows_mix hv hr hf hm₂ hm₃ hz hH ws (fun w h => hw w (by simp [h])) h'

theorem atMeasurement_mix {cfg : Cfg T K F Ω s a m} (hv : cfg.variant = .deviationTracking) (hr : cfg.sigmaReject = none) (hb : Blind cfg)
    {arc arc₂ arc₃ : PArc T K} (hf : arc.forceReject = false) (hm₂ : arc₂.moduli = arc.moduli ∧ arc₂.forceReject = arc.forceReject)
    (hm₃ : arc₃.moduli = arc.moduli ∧ arc₃.forceReject = arc.forceReject) {t : ℝ} {z₁ z₂ z₃ : Meas T K} (hz : MeasMix t z₁ z₂ z₃)
    {x y w : PSt T K F Ω s a m} (h : StMix t x y w) :
    Tri (StMix t) (atMeasurement cfg arc z₁ x) (atMeasurement cfg arc₂ z₂ y) (atMeasurement cfg arc₃ z₃ w) := by
  obtain ⟨⟨h1, h2, h3⟩, ⟨h4, h5, h6⟩, hk, hs⟩ := h
  have hst : StMix t { x with inst := setEpoch x.inst z₁.epoch } { y with inst := setEpoch x.inst z₁.epoch }
      { w with inst := setEpoch x.inst z₁.epoch } := ⟨⟨rfl, h2, h3⟩, ⟨rfl, h5, h6⟩, hk, hs⟩
  unfold atMeasurement
  simp only [hz.1.1, hz.1.2.1, hz.1.2.2.1, hz.2.1.1, hz.2.1.2.1, hz.2.1.2.2.1, h1, h4]
  split
  · exact timeUp_mix hst _
  · cases hd : cfg.devices z₁.tracker with
    | none => exact .ok hst
    | some dev => exact windows_mix hv hr hf hm₂ hm₃ hz (hb _ dev hd) _ (fun _ => windows_types) hst

theorem advance_mix {cfg : Cfg T K F Ω s a m} (hv : cfg.variant = .deviationTracking) (hr : cfg.sigmaReject = none) (hb : Blind cfg)
    {arc arc₂ arc₃ : PArc T K} (hf : arc.forceReject = false) (hm₂ : arc₂.moduli = arc.moduli ∧ arc₂.forceReject = arc.forceReject)
    (hm₃ : arc₃.moduli = arc.moduli ∧ arc₃.forceReject = arc.forceReject) {t : ℝ} {z₁ z₂ z₃ : Meas T K} (hz : MeasMix t z₁ z₂ z₃) :
    ∀ (n : Nat) {x y w : PSt T K F Ω s a m}, StMix t x y w →
      TriO (StMix t) (advanceTo cfg arc z₁ n x) (advanceTo cfg arc₂ z₂ n y) (advanceTo cfg arc₃ z₃ n w)
  | 0, _, _, _, _ => .none
  | n + 1, x, y, w, h => by
    obtain ⟨⟨h1, h2, h3⟩, ⟨h4, h5, h6⟩, hk, hs⟩ := h
    have e2 : nextStep cfg z₂ y = nextStep cfg z₁ x := by unfold nextStep; rw [h1, h2, hz.1.2.1]
    have e3 : nextStep cfg z₃ w = nextStep cfg z₁ x := by unfold nextStep; rw [h4, h5, hz.2.1.2.1]
    simp only [advanceTo, e2, e3, h1, h2, h3, h4, h5, h6, hz.1.2.1, hz.2.1.2.1]
    cases cfg.adv x.inst (nextStep cfg z₁ x) with
    | err => exact .some .err
    | panic => exact .some .panic
    | ok r =>
      obtain ⟨p, l⟩ := r
      have hst : StMix t { x with inst := p, epoch := p.state.epoch, traj := truncate x.epoch x.traj ++ l }
          { y with inst := p, epoch := p.state.epoch, traj := truncate x.epoch x.traj ++ l }
          { w with inst := p, epoch := p.state.epoch, traj := truncate x.epoch x.traj ++ l } :=
        ⟨⟨rfl, rfl, rfl⟩, ⟨rfl, rfl, rfl⟩, hk, hs⟩
      simp only
      split
      · exact .some (atMeasurement_mix hv hr hb hf hm₂ hm₃ hz hst)
      · have ht := timeUp_mix (cfg := cfg) hst p.state
        revert ht
        generalize timeUp cfg p.state { x with inst := p, epoch := p.state.epoch, traj := truncate x.epoch x.traj ++ l } = u₁
        generalize timeUp cfg p.state { y with inst := p, epoch := p.state.epoch, traj := truncate x.epoch x.traj ++ l } = u₂
        generalize timeUp cfg p.state { w with inst := p, epoch := p.state.epoch, traj := truncate x.epoch x.traj ++ l } = u₃
        intro ht
        cases ht with
        | ok h' => exact advance_mix hv hr hb hf hm₂ hm₃ hz n h'
        | err => exact .some .err
        | panic => exact .some .panic

theorem all_mix {cfg : Cfg T K F Ω s a m} (hv : cfg.variant = .deviationTracking) (hr : cfg.sigmaReject = none) (hb : Blind cfg)
    {arc arc₂ arc₃ : PArc T K} (hf : arc.forceReject = false) (hm₂ : arc₂.moduli = arc.moduli ∧ arc₂.forceReject = arc.forceReject)
    (hm₃ : arc₃.moduli = arc.moduli ∧ arc₃.forceReject = arc.forceReject) {t : ℝ} (fuel : Nat) {l₁ l₂ l₃ : List (Meas T K)}
    (hl : All3 (MeasMix t) l₁ l₂ l₃) : ∀ {x y w : PSt T K F Ω s a m}, StMix t x y w →
      TriO (StMix t) (processAll cfg arc fuel l₁ x) (processAll cfg arc₂ fuel l₂ y) (processAll cfg arc₃ fuel l₃ w) := by
  induction hl with
  | nil => intro x y w h; exact .some (.ok h)
  | @cons z₁ z₂ z₃ l₁ l₂ l₃ hz _ ih =>
    intro x y w h
    have ha := advance_mix hv hr hb hf hm₂ hm₃ hz fuel h
    simp only [processAll]
    revert ha
    generalize advanceTo cfg arc z₁ fuel x = u₁
    generalize advanceTo cfg arc₂ z₂ fuel y = u₂
    generalize advanceTo cfg arc₃ z₃ fuel w = u₃
    intro ha
    cases ha with
    | none => exact .none
    | some ha =>
      cases ha with
      | ok h' => exact ih h'
      | err => exact .some .err
      | panic => exact .some .panic

theorem All3.length {α : Type} {R : α → α → α → Prop} {xs ys zs : List α} (h : All3 R xs ys zs) :
    ys.length = xs.length ∧ zs.length = xs.length := by
  induction h with
  | nil => exact ⟨rfl, rfl⟩
  | cons _ _ ih => exact ⟨congrArg (· + 1) ih.1, congrArg (· + 1) ih.2⟩

/-- **C250.** Deviation tracking without a threshold, with devices whose sensitivities do not use the measured values. Three arcs with the same trackers,
epochs, marks and types, and three initial estimates which only differ in their deviations: if the values of the third arc and its initial deviation are
mixtures of those of the two others, the three runs fail together, and otherwise the solutions have the same nominal states, covariances and gains, and
the deviations and the residuals of the third solution are the mixtures of those of the two others. -/
theorem solution_mix_partial (cfg : Cfg T K F Ω s a m) (hv : cfg.variant = .deviationTracking) (hr : cfg.sigmaReject = none) (hb : Blind cfg) (t : ℝ)
    (fuel : Nat) (e₁ e₂ e₃ : Est Ω s) (he : EstMix t e₁ e₂ e₃) (arc₁ arc₂ arc₃ : PArc T K) (hf : arc₁.forceReject = false)
    (hm₂ : arc₂.moduli = arc₁.moduli ∧ arc₂.forceReject = false) (hm₃ : arc₃.moduli = arc₁.moduli ∧ arc₃.forceReject = false)
    (hz : All3 (MeasMix t) arc₁.measurements arc₂.measurements arc₃.measurements) :
    TriO (All3 (EntryMix t)) (processArc cfg fuel e₁ arc₁) (processArc cfg fuel e₂ arc₂) (processArc cfg fuel e₃ arc₃) := by
  have hst : StMix t (start cfg e₁ : PSt T K F Ω s a m) (start cfg e₂) (start cfg e₃) := by
    obtain ⟨⟨h1, h2, h3, h4, h5⟩, ⟨h6, h7, h8, h9, h10⟩, hd⟩ := id he
    refine ⟨⟨?_, ?_, rfl⟩, ⟨?_, ?_, rfl⟩, ⟨hv, he, ⟨?_, rfl, rfl⟩, ?_, rfl, rfl⟩, .nil⟩ <;> simp [start, KF.initNoises, h1, h6]
  have h := all_mix hv hr hb hf ⟨hm₂.1, hm₂.2.trans hf.symm⟩ ⟨hm₃.1, hm₃.2.trans hf.symm⟩ fuel hz hst
  unfold processArc
  rw [hz.length.1, hz.length.2]
  split
  · exact .some .err
  · revert h
    generalize processAll cfg arc₁ fuel arc₁.measurements (start cfg e₁) = u₁
    generalize processAll cfg arc₂ fuel arc₂.measurements (start cfg e₂) = u₂
    generalize processAll cfg arc₃ fuel arc₃.measurements (start cfg e₃) = u₃
    intro h
    cases h with
    | none => exact .none
    | some h =>
      cases h with
      | ok h => exact .some (.ok h.2.2.2)
      | err => exact .some .err
      | panic => exact .some .panic

/-- Entries with the same nominal states, covariances, transition matrices and gains; the deviations and the residuals may differ. -/
inductive SameAnalysis : Entry T K Ω s m → Entry T K Ω s m → Prop
  | time {x y} : SameButDev x y → SameAnalysis (.time x) (.time y)
  | msr {x y r r' g tr ks} : SameButDev x y → r'.noise = r.noise → SameAnalysis (.msr x r g tr ks) (.msr y r' g tr ks)

theorem All3.first {α : Type} {R : α → α → α → Prop} {Q : α → α → Prop} (hq : ∀ x y z, R x y z → Q x y) {xs ys zs : List α} (h : All3 R xs ys zs) :
    List.Forall₂ Q xs ys := by
  induction h with
  | nil => exact .nil
  | cons h _ ih => exact .cons (hq _ _ _ h) ih

theorem all3_of {α : Type} {R : α → α → α → Prop} {Q : α → α → Prop} (hq : ∀ x y, Q x y → R x y y) {xs ys : List α} (h : List.Forall₂ Q xs ys) :
    All3 R xs ys ys := by
  induction h with
  | nil => exact .nil
  | cons h _ ih => exact .cons (hq _ _ h) ih

/-- **C250.** With the same hypotheses, the values of the measurements and the initial deviation do not change the covariances: from the run of one arc,
that of any arc of the same shape succeeds, with the same nominal states, covariances, gains and expected sizes of the prefits. -/
theorem values_leave_covariance_partial (cfg : Cfg T K F Ω s a m) (hv : cfg.variant = .deviationTracking) (hr : cfg.sigmaReject = none) (hb : Blind cfg)
    (fuel : Nat) (e e' : Est Ω s) (he : SameButDev e e') (arc arc' : PArc T K) (hf : arc.forceReject = false ∧ arc'.forceReject = false)
    (hm : arc'.moduli = arc.moduli) (hz : List.Forall₂ SameShape arc.measurements arc'.measurements) (sol : List (Entry T K Ω s m))
    (h : processArc cfg fuel e arc = some (.ok sol)) :
    ∃ sol', processArc cfg fuel e' arc' = some (.ok sol') ∧ List.Forall₂ SameAnalysis sol sol' := by
  have h1 := solution_mix_partial cfg hv hr hb 1 fuel e e' e' ⟨he, he, by simp [mix]⟩ arc arc' arc' hf.1 ⟨hm, hf.2⟩ ⟨hm, hf.2⟩
    (all3_of (fun x y h => ⟨h, h, fun k u v _ h2 => by simpa using h2⟩) hz)
  rw [h] at h1
  generalize processArc cfg fuel e' arc' = u at h1
  cases h1 with
  | some h1 => cases h1 with
    | ok h1 =>
      refine ⟨_, rfl, h1.first ?_⟩
      intro x y z hxy
      cases hxy with
      | time h => exact .time h.1
      | msr h hr => exact .msr h.1 hr.1.2.1

/-! ### Which devices -/

open Verif.Device Verif.Noise Verif.Spacecraft Verif.KalmanArc
open Verif.Mc (Out)

theorem data_shape {z z' : Meas T MsrType} (h : SameShape z z') (k : MsrType) :
    k ∈ (z'.data.map fun p => (p.1, p.2.getD 0)).map Prod.fst ↔ k ∈ (z.data.map fun p => (p.1, p.2.getD (0 : ℝ))).map Prod.fst := by
  have key : ∀ l : List (MsrType × Option ℝ), k ∈ (l.map fun p => (p.1, p.2.getD (0 : ℝ))).map Prod.fst ↔ (look l k).isSome = true := by
    intro l
    induction l with
    | nil => simp [look]
    | cons p l ih =>
      rw [List.map_cons, List.map_cons, List.mem_cons, ih]
      rw [show look (p :: l) k = if p.1 = k then some p.2 else look l k from rfl]
      by_cases h : p.1 = k
      · rw [if_pos h]; simp [h]
      · rw [if_neg h]; simp [Ne.symm h]
  rw [key, key]
  have := congrArg Option.isSome (h.2.2.2 k)
  simp only [Option.isSome_map] at this
  rw [this]

theorem hLoop_congr {row row' : MsrType → Out (Fin 9 → ℝ)} {data data' : List (MsrType × ℝ)}
    (hd : ∀ k, k ∈ data'.map Prod.fst ↔ k ∈ data.map Prod.fst) : ∀ (types : List MsrType) (i : Nat) (mat : Matrix (Fin m) (Fin 9) ℝ),
      (∀ k ∈ types, row' k = row k) → hLoop row' data' i types mat = hLoop row data i types mat
  | [], _, _, _ => rfl
  | k :: ks, i, mat, h => by
    have hk : (find k data').isSome = (find k data).isSome := by
      rw [Bool.eq_iff_iff, find_isSome, find_isSome]
      exact hd k
    simp only [hLoop, hk, h k (by simp)]
    split
    · congr 1
      funext r
      split
      · exact hLoop_congr hd ks _ _ fun k' h' => h k' (by simp [h'])
      · rfl
    · exact hLoop_congr hd ks _ _ fun k' h' => h k' (by simp [h'])

/-- The rows of a ground station, at the location `tx` and with the range `range` which are computed from the epoch and the state. -/
noncomputable def stationRows (tx : Int → Nominal (Craft ℝ Unit) 9 → Option ((Fin 3 → ℝ) × (Fin 3 → ℝ))) (range : Nominal (Craft ℝ Unit) 9 → Option ℝ)
    (z : Meas T MsrType) (x : Nominal (Craft ℝ Unit) 9) : MsrType → Out (Fin 9 → ℝ) :=
  stationRow (tx z.epoch x) (range x) (z.data.map fun p => (p.1, p.2.getD 0)) x.orbit

/-- **C250.** A ground station which measures azimuths and elevations does not use their values for its sensitivity. -/
theorem angles_blind (types : List MsrType) (ht : ∀ k ∈ types, k = .azimuth ∨ k = .elevation) (covar bias : MsrType → Out ℝ)
    (tx : Int → Nominal (Craft ℝ Unit) 9 → Option ((Fin 3 → ℝ) × (Fin 3 → ℝ))) (range : Nominal (Craft ℝ Unit) 9 → Option ℝ)
    (measure : Int → List (Nominal (Craft ℝ Unit) 9) → Res (Option (List (MsrType × ℝ)))) :
    BlindDev (trackerDev types covar bias (stationRows tx range) measure : Dev T MsrType (Craft ℝ Unit) 9 m) := by
  intro z z' ks x hk hz
  refine congrArg toRes (hLoop_congr (data_shape hz) ks 0 _ fun k hk' => ?_)
  unfold stationRows
  rw [hz.2.1]
  rcases ht k (hk k hk') with rfl | rfl <;> rfl

/-! ### A range is not measured with a blind sensitivity -/

/-- A station at the origin which measures ranges with the variance one, and computes the range 5 of the spacecraft `craft2`. -/
noncomputable def exRangeDev : Dev Nat MsrType (Craft ℝ Unit) 9 1 :=
  trackerDev [.range] (fun _ => .ok 1) (fun _ => .ok 0) (stationRows (fun _ _ => some (0, 0)) fun _ => some 5)
    (fun _ _ => .ok (some [(.range, 5)]))

/-- The process of the example: deviation tracking, no threshold, no process noise. -/
noncomputable def exRange : Cfg Nat MsrType Unit (Craft ℝ Unit) 9 3 1 where
  maxStep := 10
  precision := 2
  sigmaReject := none
  variant := .deviationTracking
  noises := []
  fixed := false
  propStep := 5
  devices t := if t = 1 then some exRangeDev else none
  adv p d := .ok (⟨⟨p.state.orbit, p.state.epoch + d, p.state.stm⟩, p.step⟩, [])
  plus x _ := x
  chol := someChol
  dcm _ _ := none

/-- One measurement of the range, with the value `v`. -/
noncomputable def exRangeArc (v : ℝ) : PArc Nat MsrType where
  measurements := [⟨1, 5, [(.range, some v)], false⟩, ⟨7, 9, [], false⟩]
  moduli := none
  forceReject := false

noncomputable def exRangeEst : Est (Craft ℝ Unit) 9 := ⟨⟨craft2, 0, none⟩, 0, 1, 1, 1, false⟩

/-- The sensitivity with the value `v`. -/
noncomputable def exRangeH (v : ℝ) : Matrix (Fin 1) (Fin 9) ℝ := (rectId 1).updateRow 0 (rangeRow (craft2.pos - 0) v)

/-- The run with the value `v`, and what it leaves of the information on the first component of the position. -/
theorem exRange_run (v : ℝ) : ∃ e r g, processArc exRange 5 exRangeEst (exRangeArc v) = some (.ok [.msr e r g 1 [.range]]) ∧
    r.rejected = false ∧ e.nominal = ⟨craft2, 5, some 1⟩ ∧ e.covar⁻¹ 0 0 = 1 + (3 / v) ^ 2 := by
  have hR : ((0 : Matrix (Fin 1) (Fin 1) ℝ).updateRow 0 (Function.update ((0 : Matrix (Fin 1) (Fin 1) ℝ) 0) 0 1)) = 1 := by
    ext i j
    fin_cases i; fin_cases j
    simp
  let zin : MsrIn 9 1 := ⟨fun _ => v, fun _ => 5, 1, exRangeH v⟩
  have hS : (zin.H * ((1 : Matrix (Fin 9) (Fin 9) ℝ) * zin.Hᵀ) + zin.R).PosDef := by
    rw [Matrix.one_mul]
    have h := posSemidef_self_mul_conjTranspose zin.H
    rw [conjTranspose_eq_transpose_of_trivial] at h
    exact PosDef.posSemidef_add h PosDef.one
  have hp : (⟨exRangeEst, [], .deviationTracking, 0⟩ : KF Unit (Craft ℝ Unit) 9 3).predict (fun _ _ => none)
      ⟨craft2, 5, some 1⟩ 1 = .ok (1, 0) := by
    simp [KF.predict, exRangeEst, sncLoop, Res.bind]
  obtain ⟨⟨kf', e, r, g⟩, ho⟩ := (singular_innovation (F := Unit) (a := 3) (dcm := fun _ _ => none) someChol_spec
    ⟨exRangeEst, [], .deviationTracking, 0⟩ ⟨craft2, 5, some 1⟩ zin none 1 (1, 0)
    (symPsd_one 9) (by simp) ((symPsd_iff _).2 PosDef.one.posSemidef) rfl hp).2 hS
  have hr : r.rejected = false := by
    have := (rejected_is_time_update _ _ _ _ _ _ _ _ ho).1
    simpa using this
  have h1 : oneWindow exRange (exRangeArc v) ⟨1, 5, [(.range, some v)], false⟩ exRangeDev [.range]
      ⟨⟨⟨craft2, 5, some 1⟩, 10⟩, 5, ⟨exRangeEst, [], .deviationTracking, 0⟩, [], []⟩ =
      .ok ⟨⟨⟨craft2, 5, some 1⟩, 10⟩, 5, kf', [], [.msr e r g 1 [.range]]⟩ := by
    have a1 : exRangeDev.hTilde ⟨1, 5, [(.range, some v)], false⟩ [.range] ⟨craft2, 5, some 1⟩ = .ok (exRangeH v) := rfl
    have a2 : exRangeDev.covar [.range] 5 = .ok 1 := congrArg Res.ok hR
    have a3 : exRangeDev.bias [.range] 5 = .ok (Function.update (0 : Fin 1 → ℝ) 0 0) := rfl
    have a0 : observation 1 [(MsrType.range, some v)] [.range] = some fun _ => v := by
      unfold observation
      rw [if_pos (by rfl)]
      congr 1
      funext i
      fin_cases i
      rfl
    have a4 : exRangeDev.measure 5 [] = .ok (some [(.range, 5)]) := rfl
    have a5 : obsOf 1 [(MsrType.range, (5 : ℝ))] [.range] - Function.update (0 : Fin 1 → ℝ) 0 0 = fun _ => 5 := by
      funext i
      fin_cases i
      simp [obsOf, look]
    have a6 : threshold exRange (exRangeArc v) = none := rfl
    have a7 : resolve (exRangeArc v).moduli [MsrType.range] (fun _ : Fin 1 => (5 : ℝ)) (fun _ => v) = fun _ => v := rfl
    have a8 : (⟨exRangeEst, [], .deviationTracking, 0⟩ : KF Unit (Craft ℝ Unit) 9 3).measurementUpdate exRange.chol exRange.dcm
      ⟨craft2, 5, some 1⟩ ⟨fun _ => v, fun _ => 5, 1, exRangeH v⟩ none = .ok (kf', e, r, g) := ho
    unfold oneWindow
    rw [if_pos (by rfl)]
    simp only [a0, a1, a2, a3, a4, a5, a6, a7, a8, Res.bind_ok]
    rfl
  have h2 : advanceTo exRange (exRangeArc v) ⟨1, 5, [(.range, some v)], false⟩ 5 (start exRange exRangeEst) =
      some (allWindows exRange (exRangeArc v) ⟨1, 5, [(.range, some v)], false⟩ exRangeDev [[.range]]
        ⟨⟨⟨craft2, 5, some 1⟩, 10⟩, 5, ⟨exRangeEst, [], .deviationTracking, 0⟩, [], []⟩) := rfl
  rw [allWindows, h1, Res.bind_ok, allWindows] at h2
  have h3 : processAll exRange (exRangeArc v) 5 (exRangeArc v).measurements (start exRange exRangeEst) =
      some (.ok ⟨⟨⟨craft2, 9, some 1⟩, 10⟩, 9, kf', [], [.msr e r g 1 [.range]]⟩) := by
    rw [show (exRangeArc v).measurements =
      [⟨1, 5, [(.range, some v)], false⟩, ⟨7, 9, [], false⟩] from rfl, processAll, h2]
    rfl
  refine ⟨e, r, g, ?_, hr, (msrUpdate_nominal ho).1, ?_⟩
  · unfold processArc
    rw [if_neg (by simp [exRangeArc, exRange]), h3]
  · have hrun : (⟨exRangeEst, [], .deviationTracking, 0⟩ : KF Unit (Craft ℝ Unit) 9 3).run someChol (fun _ _ => none)
        [.msr ⟨craft2, 5, some 1⟩ 1 zin none] = .ok kf' := by
      simp only [KF.run, ho, Res.bind_ok]
    have hi := run_information someChol_spec _ _ kf' rfl rfl (by exact PosDef.one) (by
      intro o hm
      rw [List.mem_singleton.1 hm]
      exact ⟨by simp, PosDef.one, rfl⟩) hrun (Pi.single 0 1)
    have he : kf'.prev = e := (msrUpdate_nominal ho).2
    rw [he] at hi
    simp only [flow, phi, arcInfo, Option.getD_some, one_mulVec, add_zero] at hi
    have e0 : KalmanArc.sq e.covar⁻¹ (Pi.single 0 1) = e.covar⁻¹ 0 0 := by simp [KalmanArc.sq]
    rw [← e0, hi]
    have hH : (exRangeH v *ᵥ Pi.single 0 1) = fun _ => 3 / v := by
      funext i
      fin_cases i
      simp [exRangeH, rangeRow, craft2]
    have e1 : sq (⟨exRangeEst, [], .deviationTracking, 0⟩ : KF Unit (Craft ℝ Unit) 9 3).prev.covar⁻¹ (Pi.single 0 1) = 1 := by
      simp [KalmanArc.sq, exRangeEst]
    have e2 : sq zin.R⁻¹ (zin.H *ᵥ Pi.single 0 1) = (3 / v) ^ 2 := by
      show sq (1 : Matrix (Fin 1) (Fin 1) ℝ)⁻¹ (exRangeH v *ᵥ Pi.single 0 1) = _
      rw [hH]
      simp [KalmanArc.sq, dotProduct]
      ring
    rw [e1, e2]

/-- **C250 (refuted).** The sensitivity of a range divides by the measured value. Two arcs of the same shape, with one range each, of the
values 5 and 10 for a spacecraft at the distance 5: both measurements are accepted, and the covariances of the estimates differ. -/
theorem range_value_false : ∃ e r g e' r' g', List.Forall₂ SameShape (exRangeArc 5).measurements (exRangeArc 10).measurements ∧
    processArc exRange 5 exRangeEst (exRangeArc 5) = some (.ok [.msr e r g 1 [.range]]) ∧
    processArc exRange 5 exRangeEst (exRangeArc 10) = some (.ok [.msr e' r' g' 1 [.range]]) ∧
    r.rejected = false ∧ r'.rejected = false ∧ e'.nominal = e.nominal ∧ e'.covar ≠ e.covar := by
  obtain ⟨e, r, g, h, hr, hn, hc⟩ := exRange_run 5
  obtain ⟨e', r', g', h', hr', hn', hc'⟩ := exRange_run 10
  refine ⟨e, r, g, e', r', g', ?_, h, h', hr, hr', ?_, fun heq => ?_⟩
  · refine .cons ⟨rfl, rfl, rfl, fun k => ?_⟩ (.cons ⟨rfl, rfl, rfl, fun k => rfl⟩ .nil)
    by_cases hk : MsrType.range = k
    · simp [look, hk]
    · simp [look, hk]
  · rw [hn, hn']
  · rw [heq, hc] at hc'
    norm_num at hc'

/-! ### The hypotheses are met -/

/-- A device which measures both angles. -/
example : BlindDev (trackerDev [.azimuth, .elevation] (fun _ => .ok 1) (fun _ => .ok 0) (stationRows (fun _ _ => some (0, 0)) fun _ => some 5)
    (fun _ _ => .ok (some [(.azimuth, 0), (.elevation, 53)])) : Dev Nat MsrType (Craft ℝ Unit) 9 2) :=
  angles_blind _ (by simp) _ _ _ _ _

theorem exTrack_blind : Blind exTrack := by
  intro tr dev hd z z' types x _ _
  simp only [exTrack, exNav] at hd
  split at hd
  · cases hd; rfl
  · cases hd

/-- An arc of one measurement with the value `v`. -/
noncomputable def exValue (v : ℝ) : PArc Nat Nat := exCutArc [⟨7, 0, [], false⟩, ⟨1, 5, [(0, some v)], false⟩]

/-- The values 2 and `v` give the same covariances. -/
example (v : ℝ) : ∃ e r g sol, processArc exTrack 5 exNavEst (exValue 2) = some (.ok [.msr e r g 1 [0]]) ∧
    processArc exTrack 5 exNavEst (exValue v) = some (.ok sol) ∧ List.Forall₂ SameAnalysis [.msr e r g 1 [0]] sol := by
  obtain ⟨e, r, g, h, -⟩ := Verif.ProcessArc.exTrack_run
  obtain ⟨sol, h1, h2⟩ := values_leave_covariance_partial exTrack rfl rfl exTrack_blind 5 exNavEst exNavEst ⟨rfl, rfl, rfl, rfl, rfl⟩ (exValue 2) (exValue v)
    ⟨rfl, rfl⟩ rfl (.cons ⟨rfl, rfl, rfl, fun _ => rfl⟩ (.cons ⟨rfl, rfl, rfl, fun k => by
      by_cases hk : 0 = k
      · simp [look, hk]
      · simp [look, hk]⟩ .nil)) _ h
  exact ⟨e, r, g, sol, h, h1, h2⟩

/-- The solution for the value `(1 - t) * 2 + t * v` is the mixture of those for 2 and for `v`. -/
example (t v : ℝ) : TriO (All3 (EntryMix t)) (processArc exTrack 5 exNavEst (exValue 2)) (processArc exTrack 5 exNavEst (exValue v))
    (processArc exTrack 5 exNavEst (exValue ((1 - t) * 2 + t * v))) := by
  have hs : ∀ u w : ℝ, SameShape (⟨1, 5, [(0, some u)], false⟩ : Meas Nat Nat) ⟨1, 5, [(0, some w)], false⟩ := fun u w =>
    ⟨rfl, rfl, rfl, fun k => by
      by_cases hk : 0 = k
      · simp [look, hk]
      · simp [look, hk]⟩
  refine solution_mix_partial exTrack rfl rfl exTrack_blind t 5 exNavEst exNavEst exNavEst
    ⟨⟨rfl, rfl, rfl, rfl, rfl⟩, ⟨rfl, rfl, rfl, rfl, rfl⟩, (mix_self t _).symm⟩ (exValue 2) (exValue v) (exValue ((1 - t) * 2 + t * v))
    rfl ⟨rfl, rfl⟩ ⟨rfl, rfl⟩ (.cons ⟨⟨rfl, rfl, rfl, fun _ => rfl⟩, ⟨rfl, rfl, rfl, fun _ => rfl⟩, fun k u w h => by cases h⟩
      (.cons ⟨hs _ _, hs _ _, fun k u w h h' => ?_⟩ .nil))
  by_cases hk : 0 = k
  · simp only [look, hk, if_true, Option.some.injEq] at h h' ⊢
    rw [h, h']
  · simp [look, hk] at h

end Verif.Analysis
