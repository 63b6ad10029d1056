import Verif.Solution.Columns
/-!
Model of the smoother, od/process/solution/smooth.rs, and theorems C39, C89, C90.
-/
set_option linter.unusedSectionVars false

namespace Verif.Solution
open Verif.Kalman Matrix

/-- The estimate read and written by the smoother: nominal state, deviation, covariance and transition
matrix. `X` is the type of states. od/estimate/kfestimate.rs:41-62. -/
structure SEst (X : Type) (s : Nat) where
  nominal : X
  dev : Fin s → ℝ
  covar : Matrix (Fin s) (Fin s) ℝ
  stm : Matrix (Fin s) (Fin s) ℝ

/-- The data of a residual besides its tracker and types; a postfit or a ratio that is not a number is
`none` (rejected residuals have such a postfit). od/estimate/residual.rs:28-58. -/
structure RData (m : Nat) where
  epoch : Int
  prefit : Fin m → ℝ
  postfit : Option (Fin m → ℝ)
  ratio : ℝ
  realObs : Fin m → ℝ
  computedObs : Fin m → ℝ
  whitened : Fin m → ℝ
  rejected : Bool

/-- What the smoother needs of states and devices: the sum of a state and a deviation, the vector and the
epoch of a state, the devices of the solution, their instantaneous measurement (`none` if the target is not
visible) with the observation of the requested types, and their biases. Simplification: devices do not
change when they measure (no random generator is given). -/
structure SEnv (X T K : Type) (s m : Nat) where
  add : X → (Fin s → ℝ) → X
  vec : X → Fin s → ℝ
  epochOf : X → Int
  known : T → Bool
  measure : T → X → Res (Option (List K → Fin m → ℝ))
  bias : T → List K → Int → Res (Fin m → ℝ)

variable {X T K : Type} {s m : Nat}

/-- `Estimate::state`: nominal state plus deviation. od/estimate/mod.rs:54-56. -/
def SEst.state (env : SEnv X T K s m) (e : SEst X s) : X := env.add e.nominal e.dev

/-- `e.stm().lu().try_inverse()`. smooth.rs:147-152. -/
noncomputable def invOf (M : Matrix (Fin s) (Fin s) ℝ) : Option (Matrix (Fin s) (Fin s) ℝ) :=
  open Classical in if IsUnit M.det then some M⁻¹ else none

/-- The smoothed estimate `k` given the inverse of the transition matrix. smooth.rs:154-163. -/
noncomputable def smoothedEst (phi : Matrix (Fin s) (Fin s) ℝ) (ek ekp1 : SEst X s) : SEst X s :=
  { ek with dev := phi *ᵥ ekp1.dev, covar := phi * ekp1.covar * phiᵀ }

/-- The residual with its computed observation and postfit replaced. smooth.rs:183-188. -/
def recomputed (r : Rsd T K (RData m)) (obs : List K → Fin m → ℝ) (b : Fin m → ℝ) : Rsd T K (RData m) :=
  { r with data := { r.data with
      computedObs := obs r.types - b, postfit := some (r.data.realObs - (obs r.types - b)) } }

/-- The residual from the state of a smoothed estimate. smooth.rs:164-197. -/
def smoothedRes (env : SEnv X T K s m) (e : SEst X s) :
    Option (Rsd T K (RData m)) → Res (Option (Rsd T K (RData m)))
  | none => .ok none
  | some r =>
    match r.tracker with
    | none => .panic
    | some t =>
      if env.known t then
        (env.measure t (e.state env)).bind fun o =>
          match o with
          | none => .ok none
          | some obs =>
            (env.bias t r.types (env.epochOf (e.state env))).bind fun b => .ok (some (recomputed r obs b))
      else .panic

/-- The filter smoother consistency ratios; a quotient by the root of a non positive number is `none` (not a
number, or infinite). smooth.rs:200-209. -/
noncomputable def fsRatios (env : SEnv X T K s m) (ek sk : SEst X s) : Fin s → Option ℝ := fun i =>
  if 0 < ek.covar i i - sk.covar i i then
    some ((env.vec (ek.state env) i - env.vec (sk.state env) i) / Real.sqrt (ek.covar i i - sk.covar i i))
  else none

/-- Solutions of the smoother. -/
abbrev SSol (X T K : Type) (s m : Nat) (G : Type) := Sol (SEst X s) T K (RData m) G (Fin s → Option ℝ)

variable {G : Type}

/-- The body of the loop for index `k`: the entry pushed. The estimate at `k + 1` is the one of the filter
(`self.estimates`), and the residual is the one at `k + 1`. Out of range indices panic.
smooth.rs:130-214. -/
noncomputable def smoothStep (env : SEnv X T K s m) (o : SSol X T K s m G) (k : Nat) :
    Res (SEst X s × Option (Rsd T K (RData m)) × (Fin s → Option ℝ)) :=
  match o.estimates[k]?, o.estimates[k + 1]?, o.residuals[k + 1]? with
  | some ek, some ekp1, some r =>
    match invOf ekp1.stm with
    | none => .err
    | some phi =>
      (smoothedRes env (smoothedEst phi ek ekp1) r).bind fun r' =>
        .ok (smoothedEst phi ek ekp1, r', fsRatios env ek (smoothedEst phi ek ekp1))
  | _, _, _ => .panic

/-- The loop, for the indices below `todo`, from the greatest down. smooth.rs:130-219. -/
noncomputable def smoothLoop (env : SEnv X T K s m) (o : SSol X T K s m G) :
    Nat → SSol X T K s m G → Res (SSol X T K s m G)
  | 0, acc => .ok acc
  | k + 1, acc => (smoothStep env o k).bind fun x =>
      smoothLoop env o k ⟨acc.estimates ++ [x.1], acc.residuals ++ [x.2.1], acc.gains ++ [none],
        acc.ratios ++ [some x.2.2]⟩

/-- `smooth`: a solution with fewer than two estimates makes `len() - 1` or `l - 1` underflow, a panic. The
block that adds skipped estimates is never entered, as the loop ends when the lengths are equal. The gains
are not reversed, they are all `None`. smooth.rs:104-249. -/
noncomputable def Sol.smooth (env : SEnv X T K s m) (o : SSol X T K s m G) : Res (SSol X T K s m G) :=
  if o.estimates.length ≤ 1 then .panic
  else
    match o.estimates.getLast?, o.residuals.getLast? with
    | some e, some r =>
      (smoothLoop env o (o.estimates.length - 1) ⟨[e], [r], [none], [none]⟩).bind fun acc =>
        .ok ⟨acc.estimates.reverse, acc.residuals.reverse, acc.gains, acc.ratios.reverse⟩
    | _, _ => .panic

/-! ### What the loop computes -/

theorem invOf_some {M N : Matrix (Fin s) (Fin s) ℝ} (h : invOf M = some N) : N = M⁻¹ ∧ IsUnit M.det := by
  unfold invOf at h
  split at h
  · rename_i hu
    simp only [Option.some.injEq] at h
    exact ⟨h.symm, hu⟩
  · cases h

theorem smoothLoop_spec (env : SEnv X T K s m) (o : SSol X T K s m G) (k : Nat) :
    ∀ (acc out : SSol X T K s m G), smoothLoop env o k acc = .ok out →
    ∃ x : List (SEst X s × Option (Rsd T K (RData m)) × (Fin s → Option ℝ)),
      x.length = k ∧
      (∀ j (h : j < x.length), smoothStep env o j = .ok x[j]) ∧
      out.estimates = acc.estimates ++ (x.map fun j => j.1).reverse ∧
      out.residuals = acc.residuals ++ (x.map fun j => j.2.1).reverse ∧
      out.ratios = acc.ratios ++ (x.map fun j => some j.2.2).reverse ∧
      out.gains = acc.gains ++ List.replicate k none := by
  induction k with
  | zero =>
    intro acc out h
    simp only [smoothLoop, Res.ok.injEq] at h
    subst h
    exact ⟨[], rfl, by simp, by simp, by simp, by simp, by simp⟩
  | succ k ih =>
    intro acc out h
    rw [smoothLoop, Res.bind_eq_ok] at h
    obtain ⟨y, hy, h⟩ := h
    obtain ⟨x, h0, h1, h2, h3, h4, h5⟩ := ih _ _ h
    refine ⟨x ++ [y], by simp [h0], ?_, ?_, ?_, ?_, ?_⟩
    · intro j hj
      rcases Nat.lt_or_ge j x.length with hjk | hjk
      · rw [List.getElem_append_left hjk]
        exact h1 j hjk
      · have : j = k := by simp at hj; omega
        subst this
        rw [List.getElem_append_right hjk]
        simp [h0, hy]
    · simp [h2]
    · simp [h3]
    · simp [h4]
    · rw [h5, List.append_assoc]
      simp [List.replicate_succ]

/-- The entries of a smoothed solution: the last one is the last of the filter without gain, the others are
those of the steps. -/
theorem smooth_rows (env : SEnv X T K s m) (o out : SSol X T K s m G) (h : o.smooth env = .ok out) :
    ∃ (x : List (SEst X s × Option (Rsd T K (RData m)) × (Fin s → Option ℝ))) (e : SEst X s)
      (r : Option (Rsd T K (RData m))),
      2 ≤ o.estimates.length ∧
      o.estimates.length = x.length + 1 ∧ o.estimates.getLast? = some e ∧ o.residuals.getLast? = some r ∧
      (∀ j (h : j < x.length), smoothStep env o j = .ok x[j]) ∧
      out = ⟨(x.map fun j => j.1) ++ [e], (x.map fun j => j.2.1) ++ [r],
        List.replicate (x.length + 1) none, (x.map fun j => some j.2.2) ++ [none]⟩ := by
  unfold Sol.smooth at h
  split at h
  · cases h
  · rename_i hn
    cases he : o.estimates.getLast? with
    | none => rw [he] at h; simp only at h; cases h
    | some e =>
      cases hr : o.residuals.getLast? with
      | none => rw [he, hr] at h; simp only at h; cases h
      | some r =>
        rw [he, hr] at h
        simp only at h
        rw [Res.bind_eq_ok] at h
        obtain ⟨acc, ha, h⟩ := h
        simp only [Res.ok.injEq] at h
        obtain ⟨x, h0, h1, h2, h3, h4, h5⟩ := smoothLoop_spec env o _ _ _ ha
        refine ⟨x, e, r, by omega, by omega, rfl, rfl, h1, ?_⟩
        rw [← h, h2, h3, h4, h5, h0]
        simp [List.replicate_succ]

theorem smoothStep_ok {env : SEnv X T K s m} {o : SSol X T K s m G} {k : Nat}
    {x : SEst X s × Option (Rsd T K (RData m)) × (Fin s → Option ℝ)} (h : smoothStep env o k = .ok x) :
    ∃ ek ekp1 r, o.estimates[k]? = some ek ∧ o.estimates[k + 1]? = some ekp1 ∧
      o.residuals[k + 1]? = some r ∧ IsUnit ekp1.stm.det ∧
      x.1 = smoothedEst ekp1.stm⁻¹ ek ekp1 ∧ smoothedRes env x.1 r = .ok x.2.1 ∧
      x.2.2 = fsRatios env ek x.1 := by
  unfold smoothStep at h
  split at h
  · rename_i ek ekp1 r h1 h2 h3
    split at h
    · cases h
    · rename_i phi hp
      rw [Res.bind_eq_ok] at h
      obtain ⟨r', hr, h⟩ := h
      simp only [Res.ok.injEq] at h
      obtain ⟨rfl, hu⟩ := invOf_some hp
      subst h
      exact ⟨ek, ekp1, r, h1, h2, h3, hu, rfl, hr, rfl⟩
  · cases h

/-! ### Theorems -/

/-- **C39 (partial) and C37 for the smoother.** The smoothed solution has as many entries as the filter's, in
all columns; entry `k` is about the nominal state of entry `k` of the filter, hence about its epoch; the last
entry is the one of the filter; there are no gains, and all entries but the last have ratios. Missing: the
residual of entry `k`, see `smoother_residuals_shifted`. -/
theorem smoother_epochs_partial (env : SEnv X T K s m) (o out : SSol X T K s m G)
    (h : o.smooth env = .ok out) :
    out.Aligned ∧ out.estimates.map SEst.nominal = o.estimates.map SEst.nominal ∧
      out.estimates.map SEst.stm = o.estimates.map SEst.stm ∧
      out.estimates.getLast? = o.estimates.getLast? ∧ out.residuals.getLast? = o.residuals.getLast? ∧
      (∀ g ∈ out.gains, g = none) ∧
      (∀ k (hk : k < out.ratios.length), out.ratios[k].isSome ↔ k + 1 < o.estimates.length) := by
  obtain ⟨x, e, r, hn, hl, he, hr, hx, rfl⟩ := smooth_rows env o out h
  have hest : ∀ k (hk : k < x.length), ∃ ek, o.estimates[k]? = some ek ∧ x[k].1.nominal = ek.nominal ∧
      x[k].1.stm = ek.stm := by
    intro k hk
    obtain ⟨ek, ekp1, r, h1, _, _, _, h2, _⟩ := smoothStep_ok (hx k hk)
    exact ⟨ek, h1, by rw [h2]; rfl, by rw [h2]; rfl⟩
  have hlast : ∀ (hk : x.length < o.estimates.length), o.estimates[x.length] = e := by
    intro hk
    rw [List.getLast?_eq_getElem?, hl] at he
    simp only [Nat.add_sub_cancel] at he
    rw [List.getElem?_eq_getElem hk] at he
    exact Option.some.inj he
  refine ⟨⟨by simp, by simp, by simp⟩, ?_, ?_, by simp [he], by simp [hr],
    fun g hg => List.eq_of_mem_replicate hg, ?_⟩
  · apply List.ext_getElem
    · simp [hl]
    · intro k h1 h2
      simp only [List.length_map] at h2
      simp only [List.getElem_map]
      rcases Nat.lt_or_ge k x.length with hk | hk
      · rw [List.getElem_append_left (by simpa using hk)]
        obtain ⟨ek, h3, h4, _⟩ := hest k hk
        rw [List.getElem?_eq_getElem h2] at h3
        simp only [List.getElem_map, h4]
        rw [Option.some.inj h3]
      · have : k = x.length := by omega
        subst this
        rw [List.getElem_append_right (by simp), hlast h2]
        simp
  · apply List.ext_getElem
    · simp [hl]
    · intro k h1 h2
      simp only [List.length_map] at h2
      simp only [List.getElem_map]
      rcases Nat.lt_or_ge k x.length with hk | hk
      · rw [List.getElem_append_left (by simpa using hk)]
        obtain ⟨ek, h3, _, h4⟩ := hest k hk
        rw [List.getElem?_eq_getElem h2] at h3
        simp only [List.getElem_map, h4]
        rw [Option.some.inj h3]
      · have : k = x.length := by omega
        subst this
        rw [List.getElem_append_right (by simp), hlast h2]
        simp
  · intro k hk
    simp only [hl]
    rcases Nat.lt_or_ge k x.length with hkx | hkx
    · rw [List.getElem_append_left (by simpa using hkx)]
      simp; omega
    · rw [List.getElem_append_right (by simpa using hkx)]
      simp; omega

/-- **C39 is refuted for every smoothed solution.** Entry `k` never has residual `k`: what it has is, if
anything, the residual of entry `k + 1` (its epoch, tracker, prefit and actual observation), with the
observation computed from the smoothed state of entry `k`. -/
theorem smoother_residuals_shifted (env : SEnv X T K s m) (o out : SSol X T K s m G)
    (h : o.smooth env = .ok out) (k : Nat) (hk : k + 1 < o.estimates.length) :
    (∃ r', out.residuals[k]? = some r') ∧ ∀ r', out.residuals[k]? = some (some r') →
      ∃ r e t obs b, o.residuals[k + 1]? = some (some r) ∧ out.estimates[k]? = some e ∧
        r.tracker = some t ∧ env.measure t (env.add e.nominal e.dev) = .ok (some obs) ∧
        env.bias t r.types (env.epochOf (env.add e.nominal e.dev)) = .ok b ∧
        r'.data.epoch = r.data.epoch ∧ r'.tracker = r.tracker ∧ r'.types = r.types ∧
        r'.data.prefit = r.data.prefit ∧ r'.data.realObs = r.data.realObs ∧
        r'.data.ratio = r.data.ratio ∧ r'.data.rejected = r.data.rejected ∧
        r'.data.computedObs = obs r.types - b ∧
        r'.data.postfit = some (r.data.realObs - r'.data.computedObs) := by
  obtain ⟨x, e, r, hn, hl, he, hr, hx, rfl⟩ := smooth_rows env o out h
  have hkx : k < x.length := by omega
  have e1 : ((x.map fun j => j.2.1) ++ [r])[k]? = some x[k].2.1 := by
    rw [List.getElem?_append_left (by simpa using hkx), List.getElem?_map, List.getElem?_eq_getElem hkx]
    rfl
  have e2 : ((x.map fun j => j.1) ++ [e])[k]? = some x[k].1 := by
    rw [List.getElem?_append_left (by simpa using hkx), List.getElem?_map, List.getElem?_eq_getElem hkx]
    rfl
  simp only [e1, e2]
  refine ⟨⟨_, rfl⟩, ?_⟩
  intro r' hr'
  obtain ⟨ek, ekp1, q, h1, h2, h3, h4, h5, h6, h7⟩ := smoothStep_ok (hx k hkx)
  rw [Option.some.inj hr'] at h6
  cases q with
  | none => simp only [smoothedRes, Res.ok.injEq, reduceCtorEq] at h6
  | some q =>
    rw [smoothedRes] at h6
    cases ht : q.tracker with
    | none => rw [ht] at h6; simp only at h6; cases h6
    | some t =>
      rw [ht] at h6
      simp only at h6
      split at h6
      · rw [Res.bind_eq_ok] at h6
        obtain ⟨ob, hm, h6⟩ := h6
        cases ob with
        | none => simp only [Res.ok.injEq, reduceCtorEq] at h6
        | some obs =>
          simp only at h6
          rw [Res.bind_eq_ok] at h6
          obtain ⟨b, hb, h6⟩ := h6
          simp only [Res.ok.injEq, Option.some.injEq] at h6
          subst h6
          exact ⟨q, _, t, obs, b, h3, rfl, ht, hm, hb, rfl, by simp [recomputed, ht], rfl, rfl, rfl, rfl, rfl, rfl, rfl⟩
      · cases h6

/-- **C89 (partial).** Propagated to the next epoch with the transition matrix of the filter, the smoothed
deviation and covariance of entry `k` are those of the *filter* at entry `k + 1`. Only for the last but one
entry are these also the smoothed ones. -/
theorem smoothed_maps_forward_partial (env : SEnv X T K s m) (o out : SSol X T K s m G)
    (h : o.smooth env = .ok out) (k : Nat) (hk : k + 1 < o.estimates.length) :
    ∃ e f, out.estimates[k]? = some e ∧ o.estimates[k + 1]? = some f ∧
      f.stm *ᵥ e.dev = f.dev ∧ f.stm * e.covar * f.stmᵀ = f.covar ∧
      (k + 2 = o.estimates.length → out.estimates[k + 1]? = some f) := by
  obtain ⟨x, e, r, hn, hl, he, hr, hx, rfl⟩ := smooth_rows env o out h
  have hkx : k < x.length := by omega
  have e2 : ((x.map fun j => j.1) ++ [e])[k]? = some x[k].1 := by
    rw [List.getElem?_append_left (by simpa using hkx), List.getElem?_map, List.getElem?_eq_getElem hkx]
    rfl
  obtain ⟨ek, ekp1, q, h1, h2, h3, h4, h5, h6, h7⟩ := smoothStep_ok (hx k hkx)
  refine ⟨_, ekp1, e2, h2, ?_, ?_, ?_⟩
  · rw [h5]
    show ekp1.stm *ᵥ (ekp1.stm⁻¹ *ᵥ ekp1.dev) = _
    rw [Matrix.mulVec_mulVec, Matrix.mul_nonsing_inv _ h4, Matrix.one_mulVec]
  · rw [h5]
    show ekp1.stm * (ekp1.stm⁻¹ * ekp1.covar * ekp1.stm⁻¹ᵀ) * ekp1.stmᵀ = _
    have hT : ekp1.stm⁻¹ᵀ * ekp1.stmᵀ = 1 := by
      rw [← Matrix.transpose_mul, Matrix.mul_nonsing_inv _ h4, Matrix.transpose_one]
    calc _ = (ekp1.stm * ekp1.stm⁻¹) * ekp1.covar * (ekp1.stm⁻¹ᵀ * ekp1.stmᵀ) := by
          simp only [Matrix.mul_assoc]
      _ = _ := by rw [Matrix.mul_nonsing_inv _ h4, hT, Matrix.one_mul, Matrix.mul_one]
  · intro hk2
    have : k + 1 = x.length := by omega
    have e3 : ((x.map fun j => j.1) ++ [e])[k + 1]? = some e := by
      rw [this, List.getElem?_append_right (by simp)]
      simp
    rw [e3, ← h2, ← he, List.getLast?_eq_getElem?]
    congr 1
    omega

/-- **C89 is refuted**: smoothed entry `k` only depends on the entries `k` and `k + 1` of the filter. Two
solutions with those entries in common have the same smoothed estimate `k`, whatever was measured
afterwards. -/
theorem smoother_ignores_later_data (env : SEnv X T K s m) (o o' out out' : SSol X T K s m G)
    (h : o.smooth env = .ok out) (h' : o'.smooth env = .ok out') (k : Nat)
    (hk : k + 1 < o.estimates.length) (hk' : k + 1 < o'.estimates.length)
    (e0 : o.estimates[k]? = o'.estimates[k]?) (e1 : o.estimates[k + 1]? = o'.estimates[k + 1]?) :
    out.estimates[k]? = out'.estimates[k]? := by
  obtain ⟨x, e, r, hn, hl, he, hr, hx, rfl⟩ := smooth_rows env o out h
  obtain ⟨x', e', r', hn', hl', he', hr', hx', rfl⟩ := smooth_rows env o' out' h'
  have hkx : k < x.length := by omega
  have hkx' : k < x'.length := by omega
  have e2 : ((x.map fun j => j.1) ++ [e])[k]? = some x[k].1 := by
    rw [List.getElem?_append_left (by simpa using hkx), List.getElem?_map, List.getElem?_eq_getElem hkx]
    rfl
  have e2' : ((x'.map fun j => j.1) ++ [e'])[k]? = some x'[k].1 := by
    rw [List.getElem?_append_left (by simpa using hkx'), List.getElem?_map, List.getElem?_eq_getElem hkx']
    rfl
  obtain ⟨ek, ekp1, q, h1, h2, h3, h4, h5, h6, h7⟩ := smoothStep_ok (hx k hkx)
  obtain ⟨fk, fkp1, p, k1, k2, k3, k4, k5, k6, k7⟩ := smoothStep_ok (hx' k hkx')
  have : ek = fk := Option.some.inj (by rw [← h1, e0, k1])
  subst this
  have : ekp1 = fkp1 := Option.some.inj (by rw [← h2, e1, k2])
  subst this
  simp only [e2, e2', h5, k5]

/-- **C90.** The smoothed covariances are symmetric positive semi-definite if those of the filter are. -/
theorem smoothed_covariances_psd (env : SEnv X T K s m) (o out : SSol X T K s m G)
    (h : o.smooth env = .ok out) (hP : ∀ e ∈ o.estimates, SymPsd e.covar) :
    ∀ e ∈ out.estimates, SymPsd e.covar := by
  obtain ⟨x, e, r, hn, hl, he, hr, hx, rfl⟩ := smooth_rows env o out h
  intro f hf
  rcases List.mem_append.1 hf with hf | hf
  · obtain ⟨y, hy, rfl⟩ := List.mem_map.1 hf
    obtain ⟨k, hk, rfl⟩ := List.mem_iff_getElem.1 hy
    obtain ⟨ek, ekp1, q, h1, h2, h3, h4, h5, h6, h7⟩ := smoothStep_ok (hx k hk)
    rw [h5, symPsd_iff]
    exact posSemidef_conj ((symPsd_iff _).1 (hP _ (List.mem_of_getElem? h2))) _
  · rw [List.mem_singleton] at hf
    subst hf
    exact hP _ (List.mem_of_getLast? he)

/-- **C90 (ratios).** The ratio of a component is the difference of the states over the root of the
difference of the variances; it is a number exactly when the variance of the filter is the greater one. -/
theorem smoother_ratios (env : SEnv X T K s m) (o out : SSol X T K s m G)
    (h : o.smooth env = .ok out) (k : Nat) (hk : k + 1 < o.estimates.length) :
    ∃ e f q, o.estimates[k]? = some e ∧ out.estimates[k]? = some f ∧ out.ratios[k]? = some (some q) ∧
      ∀ i, (f.covar i i < e.covar i i → ∃ v, q i = some v ∧
        v * Real.sqrt (e.covar i i - f.covar i i) =
          env.vec (env.add e.nominal e.dev) i - env.vec (env.add f.nominal f.dev) i) ∧
        (e.covar i i ≤ f.covar i i → q i = none) := by
  obtain ⟨x, e, r, hn, hl, he, hr, hx, rfl⟩ := smooth_rows env o out h
  have hkx : k < x.length := by omega
  have e2 : ((x.map fun j => j.1) ++ [e])[k]? = some x[k].1 := by
    rw [List.getElem?_append_left (by simpa using hkx), List.getElem?_map, List.getElem?_eq_getElem hkx]
    rfl
  have e3 : ((x.map fun j => some j.2.2) ++ [none])[k]? = some (some x[k].2.2) := by
    rw [List.getElem?_append_left (by simpa using hkx), List.getElem?_map, List.getElem?_eq_getElem hkx]
    rfl
  obtain ⟨ek, ekp1, q, h1, h2, h3, h4, h5, h6, h7⟩ := smoothStep_ok (hx k hkx)
  refine ⟨ek, _, _, h1, e2, e3, fun i => ⟨fun hi => ?_, fun hi => ?_⟩⟩
  · have hp : 0 < ek.covar i i - x[k].1.covar i i := by linarith
    refine ⟨_, by rw [h7, fsRatios, if_pos hp], ?_⟩
    rw [div_mul_cancel₀ _ (Real.sqrt_pos.2 hp).ne']
    rfl
  · rw [h7, fsRatios, if_neg (by linarith)]

/-- A solution with fewer than two estimates makes the smoother panic. -/
theorem smooth_short_panics (env : SEnv X T K s m) (o : SSol X T K s m G) (h : o.estimates.length ≤ 1) :
    o.smooth env = .panic := by
  unfold Sol.smooth
  rw [if_pos h]

/-- **C90 (totality).** With two or more aligned entries, invertible transition matrices, known trackers and
devices that do not fail, the smoother returns a solution. -/
theorem smooth_returns (env : SEnv X T K s m) (o : SSol X T K s m G) (ha : o.Aligned)
    (hn : 2 ≤ o.estimates.length) (hs : ∀ e ∈ o.estimates, IsUnit e.stm.det)
    (ht : ∀ r, some r ∈ o.residuals → ∃ t, r.tracker = some t ∧ env.known t = true)
    (hm : ∀ t x, ∃ v, env.measure t x = .ok v) (hb : ∀ t l e, ∃ v, env.bias t l e = .ok v) :
    ∃ out, o.smooth env = .ok out := by
  have hstep : ∀ k, k + 1 < o.estimates.length → ∃ x, smoothStep env o k = .ok x := by
    intro k hk
    unfold smoothStep
    have hr : k + 1 < o.residuals.length := by rw [ha.1]; exact hk
    rw [List.getElem?_eq_getElem (by omega), List.getElem?_eq_getElem hk, List.getElem?_eq_getElem hr]
    simp only
    have hi : invOf (o.estimates[k + 1]).stm = some (o.estimates[k + 1]).stm⁻¹ := by
      unfold invOf
      rw [if_pos (hs _ (List.getElem_mem _))]
    rw [hi]
    simp only
    have : ∃ r', smoothedRes env (smoothedEst (o.estimates[k + 1]).stm⁻¹ o.estimates[k] o.estimates[k + 1])
        (o.residuals[k + 1]) = .ok r' := by
      generalize smoothedEst (o.estimates[k + 1]).stm⁻¹ o.estimates[k] o.estimates[k + 1] = e
      cases hq : o.residuals[k + 1] with
      | none => exact ⟨none, rfl⟩
      | some q =>
        obtain ⟨t, h1, h2⟩ := ht q (by rw [← hq]; exact List.getElem_mem _)
        obtain ⟨v, hv⟩ := hm t (e.state env)
        rw [smoothedRes, h1]
        simp only
        rw [if_pos h2, hv, Res.bind_ok]
        cases v with
        | none => exact ⟨none, rfl⟩
        | some obs =>
          obtain ⟨b, hb⟩ := hb t q.types (env.epochOf (e.state env))
          simp only
          rw [hb]
          exact ⟨_, rfl⟩
    obtain ⟨r', hr'⟩ := this
    rw [hr']
    exact ⟨_, rfl⟩
  have hloop : ∀ k, k < o.estimates.length → ∀ acc, ∃ out, smoothLoop env o k acc = .ok out := by
    intro k
    induction k with
    | zero => intro _ acc; exact ⟨acc, rfl⟩
    | succ k ih =>
      intro hk acc
      obtain ⟨x, hx⟩ := hstep k hk
      rw [smoothLoop, hx, Res.bind_ok]
      exact ih (by omega) _
  unfold Sol.smooth
  rw [if_neg (by omega)]
  have h1 : o.estimates ≠ [] := by intro h; rw [h] at hn; simp at hn
  have h2 : o.residuals ≠ [] := by intro h; have := ha.1; rw [h] at this; simp at this; omega
  rw [List.getLast?_eq_some_getLast h1, List.getLast?_eq_some_getLast h2]
  simp only
  obtain ⟨out, ho⟩ := hloop (o.estimates.length - 1) (by omega) ⟨[o.estimates.getLast h1],
    [o.residuals.getLast h2], [none], [none]⟩
  rw [ho]
  exact ⟨_, rfl⟩

/-! ### Witnesses -/

/-- Scalar states that are their own measurement. -/
def exEnv : SEnv ℝ Unit Unit 1 1 where
  add x d := x + d 0
  vec x := fun _ => x
  epochOf _ := 0
  known _ := true
  measure _ x := .ok (some fun _ _ => x)
  bias _ _ _ := .ok fun _ => 0

/-- A residual at an epoch. -/
def exRes (t : Int) : Rsd Unit Unit (RData 1) := ⟨some (), [()], ⟨t, 0, some 0, 0, 0, 0, 0, false⟩⟩

/-- A scalar estimate with unit transition matrix. -/
def exSEst (d : ℝ) : SEst ℝ 1 := ⟨0, fun _ => d, 1, 1⟩

/-- Three measurement updates at epochs 0, 1, 2. -/
def exSol3 : SSol ℝ Unit Unit 1 1 Unit :=
  ⟨[exSEst 0, exSEst 0, exSEst 1], [some (exRes 0), some (exRes 1), some (exRes 2)],
    [none, none, none], [none, none, none]⟩

theorem exSol3_smooths : ∃ out, exSol3.smooth exEnv = .ok out := by
  apply smooth_returns
  · exact ⟨rfl, rfl, rfl⟩
  · decide
  · intro e he
    simp only [exSol3, List.mem_cons, List.not_mem_nil, or_false] at he
    rcases he with rfl | rfl | rfl <;> simp [exSEst]
  · intro r _
    cases hr : r.tracker with
    | none =>
      rename_i hm
      simp only [exSol3, List.mem_cons, Option.some.injEq, List.not_mem_nil, or_false] at hm
      rcases hm with rfl | rfl | rfl <;> simp [exRes] at hr
    | some t => exact ⟨t, rfl, rfl⟩
  · intro t x; exact ⟨_, rfl⟩
  · intro t l e; exact ⟨_, rfl⟩

/-- **C39 is refuted** by a concrete solution: after smoothing, the residual of entry 0, if any, is the one of
epoch 1, and the residual of epoch 0 is gone. -/
theorem smoother_witness : ∃ out, exSol3.smooth exEnv = .ok out ∧
    ∃ r, out.residuals[0]? = some (some r) ∧ r.data.epoch = 1 := by
  obtain ⟨out, h⟩ := exSol3_smooths
  refine ⟨out, h, ?_⟩
  obtain ⟨x, e, r, hn, hl, he, hr, hx, rfl⟩ := smooth_rows exEnv exSol3 out h
  have hl3 : x.length = 2 := by
    have : exSol3.estimates.length = 3 := rfl
    omega
  obtain ⟨ek, ekp1, q, h1, h2, h3, h4, h5, h6, h7⟩ := smoothStep_ok (hx 0 (by omega))
  have hq : q = some (exRes 1) := by
    have : exSol3.residuals[0 + 1]? = some (some (exRes 1)) := rfl
    rw [this] at h3
    exact (Option.some.inj h3).symm
  subst hq
  have h6' : (Res.ok (some (recomputed (exRes 1) (fun _ _ => x[0].1.state exEnv) fun _ => 0)) :
      Res (Option (Rsd Unit Unit (RData 1)))) = .ok x[0].2.1 := h6
  simp only [Res.ok.injEq] at h6'
  refine ⟨recomputed (exRes 1) (fun _ _ => x[0].1.state exEnv) fun _ => 0, ?_, rfl⟩
  · rw [List.getElem?_append_left (by simp [hl3]), List.getElem?_map, List.getElem?_eq_getElem (by omega),
      Option.map_some, ← h6']

/-- **C89 is refuted** by the same solution: nothing disturbs the state (unit transition matrices, no
process noise), the last estimate has deviation 1, and the smoothed deviation of entry 0 is 0. -/
theorem smoother_not_last_mapped_back : ∃ out, exSol3.smooth exEnv = .ok out ∧
    ∃ e f, out.estimates[0]? = some e ∧ out.estimates[2]? = some f ∧ e.dev 0 = 0 ∧ f.dev 0 = 1 := by
  obtain ⟨out, h⟩ := exSol3_smooths
  refine ⟨out, h, ?_⟩
  obtain ⟨e, f, h1, h2, h3, _, _⟩ := smoothed_maps_forward_partial exEnv exSol3 out h 0 (by decide)
  have hf : f = exSEst 0 := by
    have : exSol3.estimates[0 + 1]? = some (exSEst 0) := rfl
    rw [this] at h2
    exact (Option.some.inj h2).symm
  subst hf
  have hlast := (smoother_epochs_partial exEnv exSol3 out h).2.2.2.1
  have hlen : out.estimates.length = 3 := by
    have := congrArg List.length (smoother_epochs_partial exEnv exSol3 out h).2.1
    simpa [exSol3] using this
  refine ⟨e, exSEst 1, h1, ?_, ?_, rfl⟩
  · rw [List.getLast?_eq_getElem?, hlen] at hlast
    exact hlast
  · have := congrFun h3 0
    simpa [exSEst] using this

/-- The hypotheses of the theorems on smoothed solutions hold of the example. -/
example : (∃ out, exSol3.smooth exEnv = .ok out) ∧ 0 + 1 < exSol3.estimates.length ∧
    ∀ e ∈ exSol3.estimates, SymPsd e.covar := by
  refine ⟨exSol3_smooths, by decide, ?_⟩
  intro e he
  simp only [exSol3, List.mem_cons, List.not_mem_nil, or_false] at he
  rw [symPsd_iff]
  rcases he with rfl | rfl | rfl <;> exact PosSemidef.one

example : ∃ out : SSol ℝ Unit Unit 1 1 Unit, exSol3.smooth exEnv = .ok out ∧ (∃ r', out.residuals[1]? = some r') ∧
    ∀ e ∈ out.estimates, SymPsd e.covar := by
  obtain ⟨out, h⟩ := exSol3_smooths
  refine ⟨out, h, (smoother_residuals_shifted exEnv exSol3 out h 1 (by decide)).1, smoothed_covariances_psd exEnv exSol3 out h ?_⟩
  intro e he
  simp only [exSol3, List.mem_cons, List.not_mem_nil, or_false] at he
  rw [symPsd_iff]
  rcases he with rfl | rfl | rfl <;> exact PosSemidef.one

noncomputable example (out) (h : exSol3.smooth exEnv = .ok out) := smoother_ratios exEnv exSol3 out h 0 (by decide)

example := smooth_short_panics exEnv (⟨[exSEst 0], [some (exRes 0)], [none], [none]⟩ : SSol ℝ Unit Unit 1 1 Unit) le_rfl

end Verif.Solution
