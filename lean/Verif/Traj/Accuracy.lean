import Verif.Traj.Interp
import Verif.Propagate.Accuracy
import Mathlib.Analysis.SpecialFunctions.Pow.Deriv
import Mathlib.Analysis.SpecialFunctions.Trigonometric.Deriv
/-!
C222: a propagation which stores its trajectory, then `Traj::at`: the accuracy end to end.
-/
namespace Verif.Traj
open Finset Verif.Rk Verif.Propagate

variable {X Er Fr : Type}

/-- The states are `h` nanoseconds apart. -/
def Grid (h : Int) (l : List (St X)) : Prop := ∀ (j : Nat) (a b : St X), l[j]? = some a → l[j + 1]? = some b → b.epoch - a.epoch = h

theorem Grid.snoc {h : Int} {l : List (St X)} {e : Int} {s : St X} (hl : Grid h l) (he : ∃ a, l.getLast? = some a ∧ a.epoch = e) (hs : s.epoch - e = h) :
    Grid h (l ++ [s]) := by
  intro j a b ha hb
  obtain ⟨la, hla, hle⟩ := he
  by_cases hj : j + 1 < l.length
  · rw [List.getElem?_append_left hj] at hb
    rw [List.getElem?_append_left (by omega)] at ha
    exact hl j a b ha hb
  · have hlt := (List.getElem?_eq_some_iff.1 hb).1
    rw [List.length_append, List.length_singleton] at hlt
    have hj' : j + 1 = l.length := by omega
    rw [hj', List.getElem?_concat_length] at hb
    rw [List.getElem?_append_left (by omega)] at ha
    rw [List.getLast?_eq_getElem?, show l.length - 1 = j by omega, ha] at hla
    cases hla
    cases hb
    omega

/-- A fixed step over a multiple of it stores states which are one step apart. -/
theorem loop_grid (env : Env X Er Fr) (hk : env.KeepsEpoch) (stop dt : Int) (hh : 0 < dt) (orig : Option Fr) (start : St X) (n : Nat) :
    ∀ (i : Inst X) (sent : List (St X)) (o : Outcome X Er Unit), i.fixed = true → i.step = dt → (∃ K : Nat, stop - i.st.epoch = K * dt) →
      Grid dt (start :: sent) → (∃ a, (start :: sent).getLast? = some a ∧ a.epoch = i.st.epoch) → loop env never false stop orig n i sent () = some o →
      Grid dt (start :: o.sent) := by
  induction n with
  | zero => intro i sent o _ _ _ _ _ h; cases h
  | succ n ih =>
    intro i sent o hf hs ⟨K, hK⟩ hg hl h
    unfold loop at h
    simp only at h
    split at h
    · rename_i hc
      have hzero : stop = i.st.epoch := by
        simp only [true_and, Bool.false_eq_true, false_and, or_false] at hc
        rw [hs] at hc
        rcases Nat.eq_zero_or_pos K with h0 | h0
        · rw [h0] at hK; push_cast at hK; omega
        · have : (1 : Int) ≤ K := by exact_mod_cast h0
          nlinarith
      rw [if_pos hzero] at h
      simp only [Option.some.injEq] at h
      rw [← h, (rotateBack_spec env hk orig i sent ()).1]
      exact hg
    · rename_i hc
      split at h
      · cases h
        exact hg
      · rename_i i' hi'
        simp only [never] at h
        have hadv : i'.fixed = true ∧ i'.step = dt ∧ i'.st.epoch = i.st.epoch + dt := by
          unfold singleStep derive at hi'
          rw [if_pos hf] at hi'
          split at hi'
          · cases hi'
          · rename_i d hd
            split at hd
            · cases hd
            · cases hd
              simp only at hi'
              split at hi'
              · cases hi'
              · rename_i s' hs'
                have he := hk.fin _ _ hs'
                cases hi'
                exact ⟨hf, hs, by rw [he, hs]⟩
        obtain ⟨a1, a2, a3⟩ := hadv
        refine ih i' _ o a1 a2 ?_ ?_ ?_ h
        · have hK0 : 0 < K := by
            rcases Nat.eq_zero_or_pos K with h0 | h0
            · rw [h0] at hK; push_cast at hK
              simp only [true_and, Bool.false_eq_true, false_and, or_false] at hc
              omega
            · exact h0
          refine ⟨K - 1, ?_⟩
          have : ((K - 1 : ℕ) : Int) = K - 1 := by omega
          rw [this, a3]
          linarith
        · rw [← List.cons_append]
          exact hg.snoc hl (by omega)
        · exact ⟨i'.st, by rw [← List.cons_append, List.getLast?_concat], rfl⟩

theorem forDuration_grid [DecidableEq Fr] (env : Env X Er Fr) (hk : env.KeepsEpoch) (fuel N : Nat) (i : Inst X) (hf : i.fixed = true) (hs : 0 < i.step)
    (hN : 0 < N) (o : Outcome X Er Unit) (h : forDuration env fuel (N * i.step) i = some o) : Grid i.step (i.st :: o.sent) := by
  have h0 : Grid i.step [i.st] := by
    intro j a b ha hb
    have := (List.getElem?_eq_some_iff.1 hb).1
    simp at this
  have hd : (N : Int) * i.step > 0 := by positivity
  unfold forDuration at h
  rcases propagate_cases env hk never fuel _ i () hd.ne' with ⟨e, i', h'⟩ | ⟨i', orig, h', h1, h2, h3, -⟩
  · rw [h'] at h
    cases h
    exact h0
  · rw [h', show decide ((N : Int) * i.step < 0) = false by simp; omega] at h
    rw [if_neg (by omega)] at h3
    exact loop_grid env hk _ i.step hs orig i.st fuel i' [] o (by rw [h2, hf]) h3 ⟨N, by rw [h1]; ring⟩ h0 ⟨i.st, rfl, h1.symm⟩ h

/-- **C222.** A propagation with a fixed step of a method of order `p` with exact coefficients, from a state of a smooth trajectory `z`, over a number of steps,
stored by `for_duration_with_traj` whatever the order in which the states are delivered. At every epoch, stored or not, the position returned by `at` is within a
constant times the step to the power `p` of the exact one, and the velocity within a constant times the step to the power `p - 1`. The constant and the largest step
depend only on the equations, the trajectory and the method. -/
theorem propagated_at_error [DecidableEq Fr] (mt : Method)
    (hmt : mt = .dormandPrince45 ∨ mt = .rungeKutta4 ∨ mt = .cashKarp45 ∨ mt = .verner56) (f : ℝ → PosVel → PosVel) (z : ℝ → PosVel) (a b : ℝ)
    (hz : Along f mt.tab.order z a b) (x : Fin 3 → Nat → ℝ → ℝ) (hx : ∀ k, Derivs (x k) 26 a b) (hx26 : ∀ k, ContinuousOn (x k 26) (Set.Icc a b))
    (h0 : ∀ k, ∀ t ∈ Set.Icc a b, x k 0 t = (z t).1 k) (h1 : ∀ k, ∀ t ∈ Set.Icc a b, x k 1 t = (z t).2 k) {herm : HermiteEval} (hh : herm.Ok) :
    ∃ c hmax : ℝ, 0 ≤ c ∧ 0 < hmax ∧ ∀ (env : Env PosVel Er Fr), Integrates env mt f 0 → env.KeepsEpoch →
      ∀ (fuel N : Nat) (i : Inst PosVel) (o : Outcome PosVel Er Unit) (s : St PosVel), i.fixed = true → 2 ≤ i.step → secs i.step ≤ hmax → 11 ≤ N →
      a ≤ secs i.st.epoch → secs (i.st.epoch + N * i.step) ≤ b → i.st.x = z (secs i.st.epoch) →
      forDuration env fuel (N * i.step) i = some o → o.res = .ok s →
      ∀ (delivered : List (TS PosVel)), delivered.Perm (o.sent.map ofSt) →
      ∀ (search : List Int → Int → Except Nat Nat) (epoch : Int), SearchOk ((withTraj delivered (ofSt i.st)).map TS.epoch) epoch
        (search ((withTraj delivered (ofSt i.st)).map TS.epoch) epoch) →
      ∀ r, at_ search (interpolate herm) (withTraj delivered (ofSt i.st)) epoch = .ok r → r.epoch = epoch ∧ ∀ k,
        |r.x.1 k - (z (secs epoch)).1 k| ≤ c * secs i.step ^ mt.tab.order ∧
        |r.x.2 k - (z (secs epoch)).2 k| ≤ c * secs i.step ^ (mt.tab.order - 1) := by
  have hp : 1 ≤ mt.tab.order ∧ mt.tab.order ≤ 9 := by cases mt <;> decide
  obtain ⟨c1, h0', hc1, hh0, hprop⟩ := propagation_exact (Er := Er) (Fr := Fr) (C := Unit) mt hmt f z a b hz
  have hbound : ∀ (k : Fin 3) (j : Nat), ∃ m : ℝ, 0 ≤ m ∧ (j ≤ 26 → ∀ t ∈ Set.Icc a b, |x k j t| ≤ m) := by
    intro k j
    by_cases hj : j ≤ 26
    · have hcont : ContinuousOn (x k j) (Set.Icc a b) := by
        rcases Nat.lt_or_ge j 26 with h | h
        · exact fun t ht => (hx k j h t ht).continuousAt.continuousWithinAt
        · rw [show j = 26 by omega]
          exact hx26 k
      obtain ⟨m, hm⟩ := isCompact_Icc.exists_bound_of_continuousOn hcont
      exact ⟨|m|, abs_nonneg _, fun _ t ht => (hm t ht).trans (le_abs_self m)⟩
    · exact ⟨0, le_rfl, fun h => absurd h hj⟩
  choose m hm0 hm using hbound
  obtain ⟨M, hMd⟩ : ∃ M, M = ∑ k, ∑ j ∈ range 27, m k j := ⟨_, rfl⟩
  have hM0 : 0 ≤ M := by rw [hMd]; exact sum_nonneg fun k _ => sum_nonneg fun j _ => hm0 k j
  have hM : ∀ k, ∀ j ≤ 26, ∀ t ∈ Set.Icc a b, |x k j t| ≤ M := by
    intro k j hj t ht
    refine (hm k j hj t ht).trans ?_
    rw [hMd]
    calc m k j ≤ ∑ j ∈ range 27, m k j := single_le_sum (f := fun j => m k j) (fun j _ => hm0 k j) (mem_range.2 (by omega))
      _ ≤ ∑ k, ∑ j ∈ range 27, m k j := single_le_sum (f := fun k => ∑ j ∈ range 27, m k j) (fun k _ => sum_nonneg fun j _ => hm0 k j) (mem_univ k)
  refine ⟨M * 12 ^ 26 + 8 * 13 ^ 3 * 12 ^ 39 * (13 * c1), min h0' 1, by positivity, by positivity, ?_⟩
  intro env hI hk fuel N i o s hf hstep hH hN hta htb hxi hrun hres delivered hperm search epoch hsearch r hr
  obtain ⟨H, hHd⟩ : ∃ H, H = secs i.step := ⟨_, rfl⟩
  have hH0 : 0 < H := by
    have : secs 0 < secs i.step := secs_lt.2 (by omega)
    rw [hHd]
    simpa [secs, toSec] using this
  rw [← hHd] at hH ⊢
  have hH1 : H ≤ 1 := hH.trans (min_le_right _ _)
  have hsub : ∀ u v : Int, secs u - secs v = secs (u - v) := by
    intro u v
    unfold secs toSec
    push_cast
    ring
  have hmul : ∀ (n : Nat) (u : Int), secs (n * u) = n * secs u := by
    intro n u
    unfold secs toSec
    push_cast
    ring
  have hle : ∀ {u v : Int}, u ≤ v → secs u ≤ secs v := by
    intro u v huv
    rcases huv.lt_or_eq with h | h
    · exact (secs_lt.2 h).le
    · rw [h]
  have hd0 : (0 : Int) < N * i.step := by
    have : (0 : Int) < N := by omega
    positivity
  have hdr : Drivable env 2 i := ⟨by norm_num, hstep, fun h => by rw [hf] at h; cases h⟩
  obtain ⟨e1, hsorted⟩ := for_duration_with_traj_deterministic env hk fuel _ i 2 hdr (fun _ => le_rfl) o hrun delivered hperm
  rw [if_neg (by omega)] at e1
  rw [e1] at hr hsearch hsorted
  have hgrid := forDuration_grid env hk fuel N i hf (by omega) (by omega) o hrun
  have hgaps : Gaps H H ((i.st :: o.sent).map ofSt) := by
    intro j u v hu hv
    rw [List.getElem?_map, Option.map_eq_some_iff] at hu hv
    obtain ⟨u', hu', rfl⟩ := hu
    obtain ⟨v', hv', rfl⟩ := hv
    have := hgrid j u' v' hu' hv'
    have e : secs (ofSt v').epoch - secs (ofSt u').epoch = H := by
      rw [hsub, hHd, ← this]
      rfl
    rw [e]
    exact ⟨le_rfl, le_rfl⟩
  obtain ⟨⟨la, l1, l2, -⟩, -⟩ := forDuration_completed env hk fuel _ i 2 hd0.ne' hdr (fun _ => le_rfl) o s hrun hres
  have hlen : o.sent.length = N := by
    have hne : o.sent ≠ [] := by rintro h; rw [h] at l1; cases l1
    have hpos : 0 < o.sent.length := List.length_pos_of_ne_nil hne
    have hlast : ((i.st :: o.sent).map ofSt)[0 + o.sent.length]? = some (ofSt la) := by
      rw [List.getLast?_eq_getElem?] at l1
      rw [List.getElem?_map, Nat.zero_add, show o.sent.length = (o.sent.length - 1) + 1 by omega, List.getElem?_cons_succ, l1]
      rfl
    have h := hgaps.span o.sent.length 0 (ofSt i.st) (ofSt la) (by simp) hlast
    have e : secs (ofSt la).epoch - secs (ofSt i.st).epoch = N * H := by
      rw [hsub, hHd, ← hmul]
      congr 1
      show la.epoch - i.st.epoch = _
      rw [l2]
      ring
    rw [e] at h
    have := le_antisymm h.1 h.2
    exact_mod_cast mul_right_cancel₀ hH0.ne' this
  have hta' : secs i.st.epoch ∈ Set.Icc a b := ⟨hta, (hle (by omega)).trans htb⟩
  have hprop' := (hprop env hI hk never fuel _ i () o hf hstep (by rw [← secs, ← hHd]; exact hH.trans (min_le_left _ _)) hta'
    ⟨hta.trans (hle (by omega)), htb⟩ hxi hrun).2
  rw [← secs, ← hHd] at hprop'
  obtain ⟨-, hpast⟩ := propagate_published_ordered env hk never fuel _ i () 2 hdr (fun _ => le_rfl) o hrun
  have hrange : ∀ w ∈ (i.st :: o.sent).map ofSt, secs w.epoch ∈ Set.Icc a b := by
    intro w hw
    rw [List.mem_map] at hw
    obtain ⟨w', hw', rfl⟩ := hw
    show secs w'.epoch ∈ _
    rcases List.mem_cons.1 hw' with rfl | hw'
    · exact hta'
    · obtain ⟨q1, q2⟩ := hpast w' hw'
      rw [show decide ((N : Int) * i.step < 0) = false by simp; omega] at q1 q2
      simp only [After, dirn] at q1 q2
      simp at q1 q2
      exact ⟨hta.trans (hle (by omega)), (hle (by omega)).trans htb⟩
  have hstores : ∀ w ∈ (i.st :: o.sent).map ofSt, Stores x (c1 * H ^ mt.tab.order) (c1 * H ^ mt.tab.order) w := by
    intro w hw
    have hwr := hrange w hw
    rw [List.mem_map] at hw
    obtain ⟨w', hw', rfl⟩ := hw
    have hnorm : ‖w'.x - z (secs w'.epoch)‖ ≤ c1 * H ^ mt.tab.order := by
      rcases List.mem_cons.1 hw' with rfl | hw'
      · rw [hxi, sub_self, norm_zero]
        positivity
      · exact hprop' w' hw'
    constructor
    · intro k
      rw [h0 k _ hwr]
      exact ((norm_le_pi_norm (w'.x - z (secs w'.epoch)).1 k).trans (norm_fst_le _)).trans hnorm
    · intro k
      rw [h1 k _ hwr]
      exact ((norm_le_pi_norm (w'.x - z (secs w'.epoch)).2 k).trans (norm_snd_le _)).trans hnorm
  have hεn : 0 ≤ c1 * H ^ mt.tab.order := by positivity
  have hep : secs epoch ∈ Set.Icc a b := by
    have hin : ¬ (epoch < i.st.epoch) ∧ ¬ (la.epoch < epoch) := by
      constructor
      · intro hc
        rw [at_outside search (interpolate herm) _ epoch (Or.inr (Or.inl ⟨ofSt i.st, by simp, hc⟩))] at hr
        cases hr
      · intro hc
        rw [at_outside search (interpolate herm) _ epoch (Or.inr (Or.inr ⟨ofSt la, ?_, hc⟩))] at hr
        · cases hr
        · rw [List.getLast?_map, List.getLast?_cons, l1]
          rfl
    exact ⟨hta.trans (hle (by omega)), (hle (by omega)).trans htb⟩
  obtain ⟨r1, n, n1, n2, r2⟩ := at_error hh (M := M) hH0 hsorted hgaps le_rfl hstores hrange hx hM hεn hεn hsearch hr
  refine ⟨r1, fun k => ?_⟩
  obtain ⟨r3, r4⟩ := r2 k
  rw [h0 k _ hep] at r3
  rw [h1 k _ hep] at r4
  have hκ : 12 * H / H = 12 := by field_simp
  rw [hκ] at r3 r4
  have hn12 : 12 ≤ n := by
    rw [List.length_map, List.length_cons, hlen] at n1
    omega
  have hamp : amplification n 12 ≤ 8 * 13 ^ 3 * 12 ^ 39 := by
    unfold amplification
    have a1 : (n : ℝ) ≤ 13 := by exact_mod_cast n2
    have a2 : (12 : ℝ) ^ (3 * n) ≤ 12 ^ 39 := pow_le_pow_right₀ (by norm_num) (by omega)
    gcongr
  have hamp0 : 0 ≤ amplification n 12 := by unfold amplification; positivity
  have hpow : ∀ j q : Nat, q ≤ j → j ≤ 26 → (12 * H) ^ j ≤ 12 ^ 26 * H ^ q := by
    intro j q hq hj
    rw [mul_pow]
    exact mul_le_mul (pow_le_pow_right₀ (by norm_num) hj) (pow_le_pow_of_le_one hH0.le hH1 hq) (by positivity) (by positivity)
  have hfact : ∀ (j q : Nat), q ≤ j → j ≤ 26 → M * (12 * H) ^ j / j.factorial ≤ M * 12 ^ 26 * H ^ q := by
    intro j q hq hj
    have hf1 : (1 : ℝ) ≤ j.factorial := by exact_mod_cast j.factorial_pos
    calc M * (12 * H) ^ j / j.factorial ≤ M * (12 * H) ^ j := div_le_self (by positivity) hf1
      _ ≤ M * (12 ^ 26 * H ^ q) := by gcongr; exact hpow j q hq hj
      _ = M * 12 ^ 26 * H ^ q := by ring
  have hpp : H ^ mt.tab.order = H ^ (mt.tab.order - 1) * H := by rw [← pow_succ, Nat.sub_add_cancel hp.1]
  constructor
  · refine r3.trans ?_
    have q1 := hfact (2 * n) mt.tab.order (by omega) (by omega)
    have q2 : amplification n 12 * (c1 * H ^ mt.tab.order + 12 * H * (c1 * H ^ mt.tab.order)) ≤ 8 * 13 ^ 3 * 12 ^ 39 * (13 * c1 * H ^ mt.tab.order) := by
      refine mul_le_mul hamp ?_ (by positivity) (by positivity)
      nlinarith
    linarith
  · refine r4.trans ?_
    have q1 := hfact (2 * n - 1) (mt.tab.order - 1) (by omega) (by omega)
    have q2 : amplification n 12 * (c1 * H ^ mt.tab.order / H + c1 * H ^ mt.tab.order) ≤ 8 * 13 ^ 3 * 12 ^ 39 * (13 * c1 * H ^ (mt.tab.order - 1)) := by
      refine mul_le_mul hamp ?_ (by positivity) (by positivity)
      rw [hpp]
      have e2 : c1 * (H ^ (mt.tab.order - 1) * H) / H = c1 * H ^ (mt.tab.order - 1) := by field_simp
      rw [e2]
      have : 0 ≤ c1 * H ^ (mt.tab.order - 1) := by positivity
      nlinarith
    linarith

/-! ### Non-vacuity -/

/-- An interpolation with the properties asked of `hermite_eval`. -/
noncomputable def refHermite : HermiteEval := fun ts xs vs t =>
  let Q := hermitePoly ts.toFinset (fun s => xs.getD (ts.idxOf s) 0) (fun s => vs.getD (ts.idxOf s) 0)
  some (Q.eval t, Q.derivative.eval t)

theorem refHermite_ok : refHermite.Ok := by
  intro ts xs vs t p v hs hx hv h
  cases h
  have hnd : ts.Nodup := hs.imp fun h => h.ne
  refine ⟨_, ?_, ?_, rfl, rfl⟩
  · rcases Nat.eq_zero_or_pos ts.length with h0 | h0
    · have : ts = [] := List.length_eq_zero_iff.1 h0
      subst this
      simp [hermitePoly]
    · have hc : ts.toFinset.card = ts.length := List.toFinset_card_of_nodup hnd
      have := hermitePoly_degree (S := ts.toFinset) (fun s => xs.getD (ts.idxOf s) 0) (fun s => vs.getD (ts.idxOf s) 0) (by rw [hc]; exact h0)
      rw [hc] at this
      exact this
  · intro j s x y hj hxj hvj
    obtain ⟨hlt, e⟩ := List.getElem?_eq_some_iff.1 hj
    have hmem : s ∈ ts.toFinset := by rw [List.mem_toFinset]; exact List.mem_of_getElem? hj
    have hidx : ts.idxOf s = j := by rw [← e]; exact hnd.idxOf_getElem j hlt
    rw [hermitePoly_value _ _ hmem, hermitePoly_slope _ _ hmem, hidx, List.getD_eq_getElem?_getD, List.getD_eq_getElem?_getD, hxj, hvj]
    exact ⟨rfl, rfl⟩

/-- Two-body motion with a gravitational parameter of one. -/
noncomputable def kepler (_ : ℝ) (w : PosVel) : PosVel := (w.2, fun k => -w.1 k / (∑ j, w.1 j ^ 2) ^ (3 / 2 : ℝ))

/-- A circular orbit. -/
noncomputable def ring (t : ℝ) : PosVel := (![Real.cos t, Real.sin t, 0], ![-Real.sin t, Real.cos t, 0])

/-- Its axes and their derivatives. -/
noncomputable def ringAxis (k : Fin 3) (j : Nat) (t : ℝ) : ℝ := ![Real.cos (t + j * (Real.pi / 2)), Real.sin (t + j * (Real.pi / 2)), 0] k

theorem ringAxis_derivs (k : Fin 3) (N : Nat) (a b : ℝ) : Derivs (ringAxis k) N a b := by
  intro j _ t _
  have hs : HasDerivAt (fun t : ℝ => t + j * (Real.pi / 2)) 1 t := (hasDerivAt_id t).add_const _
  fin_cases k
  · refine (hs.cos).congr_deriv ?_
    simp only [ringAxis]
    push_cast
    rw [show t + (j + 1) * (Real.pi / 2) = t + j * (Real.pi / 2) + Real.pi / 2 by ring]
    simp [Real.cos_add_pi_div_two]
  · refine (hs.sin).congr_deriv ?_
    simp only [ringAxis]
    push_cast
    rw [show t + (j + 1) * (Real.pi / 2) = t + j * (Real.pi / 2) + Real.pi / 2 by ring]
    simp [Real.sin_add_pi_div_two]
  · exact hasDerivAt_const t 0

theorem ring_sum (t : ℝ) : ∑ j, (ring t).1 j ^ 2 = 1 := by
  rw [Fin.sum_univ_three]
  simp [ring]

theorem ring_along (p : Nat) (a b : ℝ) (hab : a ≤ b) : Along kepler p ring a b := by
  refine ⟨hab, fun t _ => Filter.Eventually.of_forall fun s => ?_, fun t _ => ?_⟩
  · have e : kepler s (ring s) = (![-Real.sin s, Real.cos s, 0], ![-Real.cos s, -Real.sin s, 0]) := by
      unfold kepler
      rw [ring_sum]
      simp only [Real.one_rpow, div_one]
      refine Prod.ext rfl ?_
      ext k
      fin_cases k <;> simp [ring]
    rw [e]
    refine HasDerivAt.prodMk (hasDerivAt_pi.2 fun k => ?_) (hasDerivAt_pi.2 fun k => ?_)
    · fin_cases k
      · exact Real.hasDerivAt_cos s
      · exact Real.hasDerivAt_sin s
      · exact hasDerivAt_const s 0
    · fin_cases k
      · exact (Real.hasDerivAt_sin s).neg
      · exact Real.hasDerivAt_cos s
      · exact hasDerivAt_const s 0
  · have hpos : ∀ k : Fin 3, ContDiffAt ℝ p (fun w : ℝ × PosVel => w.2.1 k) (t, ring t) := fun k =>
      (contDiff_apply ℝ ℝ k).contDiffAt.comp _ (contDiffAt_fst.comp _ contDiffAt_snd)
    refine (contDiffAt_snd.comp _ contDiffAt_snd).prodMk (contDiffAt_pi.2 fun k => ?_)
    have hsum : ContDiffAt ℝ p (fun w : ℝ × PosVel => ∑ j, w.2.1 j ^ 2) (t, ring t) := ContDiffAt.sum fun j _ => (hpos j).pow 2
    refine (hpos k).neg.div (hsum.rpow_const_of_ne (by simp only; rw [ring_sum]; norm_num)) ?_
    simp only
    rw [ring_sum]
    simp

/-- Fixed steps of a shipped method for `x' = f(t, x)`. -/
noncomputable def stepper (f : ℝ → PosVel → PosVel) (mt : Method) : Env PosVel Unit Unit where
  opts := { minStep := 1000000, maxStep := 10000000000, tol := 1, attempts := 50, order := mt.tab.order }
  rk := fun st s => match rkStep mt.tab (fun τ w => some (f (secs st.epoch + τ) w)) true st.x s with
    | .ok (x, _) => .ok ⟨x, 0, false⟩
    | _ => .error ()
  root := fun _ _ => 1
  finally_ := fun s => .ok s
  integrationFrame := none
  frameOf := fun _ => ()
  transform := fun _ s => .ok s

theorem stepper_integrates (f : ℝ → PosVel → PosVel) (mt : Method) : Integrates (stepper f mt) mt f 0 := by
  refine ⟨?_, ?_, rfl⟩
  · intro st s r h
    unfold stepper at h
    simp only at h
    split at h
    · rename_i x err hx
      cases h
      exact ⟨_, true, x, err, fun τ v k hk => by cases hk; rfl, hx, by simp⟩
    · cases h
  · intro s s' h
    cases h
    rfl

theorem stepper_keeps (f : ℝ → PosVel → PosVel) (mt : Method) : (stepper f mt).KeepsEpoch :=
  ⟨fun s s' h => by cases h; rfl, fun f s s' h => by cases h; rfl⟩

example := propagated_at_error (Er := Unit) (Fr := Unit) .dormandPrince45 (by simp) kepler ring 0 100 (ring_along _ 0 100 (by norm_num)) ringAxis
  (fun k => ringAxis_derivs k 26 0 100) (fun k t ht => (ringAxis_derivs k 27 0 100 26 (by norm_num) t ht).continuousAt.continuousWithinAt)
  (fun k t _ => by fin_cases k <;> simp [ringAxis, ring])
  (fun k t _ => by fin_cases k <;> simp [ringAxis, ring, Real.cos_add_pi_div_two, Real.sin_add_pi_div_two]) refHermite_ok

/-- Twenty states of the circular orbit, one second apart. -/
noncomputable def ringStates : List (TS PosVel) := (List.range 20).map fun (j : Nat) => ⟨(j : Int) * 1000000000, ring j⟩

theorem ringStates_get (j : Nat) (s : TS PosVel) (h : ringStates[j]? = some s) : s = ⟨j * 1000000000, ring j⟩ := by
  unfold ringStates at h
  rw [List.getElem?_map, Option.map_eq_some_iff] at h
  obtain ⟨i, hi, rfl⟩ := h
  obtain ⟨_, hi⟩ := List.getElem?_eq_some_iff.1 hi
  rw [List.getElem_range] at hi
  rw [hi]

theorem ringStates_secs (j : Nat) : secs ((j : Int) * 1000000000) = j := by
  unfold secs toSec
  push_cast
  field_simp

theorem ringStates_sorted : Sorted ringStates := by
  unfold Sorted ringStates
  rw [List.pairwise_map]
  exact (List.pairwise_lt_range (n := 20)).imp fun h => by simp only; omega

example (epoch : Int) (r : TS PosVel) (h : at_ linSearch (interpolate refHermite) ringStates epoch = .ok r) :=
  at_error refHermite_ok (x := ringAxis) (g := 1) (G := 1) (M := 1) (ε := 0) (ε' := 0) (T₀ := 0) (T₁ := 20) one_pos ringStates_sorted
    (fun j a b ha hb => by
      rw [ringStates_get j a ha, ringStates_get (j + 1) b hb]
      simp only [ringStates_secs]
      push_cast
      constructor <;> linarith) le_rfl
    (fun s hs => by
      obtain ⟨j, hj, e⟩ := List.getElem_of_mem hs
      have := ringStates_get j s (by rw [List.getElem?_eq_getElem hj, e])
      subst this
      constructor <;> intro k <;> simp only [ringStates_secs] <;>
        fin_cases k <;> simp [ringAxis, ring, Real.cos_add_pi_div_two, Real.sin_add_pi_div_two])
    (fun s hs => by
      obtain ⟨j, hj, e⟩ := List.getElem_of_mem hs
      have := ringStates_get j s (by rw [List.getElem?_eq_getElem hj, e])
      subst this
      simp only [ringStates_secs]
      have : j < 20 := by simpa [ringStates] using hj
      have : (j : ℝ) ≤ 20 := by exact_mod_cast this.le
      exact ⟨by positivity, this⟩)
    (fun k => ringAxis_derivs k 26 0 20)
    (fun k j _ t _ => by fin_cases k <;> simp [ringAxis, Real.abs_cos_le_one, Real.abs_sin_le_one]) le_rfl le_rfl
    (linSearch_ok _ _ (by rw [List.pairwise_map]; exact ringStates_sorted)) h

end Verif.Traj
