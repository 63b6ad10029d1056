import Verif.Spacecraft.Value
/-!
C101: writing one component of the thrust direction (`State::set_value`, cosmic/spacecraft.rs:581-681). The definitions are those of
`Verif.Spacecraft.Value`.
-/
namespace Verif.Spacecraft

variable {Fr : Type}

/-- **C101, in part.** Writing a component of the thrust direction keeps the others up to a common positive factor: from the direction `d`
(zero if there is none), the direction stored is that of `d` with the component replaced, of norm one, and no other parameter changes.
Missing: the value written is read back only up to that factor (`thrust_direction_not_stored`). -/
theorem set_direction_partial (s s' : Craft ℝ Fr) (x : ℝ) (i : Fin 3) (d : Fin 3 → ℝ)
    (hd : s.dir = some d ∨ s.dir = none ∧ ∀ j, d j = 0) (hx : x ≠ 0 ∨ ∃ j, j ≠ i ∧ d j ≠ 0)
    (h : s.setValue euclid x (.thrustDir i) = some s') :
    (∃ r > 0, s'.value (.thrustDir i) = some (x / r) ∧ ∀ j, j ≠ i → s'.value (.thrustDir j) = some (d j / r)) ∧
    (∃ a b c, s'.value (.thrustDir 0) = some a ∧ s'.value (.thrustDir 1) = some b ∧ s'.value (.thrustDir 2) = some c ∧
      a ^ 2 + b ^ 2 + c ^ 2 = 1) ∧
    ∀ q, (∀ j, q ≠ .thrustDir j) → s'.value q = s.value q := by
  have hdd : (s.dir.getD fun _ => 0) = d := by
    rcases hd with hd | ⟨hd, hz⟩
    · rw [hd]; rfl
    · rw [hd]
      funext j
      exact (hz j).symm
  simp only [Craft.setValue, hdd, Option.some.injEq] at h
  set w := Function.update d i x with hw
  have hsq := euclid_sq w
  have hnn := euclid_nonneg w
  have hne : ∃ j, w j ≠ 0 := by
    rcases hx with hx | ⟨j, hj, hx⟩
    · exact ⟨i, by simpa [hw] using hx⟩
    · exact ⟨j, by simpa [hw, hj] using hx⟩
  have hpos : 0 < euclid w := by
    rcases hnn.lt_or_eq with hp | hp
    · exact hp
    · exfalso
      rw [← hp] at hsq
      obtain ⟨j, hj⟩ := hne
      apply hj
      have h0 := sq_nonneg (w 0)
      have h1 := sq_nonneg (w 1)
      have h2 := sq_nonneg (w 2)
      fin_cases j <;> exact pow_eq_zero_iff (two_ne_zero) |>.1 (by simp; nlinarith)
  subst h
  refine ⟨⟨euclid w, hpos, ?_, ?_⟩, ⟨w 0 / euclid w, w 1 / euclid w, w 2 / euclid w, rfl, rfl, rfl, ?_⟩, ?_⟩
  · simp [Craft.value, unit, hw]
  · intro j hj
    simp [Craft.value, unit, hw, hj]
  · have : euclid w ≠ 0 := hpos.ne'
    field_simp
    nlinarith
  · intro q hq
    cases q <;> first | rfl | exact absurd rfl (hq _)

example := set_direction_partial { exReal with dir := some ![1, 0, 0] } _ 1 1 ![1, 0, 0] (.inl rfl) (.inl one_ne_zero) rfl
example := set_direction_partial exReal _ 1 0 (fun _ => 0) (.inr ⟨rfl, fun _ => rfl⟩) (.inl one_ne_zero) rfl

end Verif.Spacecraft
