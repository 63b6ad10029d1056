import Verif.Device.Model
import Mathlib.Data.List.Perm.Basic
/-!
C44: constant biases. C122: configuration of a ground station.
-/
namespace Verif.Device
open Verif.Noise Verif.Spacecraft
open Verif.Mc (Out)

/-! ### Lemmas on maps and sets -/

section
variable {α : Type}

theorem find_some_mem {k : MsrType} {m : List (MsrType × α)} {v : α} (h : find k m = some v) : (k, v) ∈ m := by
  induction m with
  | nil => cases h
  | cons p l ih =>
    unfold find at h
    split at h
    · rename_i hp
      cases h
      subst hp
      exact List.mem_cons_self
    · exact List.mem_cons_of_mem _ (ih h)

theorem find_of_mem {k : MsrType} {m : List (MsrType × α)} {v : α} (hm : (m.map Prod.fst).Nodup)
    (h : (k, v) ∈ m) : find k m = some v := by
  induction m with
  | nil => cases h
  | cons p l ih =>
    rw [List.map_cons, List.nodup_cons] at hm
    unfold find
    rcases List.mem_cons.1 h with h | h
    · subst h; simp
    · have : p.1 ≠ k := by
        rintro rfl
        exact hm.1 (List.mem_map.2 ⟨_, h, rfl⟩)
      rw [if_neg this]
      exact ih hm.2 h

theorem find_isSome {k : MsrType} {m : List (MsrType × α)} : (find k m).isSome ↔ k ∈ m.map Prod.fst := by
  induction m with
  | nil => simp [find]
  | cons p l ih =>
    unfold find
    split
    · rename_i h; simp [h]
    · rename_i h
      rw [ih]
      simp [Ne.symm h]

theorem find_upsert {k j : MsrType} {v : α} {m : List (MsrType × α)} :
    find j (upsert k v m) = if j = k then some v else find j m := by
  induction m with
  | nil =>
    simp only [upsert, find]
    by_cases h : j = k
    · simp [h]
    · simp [h, Ne.symm h]
  | cons p l ih =>
    unfold upsert
    split
    · rename_i hp
      by_cases h : j = k
      · simp [find, h]
      · rw [if_neg h, find, if_neg (Ne.symm h), find, hp, if_neg (Ne.symm h)]
    · rename_i hp
      by_cases h : p.1 = j
      · have : j ≠ k := by rintro rfl; exact hp h
        simp [find, h, this]
      · rw [find, if_neg h, ih, find, if_neg h]

theorem keys_upsert (k : MsrType) (v : α) (m : List (MsrType × α)) :
    (upsert k v m).map Prod.fst = insertSet k (m.map Prod.fst) := by
  induction m with
  | nil => simp [upsert, insertSet]
  | cons p l ih =>
    unfold upsert
    split
    · rename_i h; simp [insertSet, h]
    · rename_i h
      rw [List.map_cons, ih]
      unfold insertSet
      simp only [List.map_cons, List.mem_cons, Ne.symm h, false_or]
      split <;> simp

theorem nodup_insertSet {k : MsrType} {l : List MsrType} (h : l.Nodup) : (insertSet k l).Nodup := by
  unfold insertSet
  split
  · exact h
  · rename_i hk
    rw [List.nodup_append]
    exact ⟨h, by simp, by rintro a ha b hb rfl; simp at hb; exact hk (hb ▸ ha)⟩

theorem mem_insertSet {k j : MsrType} {l : List MsrType} : j ∈ insertSet k l ↔ j = k ∨ j ∈ l := by
  unfold insertSet
  split
  · constructor
    · exact Or.inr
    · rintro (rfl | h)
      · assumption
      · exact h
  · simp [or_comm]

theorem swapRemove_perm (p : α → Bool) (l : List α) : (swapRemove p l).Perm (l.eraseP p) := by
  unfold swapRemove
  cases hi : l.findIdx? p with
  | none =>
    rw [List.findIdx?_eq_none_iff] at hi
    rw [List.eraseP_of_forall_not (by simpa using hi)]
    exact List.Perm.refl _
  | some i =>
    rw [List.findIdx?_eq_some_iff_getElem] at hi
    obtain ⟨h, hp, hb⟩ := hi
    obtain ⟨l1, a, l2, hl, hlen⟩ : ∃ l1 a l2, l = l1 ++ a :: l2 ∧ l1.length = i :=
      ⟨l.take i, l[i], l.drop (i + 1), by simp, by simp; omega⟩
    subst hl
    subst hlen
    have ha : p a = true := by simpa using hp
    have hn : ∀ b ∈ l1, ¬ p b = true := by
      intro b hb'
      obtain ⟨j, hj, rfl⟩ := List.mem_iff_getElem.1 hb'
      have := hb j hj
      simpa [List.getElem_append_left hj] using this
    rw [List.eraseP_append_right _ hn, List.eraseP_cons_of_pos ha]
    rcases List.eq_nil_or_concat l2 with rfl | ⟨m, b, rfl⟩
    · simp
    · simp only [List.getLast?_append, List.getLast?_cons, List.concat_eq_append, Option.elim_some]
      simp only [Option.some_or, Option.getD_some,
        Option.elim_some, List.set_append_right _ _ (Nat.le_refl _), Nat.sub_self, List.set_cons_zero]
      rw [← List.cons_append, ← List.append_assoc, List.dropLast_concat]
      exact List.Perm.append_left _ (List.perm_append_comm (l₁ := [b]) (l₂ := m))

theorem mem_swapRemove_keys {k : MsrType} {m : List (MsrType × α)} (hm : (m.map Prod.fst).Nodup) (j : MsrType)
    (v : α) : (j, v) ∈ swapRemove (fun p : MsrType × α => p.1 = k) m ↔ j ≠ k ∧ (j, v) ∈ m := by
  rw [(swapRemove_perm _ m).mem_iff]
  induction m with
  | nil => simp
  | cons p l ih =>
    rw [List.map_cons, List.nodup_cons] at hm
    by_cases h : p.1 = k
    · rw [List.eraseP_cons_of_pos (by simpa using h)]
      have h2 : ∀ w, (k, w) ∉ l := fun w hw => hm.1 (List.mem_map.2 ⟨_, hw, h.symm⟩)
      constructor
      · intro hj
        exact ⟨by rintro rfl; exact h2 _ hj, List.mem_cons_of_mem _ hj⟩
      · rintro ⟨h3, h4⟩
        rcases List.mem_cons.1 h4 with h4 | h4
        · exact absurd (by rw [← h4] at h; exact h) h3
        · exact h4
    · rw [List.eraseP_cons_of_neg (by simpa using h), List.mem_cons, List.mem_cons, ih hm.2]
      constructor
      · rintro (h1 | ⟨h1, h2⟩)
        · exact ⟨by rintro rfl; rw [← h1] at h; exact h rfl, Or.inl h1⟩
        · exact ⟨h1, Or.inr h2⟩
      · rintro ⟨h1, h2 | h2⟩
        · exact Or.inl h2
        · exact Or.inr ⟨h1, h2⟩

theorem nodup_swapRemove_keys {k : MsrType} {m : List (MsrType × α)} (hm : (m.map Prod.fst).Nodup) :
    ((swapRemove (fun p : MsrType × α => p.1 = k) m).map Prod.fst).Nodup := by
  rw [((swapRemove_perm _ m).map _).nodup_iff]
  exact List.Nodup.sublist (List.Sublist.map _ List.eraseP_sublist) hm

theorem mem_swapRemove_set {k : MsrType} {l : List MsrType} (hl : l.Nodup) (j : MsrType) :
    j ∈ swapRemove (fun a : MsrType => a = k) l ↔ j ≠ k ∧ j ∈ l := by
  rw [(swapRemove_perm _ l).mem_iff]
  have : l.eraseP (fun a : MsrType => a = k) = l.erase k := by
    rw [List.erase_eq_eraseP]
    congr 1
    funext a
    by_cases h : a = k
    · simp [h]
    · simp [h, Ne.symm h]
  rw [this, hl.mem_erase_iff]

theorem nodup_swapRemove_set {k : MsrType} {l : List MsrType} (hl : l.Nodup) :
    (swapRemove (fun a : MsrType => a = k) l).Nodup := by
  rw [(swapRemove_perm _ l).nodup_iff]
  exact List.Nodup.sublist List.eraseP_sublist hl

end

/-! ### C122: configuration of a ground station -/

/-- Specification: the station has the noise `n` for the type `k`. -/
def Station.Has (st : Station) (k : MsrType) (n : Stoch) : Prop := ∃ m, st.noises = some m ∧ (k, n) ∈ m

/-- Specification: the stations which can be built from a point. -/
inductive Built : Station → Prop
  | point (name : String) : Built (Station.fromPoint name)
  | withType (st : Station) (k : MsrType) (n : Stoch) : Built st → Built (st.withType k n)
  | withoutType (st : Station) (k : MsrType) : Built st → Built (st.withoutType k)
  | withInteg (st : Station) (t : Option Int) : Built st → Built (st.withInteg t)
  | withBias (st st' : Station) (k : MsrType) (c : ℝ) : Built st → st.withBias k c = .ok st' → Built st'

/-- A consistent station: no repeated type or noise, and a noise exactly for the enabled types. -/
structure Consistent (st : Station) : Prop where
  types : st.types.Nodup
  keys : ((st.noises.getD []).map Prod.fst).Nodup
  same : ∀ k, k ∈ st.types ↔ k ∈ (st.noises.getD []).map Prod.fst

theorem withBias_ok {st st' : Station} {k : MsrType} {c : ℝ} (h : st.withBias k c = .ok st') :
    ∃ n, find k (st.noises.getD []) = some n ∧ st' = ⟨st.name, st.types, st.integ, st.stamp,
      some (upsert k ⟨n.white, some (n.bias.getD Gm.zero)⟩ (st.noises.getD []))⟩ := by
  unfold Station.withBias at h
  cases hf : find k (st.noises.getD []) with
  | none => rw [hf] at h; cases h
  | some n =>
    rw [hf] at h
    simp only [Option.elim_some, Out.ok.injEq] at h
    exact ⟨n, rfl, h.symm⟩

theorem built_consistent {st : Station} (h : Built st) : Consistent st := by
  induction h with
  | point name => exact ⟨by simp [Station.fromPoint], by simp [Station.fromPoint], by simp [Station.fromPoint]⟩
  | withType st k n _ ih =>
    refine ⟨nodup_insertSet ih.types, ?_, ?_⟩
    · simp only [Station.withType, Option.getD_some, keys_upsert]
      exact nodup_insertSet ih.keys
    · intro j
      simp only [Station.withType, Option.getD_some, keys_upsert, mem_insertSet, ih.same]
  | withoutType st k _ ih =>
    have e : (st.withoutType k).noises.getD [] = swapRemove (fun p => p.1 = k) (st.noises.getD []) := by
      unfold Station.withoutType
      cases st.noises <;> rfl
    refine ⟨nodup_swapRemove_set ih.types, ?_, ?_⟩
    · rw [e]; exact nodup_swapRemove_keys ih.keys
    · intro j
      rw [e]
      show j ∈ swapRemove (fun a : MsrType => a = k) st.types ↔ _
      rw [mem_swapRemove_set ih.types, ih.same]
      constructor
      · rintro ⟨h1, h2⟩
        obtain ⟨⟨a, v⟩, h3, rfl⟩ := List.mem_map.1 h2
        exact List.mem_map.2 ⟨_, (mem_swapRemove_keys ih.keys _ _).2 ⟨h1, h3⟩, rfl⟩
      · intro h1
        obtain ⟨⟨a, v⟩, h3, rfl⟩ := List.mem_map.1 h1
        have := (mem_swapRemove_keys ih.keys _ _).1 h3
        exact ⟨this.1, List.mem_map.2 ⟨_, this.2, rfl⟩⟩
  | withInteg st t _ ih => exact ⟨ih.types, ih.keys, ih.same⟩
  | withBias st st' k c _ h ih =>
    obtain ⟨n, hn, rfl⟩ := withBias_ok h
    refine ⟨ih.types, ?_, ?_⟩
    · simp only [Option.getD_some, keys_upsert]
      exact nodup_insertSet ih.keys
    · intro j
      simp only [Option.getD_some, keys_upsert, mem_insertSet, ih.same]
      constructor
      · exact Or.inr
      · rintro (rfl | h)
        · exact find_isSome.1 (by rw [hn]; rfl)
        · exact h

/-- C122. Every station built from a point by adding and removing types, setting the integration time and
the biases, has a noise exactly for its enabled types; adding a type enables it with the noise given and
changes no other type; removing a type disables it and changes no other type. -/
theorem builders (st : Station) (h : Built st) (k : MsrType) (n : Stoch) :
    st.types.Nodup ∧ (∀ j, j ∈ st.types ↔ ∃ m, st.Has j m) ∧
    (∀ j m m', st.Has j m → st.Has j m' → m = m') ∧
    ((∀ j, j ∈ (st.withType k n).types ↔ j = k ∨ j ∈ st.types) ∧
      ∀ j m, (st.withType k n).Has j m ↔ (j = k ∧ m = n) ∨ (j ≠ k ∧ st.Has j m)) ∧
    ((∀ j, j ∈ (st.withoutType k).types ↔ j ≠ k ∧ j ∈ st.types) ∧
      ∀ j m, (st.withoutType k).Has j m ↔ j ≠ k ∧ st.Has j m) := by
  have hc := built_consistent h
  have hHas : ∀ {st : Station} {j m}, st.Has j m ↔ (j, m) ∈ st.noises.getD [] := by
    intro st j m
    unfold Station.Has
    cases st.noises with
    | none => simp
    | some l => simp
  refine ⟨hc.types, ?_, ?_, ⟨fun j => mem_insertSet, ?_⟩, ⟨fun j => mem_swapRemove_set hc.types j, ?_⟩⟩
  · intro j
    rw [hc.same]
    constructor
    · intro hj
      obtain ⟨⟨a, v⟩, h3, rfl⟩ := List.mem_map.1 hj
      exact ⟨v, hHas.2 h3⟩
    · rintro ⟨m, hm⟩
      exact List.mem_map.2 ⟨_, hHas.1 hm, rfl⟩
  · intro j m m' h1 h2
    have e1 := find_of_mem hc.keys (hHas.1 h1)
    have e2 := find_of_mem hc.keys (hHas.1 h2)
    rw [e1] at e2
    exact Option.some.inj e2
  · intro j m
    rw [hHas, hHas]
    have hk : ((upsert k n (st.noises.getD [])).map Prod.fst).Nodup := by
      rw [keys_upsert]; exact nodup_insertSet hc.keys
    show (j, m) ∈ upsert k n (st.noises.getD []) ↔ _
    constructor
    · intro hj
      have := find_of_mem hk hj
      rw [find_upsert] at this
      split at this
      · rename_i hjk; cases this; exact Or.inl ⟨hjk, rfl⟩
      · rename_i hjk; exact Or.inr ⟨hjk, find_some_mem this⟩
    · rintro (⟨rfl, rfl⟩ | ⟨h1, h2⟩)
      · exact find_some_mem (by rw [find_upsert, if_pos rfl])
      · exact find_some_mem (by rw [find_upsert, if_neg h1]; exact find_of_mem hc.keys h2)
  · intro j m
    rw [hHas, hHas]
    have e : (st.withoutType k).noises.getD [] = swapRemove (fun p => p.1 = k) (st.noises.getD []) := by
      unfold Station.withoutType
      cases st.noises <;> rfl
    rw [e, mem_swapRemove_keys hc.keys]

/-! ### C44: constant biases -/

/-- C44, refuted. `with_msr_bias_constant` never changes the constant bias of any type: whatever the value
requested, the bias reported for every type is the one before the call. -/
theorem bias_constant_ignored (st st' : Station) (k : MsrType) (c : ℝ) (h : st.withBias k c = .ok st') :
    (∀ j, st'.biasOf j = st.biasOf j) ∧
    ∀ b, st.biasOf k = .ok b → b ≠ c → st'.biasOf k ≠ .ok c := by
  have key : ∀ j, st'.biasOf j = st.biasOf j := by
    intro j
    obtain ⟨n, hn, rfl⟩ := withBias_ok h
    unfold Station.biasOf
    cases hm : st.noises with
    | none => rw [hm] at hn; cases hn
    | some m =>
      rw [hm] at hn
      simp only [Option.getD_some, Option.elim_some] at hn ⊢
      rw [find_upsert]
      split
      · rename_i hj
        subst hj
        rw [hn]
        simp only [Option.elim_some]
        cases n.bias <;> simp [Gm.zero]
      · rfl
  refine ⟨key, fun b hb hbc => ?_⟩
  rw [key, hb]
  simpa using hbc

/-- C44 (partial). What the call does: it succeeds exactly when the type has a noise (otherwise it panics,
although it returns a `Result`), gives that noise a Gauss-Markov process if it had none, and leaves
everything else.
What is missing: the constant, see `bias_constant_ignored`. -/
theorem bias_constant_partial (st : Station) (h : Built st) (k : MsrType) (c : ℝ) :
    (k ∉ st.types → st.withBias k c = .panic) ∧
    ∀ n, st.Has k n → ∃ st', st.withBias k c = .ok st' ∧ st'.types = st.types ∧ st'.integ = st.integ ∧
      st'.stamp = st.stamp ∧ (∀ j m, j ≠ k → (st'.Has j m ↔ st.Has j m)) ∧
      ∃ b, st'.Has k ⟨n.white, some b⟩ ∧ (n.bias = some b ∨ (n.bias = none ∧ b.noise = 0 ∧ b.const = none)) := by
  have hc := built_consistent h
  constructor
  · intro hk
    unfold Station.withBias
    rw [hc.same, ← find_isSome] at hk
    rw [Option.not_isSome_iff_eq_none.1 hk]
    rfl
  · rintro n ⟨m, hm, hn⟩
    have hkeys : (m.map Prod.fst).Nodup := by have := hc.keys; rwa [hm] at this
    have hf := find_of_mem hkeys hn
    refine ⟨⟨st.name, st.types, st.integ, st.stamp, some (upsert k ⟨n.white, some (n.bias.getD Gm.zero)⟩ m)⟩,
      ?_, rfl, rfl, rfl, ?_, n.bias.getD Gm.zero, ⟨_, rfl, find_some_mem (by rw [find_upsert, if_pos rfl])⟩, ?_⟩
    · unfold Station.withBias
      rw [hm, Option.getD_some, hf]
      rfl
    · intro j q hj
      have hk2 : ((upsert k ⟨n.white, some (n.bias.getD Gm.zero)⟩ m).map Prod.fst).Nodup := by
        rw [keys_upsert]; exact nodup_insertSet hkeys
      constructor
      · rintro ⟨m', e, hq⟩
        cases e
        have := find_of_mem hk2 hq
        rw [find_upsert, if_neg hj] at this
        exact ⟨m, hm, find_some_mem this⟩
      · rintro ⟨m', e, hq⟩
        rw [hm] at e
        cases e
        exact ⟨_, rfl, find_some_mem (by rw [find_upsert, if_neg hj]; exact find_of_mem hkeys hq)⟩
    · cases n.bias with
      | none => exact Or.inr ⟨rfl, rfl, rfl⟩
      | some b => exact Or.inl rfl

/-! ### The hypotheses can be met -/

/-- A station with range and Doppler. -/
noncomputable def station0 : Station :=
  ((Station.fromPoint "A").withType .range Stoch.defaultRange).withType .doppler ⟨some ⟨0, 1⟩, none⟩

theorem station0_built : Built station0 := .withType _ _ _ (.withType _ _ _ (.point "A"))

theorem station0_has : station0.Has .range Stoch.defaultRange :=
  ⟨_, rfl, List.mem_cons_self⟩

example : ∀ j, j ∈ (station0.withoutType .range).types ↔ j ≠ .range ∧ j ∈ station0.types :=
  (builders station0 station0_built .range Stoch.defaultRange).2.2.2.2.1

/-- A bias of 5 is requested, and the bias stays zero. -/
example : ∃ st', station0.withBias .range 5 = .ok st' ∧ st'.biasOf .range ≠ .ok 5 := by
  obtain ⟨st', h, _⟩ := (bias_constant_partial station0 station0_built .range 5).2 _ station0_has
  exact ⟨st', h, (bias_constant_ignored _ _ _ _ h).2 0 rfl (by norm_num)⟩

end Verif.Device
