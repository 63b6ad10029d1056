import Verif.Solution.Model
import Mathlib.Logic.Equiv.Fintype
import Mathlib.Data.List.OfFn
/-!
C37 (columns stay aligned) and C38 (merge).
-/
set_option linter.unusedSectionVars false

namespace Verif.Solution
open Verif.Kalman

variable {E T K D G Q : Type} [DecidableEq T] [DecidableEq K]

/-! ### Specification -/

/-- The four columns have the same length. -/
def Sol.Aligned (o : Sol E T K D G Q) : Prop :=
  o.residuals.length = o.estimates.length ∧ o.gains.length = o.estimates.length ∧
    o.ratios.length = o.estimates.length

/-- One entry of a solution. -/
structure Row (E T K D G Q : Type) where
  est : E
  res : Option (Rsd T K D)
  gain : Option G
  ratio : Option Q

/-- The entries of a solution, read at each index. -/
def Sol.rows (o : Sol E T K D G Q) : List (Row E T K D G Q) :=
  o.zipped.map fun x => ⟨x.1, x.2.1, x.2.2.1, x.2.2.2⟩

/-! ### Filters -/

theorem keepLoop_spec (keep : Option (Rsd T K D) → Bool)
    (l : List (E × (Option (Rsd T K D) × (Option G × Option Q)))) :
    (keepLoop keep l).Aligned ∧ (keepLoop keep l).zipped = l.filter (fun x => keep x.2.1) := by
  induction l with
  | nil => exact ⟨⟨rfl, rfl, rfl⟩, rfl⟩
  | cons x l ih =>
    obtain ⟨e, r, g, q⟩ := x
    obtain ⟨⟨h1, h2, h3⟩, h4⟩ := ih
    rw [keepLoop]
    split
    · rename_i hk
      refine ⟨⟨by simp [h1], by simp [h2], by simp [h3]⟩, ?_⟩
      rw [List.filter_cons_of_pos (by exact hk), ← h4]
      rfl
    · rename_i hk
      refine ⟨⟨h1, h2, h3⟩, ?_⟩
      rw [List.filter_cons_of_neg (by exact hk), ← h4]

theorem keepLoop_rows (keep : Option (Rsd T K D) → Bool) (o : Sol E T K D G Q) :
    (keepLoop keep o.zipped).Aligned ∧
      (keepLoop keep o.zipped).rows = o.rows.filter (fun x => keep x.res) := by
  obtain ⟨h1, h2⟩ := keepLoop_spec keep o.zipped
  refine ⟨h1, ?_⟩
  unfold Sol.rows
  rw [h2, List.filter_map]
  rfl

theorem zipped_push (o : Sol E T K D G Q) (h : o.Aligned) (e : E) (r : Option (Rsd T K D))
    (g : Option G) (q : Option Q) :
    (⟨o.estimates ++ [e], o.residuals ++ [r], o.gains ++ [g], o.ratios ++ [q]⟩ :
      Sol E T K D G Q).rows = o.rows ++ [⟨e, r, g, q⟩] := by
  obtain ⟨h1, h2, h3⟩ := h
  unfold Sol.rows Sol.zipped
  rw [List.zip_append (by omega), List.zip_append (by simp; omega), List.zip_append (by simp; omega)]
  simp

/-- **C37 (each operation).** What each operation does to the entries: pushes append one entry with its own
four components, the filters keep exactly the entries asked for, with all their components, in order. -/
theorem operations_keep_rows (o : Sol E T K D G Q) (h : o.Aligned) :
    (∀ e r g, (o.pushMsr e r g).rows = o.rows ++ [⟨e, some r, g, none⟩]) ∧
    (∀ e, (o.pushTime e).rows = o.rows ++ [⟨e, none, none, none⟩]) ∧
    o.dropTimeUpdates.rows = o.rows.filter (fun x => x.res.isSome) ∧
    (∀ k, ∃ p : Row E T K D G Q → Bool, (o.filterByType k).rows = o.rows.filter p ∧
      ∀ x, p x = true ↔ ∃ r, x.res = some r ∧ k ∈ r.types) ∧
    (∀ t, ∃ p : Row E T K D G Q → Bool, (o.filterByTracker t).rows = o.rows.filter p ∧
      ∀ x, p x = true ↔ ∃ r, x.res = some r ∧ r.tracker = some t) ∧
    (∀ t, ∃ p : Row E T K D G Q → Bool, (o.excludeTracker t).rows = o.rows.filter p ∧
      ∀ x, p x = true ↔ (x.res = none ∨ ∃ r t', x.res = some r ∧ r.tracker = some t' ∧ t' ≠ t)) := by
  refine ⟨fun e r g => zipped_push o h e (some r) g none, fun e => zipped_push o h e none none none,
    (keepLoop_rows _ o).2, ?_, ?_, ?_⟩
  · intro k
    refine ⟨_, (keepLoop_rows _ o).2, ?_⟩
    intro x
    cases hx : x.res with
    | none => simp
    | some r => simp
  · intro t
    refine ⟨_, (keepLoop_rows _ o).2, ?_⟩
    intro x
    cases hx : x.res with
    | none => simp
    | some r => simp
  · intro t
    refine ⟨_, (keepLoop_rows _ o).2, ?_⟩
    intro x
    cases hx : x.res with
    | none => simp
    | some r =>
      cases ht : r.tracker with
      | none => simp [ht]
      | some t' => simp [ht]

/-! ### split -/

theorem insertNew_mem {α : Type} [DecidableEq α] (l : List α) (x y : α) :
    y ∈ insertNew l x ↔ y ∈ l ∨ y = x := by
  unfold insertNew
  split
  · constructor
    · exact Or.inl
    · rintro (h | rfl)
      · exact h
      · assumption
  · simp

theorem insertNew_nodup {α : Type} [DecidableEq α] (l : List α) (x : α) (h : l.Nodup) :
    (insertNew l x).Nodup := by
  unfold insertNew
  split
  · exact h
  · rename_i hx
    rw [List.nodup_append]
    refine ⟨h, List.nodup_singleton x, ?_⟩
    intro a ha b hb hab
    rw [List.mem_singleton] at hb
    subst hab hb
    exact hx ha

theorem fold_insert (t : T) (ks : List K) : ∀ (acc : List (T × K)), acc.Nodup →
    (ks.foldl (fun a k => insertNew a (t, k)) acc).Nodup ∧
    ∀ y, y ∈ ks.foldl (fun a k => insertNew a (t, k)) acc ↔ y ∈ acc ∨ (y.1 = t ∧ y.2 ∈ ks) := by
  induction ks with
  | nil => intro acc h; exact ⟨h, fun y => by simp⟩
  | cons k ks ih =>
    intro acc h
    obtain ⟨h1, h2⟩ := ih (insertNew acc (t, k)) (insertNew_nodup _ _ h)
    refine ⟨h1, fun y => ?_⟩
    rw [List.foldl_cons, h2, insertNew_mem]
    obtain ⟨y1, y2⟩ := y
    simp only [Prod.mk.injEq, List.mem_cons]
    tauto

theorem uniqueLoop_spec (l : List (Rsd T K D)) : ∀ (acc u : List (T × K)), acc.Nodup →
    uniqueLoop l acc = some u →
    u.Nodup ∧ ∀ t k, (t, k) ∈ u ↔ (t, k) ∈ acc ∨ ∃ r ∈ l, r.tracker = some t ∧ k ∈ r.types := by
  induction l with
  | nil =>
    intro acc u h hu
    simp only [uniqueLoop, Option.some.injEq] at hu
    subst hu
    exact ⟨h, fun t k => by simp⟩
  | cons r l ih =>
    intro acc u h hu
    rw [uniqueLoop] at hu
    split at hu
    · rename_i t ht
      obtain ⟨f1, f2⟩ := fold_insert t r.types acc h
      obtain ⟨h1, h2⟩ := ih _ _ f1 hu
      refine ⟨h1, fun t' k => ?_⟩
      rw [h2, f2]
      simp only [List.mem_cons, exists_eq_or_imp, ht, Option.some.injEq]
      constructor
      · rintro ((h | ⟨rfl, h⟩) | h)
        · exact Or.inl h
        · exact Or.inr (Or.inl ⟨rfl, h⟩)
        · exact Or.inr (Or.inr h)
      · rintro (h | ⟨rfl, h⟩ | h)
        · exact Or.inl (Or.inl h)
        · exact Or.inl (Or.inr ⟨rfl, h⟩)
        · exact Or.inr h
    · rename_i ht
      split at hu
      · obtain ⟨h1, h2⟩ := ih _ _ h hu
        refine ⟨h1, fun t' k => ?_⟩
        rw [h2]
        simp [ht]
      · cases hu

/-- **C37 (split).** The parts of `split` are aligned; there is one part per pair of tracker and type that
occurs, without repetition, and it has exactly the entries of that tracker with that type, in order. -/
theorem split_spec (o : Sol E T K D G Q) (parts : List (Sol E T K D G Q))
    (h : o.split = some parts) : ∃ u : List (T × K), u.Nodup ∧
      (∀ t k, (t, k) ∈ u ↔ ∃ r, some r ∈ o.residuals ∧ r.tracker = some t ∧ k ∈ r.types) ∧
      List.Forall₂ (fun tk part => part.Aligned ∧ ∃ p : Row E T K D G Q → Bool,
        part.rows = o.rows.filter p ∧
        ∀ x, p x = true ↔ ∃ r, x.res = some r ∧ r.tracker = some tk.1 ∧ tk.2 ∈ r.types) u parts := by
  unfold Sol.split at h
  rw [Option.map_eq_some_iff] at h
  obtain ⟨u, hu, rfl⟩ := h
  obtain ⟨h1, h2⟩ := uniqueLoop_spec _ _ _ List.nodup_nil hu
  refine ⟨u, h1, fun t k => ?_, ?_⟩
  · rw [h2]
    simp [List.mem_filterMap]
  · rw [List.forall₂_map_right_iff]
    apply List.forall₂_same.2
    intro tk _
    refine ⟨(keepLoop_rows _ _).1, ?_⟩
    refine ⟨fun x => (match x.res with
      | none => false
      | some r => decide (r.tracker = some tk.1)) && (match x.res with
      | none => false
      | some r => r.types.contains tk.2), ?_, ?_⟩
    · unfold Sol.filterByType Sol.filterByTracker
      rw [(keepLoop_rows _ _).2, (keepLoop_rows _ _).2, List.filter_filter]
      congr 1
      funext x
      exact Bool.and_comm _ _
    · intro x
      obtain ⟨e, r, g, q⟩ := x
      cases r with
      | none => simp
      | some r => simp

/-! ### merge -/

/-- `v` is `v₀` with all its vectors permuted by `τ`. -/
def Reached {n : Nat} (v₀ : Vecs n E T K D G Q) (τ : Equiv.Perm (Fin n)) (v : Vecs n E T K D G Q) : Prop :=
  v.indices = v₀.indices ∘ τ ∧ v.estimates = v₀.estimates ∘ τ ∧ v.residuals = v₀.residuals ∘ τ ∧
    v.gains = v₀.gains ∘ τ ∧ v.ratios = v₀.ratios ∘ τ

theorem Reached.trans {n : Nat} {a b c : Vecs n E T K D G Q} {σ τ : Equiv.Perm (Fin n)}
    (h1 : Reached a σ b) (h2 : Reached b τ c) : Reached a (σ * τ) c := by
  obtain ⟨a1, a2, a3, a4, a5⟩ := h1
  obtain ⟨b1, b2, b3, b4, b5⟩ := h2
  refine ⟨?_, ?_, ?_, ?_, ?_⟩
  · rw [b1, a1]; rfl
  · rw [b2, a2]; rfl
  · rw [b3, a3]; rfl
  · rw [b4, a4]; rfl
  · rw [b5, a5]; rfl

theorem Reached.refl {n : Nat} (a : Vecs n E T K D G Q) : Reached a 1 a := ⟨rfl, rfl, rfl, rfl, rfl⟩

/-- The positions not yet in place. -/
def unfixed {n : Nat} (f : Fin n → Fin n) : Finset (Fin n) := Finset.univ.filter fun j => f j ≠ j

theorem swap_fixed {n : Nat} (f : Fin n → Fin n) (hf : Function.Injective f) (i j : Fin n)
    (hj : f j = j) (hi : f i ≠ i) : (f ∘ Equiv.swap i (f i)) j = j := by
  have h1 : j ≠ i := fun h => hi (by rw [← h]; exact hj)
  have h2 : j ≠ f i := fun h => by
    rw [h] at hj
    exact h1 (by rw [h]; exact hf hj)
  rw [Function.comp_apply, Equiv.swap_apply_of_ne_of_ne h1 h2, hj]

theorem unfixed_lt {n : Nat} (f : Fin n → Fin n) (hf : Function.Injective f) (i : Fin n)
    (hi : f i ≠ i) : (unfixed (f ∘ Equiv.swap i (f i))).card < (unfixed f).card := by
  apply Finset.card_lt_card
  rw [Finset.ssubset_iff_of_subset]
  · refine ⟨f i, ?_, ?_⟩
    · simp only [unfixed, Finset.mem_filter, Finset.mem_univ, true_and]
      intro h; exact hi (hf h)
    · simp [unfixed]
  · intro j hj
    simp only [unfixed, Finset.mem_filter, Finset.mem_univ, true_and] at hj ⊢
    intro h
    exact hj (swap_fixed f hf i j h hi)

theorem cycle_spec {n : Nat} (i : Fin n) (fuel : Nat) : ∀ (v : Vecs n E T K D G Q),
    Function.Injective v.indices → (unfixed v.indices).card < fuel →
    ∃ v' τ, cycle i fuel v = some v' ∧ Reached v τ v' ∧ v'.indices i = i ∧
      Function.Injective v'.indices ∧ (unfixed v'.indices).card ≤ (unfixed v.indices).card ∧
      ∀ j, v.indices j = j → v'.indices j = j := by
  induction fuel with
  | zero => intro v _ h; omega
  | succ fuel ih =>
    intro v hv hc
    rw [cycle]
    split
    · rename_i h
      exact ⟨v, 1, rfl, Reached.refl v, h, hv, le_refl _, fun _ h => h⟩
    · rename_i h
      have hlt := unfixed_lt v.indices hv i h
      have hinj : Function.Injective (v.swap i (v.indices i)).indices :=
        hv.comp (Equiv.injective _)
      obtain ⟨v', τ, h1, h2, h3, h4, h5, h6⟩ := ih (v.swap i (v.indices i)) hinj
        (by show (unfixed (v.indices ∘ Equiv.swap i (v.indices i))).card < fuel; omega)
      refine ⟨v', Equiv.swap i (v.indices i) * τ, h1, ?_, h3, h4, ?_, ?_⟩
      · exact Reached.trans (b := v.swap i (v.indices i)) ⟨rfl, rfl, rfl, rfl, rfl⟩ h2
      · refine le_trans h5 ?_
        show (unfixed (v.indices ∘ Equiv.swap i (v.indices i))).card ≤ _
        omega
      · intro j hj
        exact h6 j (swap_fixed v.indices hv i j hj h)

theorem cycles_spec {n : Nat} (fuel : Nat) (l : List (Fin n)) : ∀ (v : Vecs n E T K D G Q),
    Function.Injective v.indices → (unfixed v.indices).card < fuel →
    ∃ v' τ, cycles fuel l v = some v' ∧ Reached v τ v' ∧ (∀ i ∈ l, v'.indices i = i) ∧
      ∀ j, v.indices j = j → v'.indices j = j := by
  induction l with
  | nil => intro v _ _; exact ⟨v, 1, rfl, Reached.refl v, by simp, fun _ h => h⟩
  | cons i l ih =>
    intro v hv hc
    obtain ⟨v1, τ1, h1, h2, h3, h4, h5, h6⟩ := cycle_spec i fuel v hv hc
    obtain ⟨v2, τ2, k1, k2, k3, k4⟩ := ih v1 h4 (by omega)
    refine ⟨v2, τ1 * τ2, ?_, h2.trans k2, ?_, fun j hj => k4 j (h6 j hj)⟩
    · rw [cycles, h1]; exact k1
    · intro j hj
      rcases List.mem_cons.1 hj with rfl | hj
      · exact k4 _ h3
      · exact k3 j hj

theorem indexVec_injective {n : Nat} (epoch : Fin n → Int) : Function.Injective (indexVec epoch) := by
  have hnd : (sortedIndices epoch).Nodup :=
    (List.mergeSort_perm _ _).nodup_iff.2 (List.nodup_finRange n)
  intro i j hij
  exact Fin.ext ((List.Nodup.getElem_inj_iff hnd).1 hij)

/-- The permutation of the sorted indices: position `i` of the sorted sequence holds entry `indexPerm i`. -/
noncomputable def indexPerm {n : Nat} (epoch : Fin n → Int) : Equiv.Perm (Fin n) :=
  Equiv.ofBijective _ (Finite.injective_iff_bijective.1 (indexVec_injective epoch))

theorem zipped_eq_ofFn (n : Nat) (e : Fin n → E) (r : Fin n → Option (Rsd T K D)) (g : Fin n → Option G)
    (q : Fin n → Option Q) :
    (⟨List.ofFn e, List.ofFn r, List.ofFn g, List.ofFn q⟩ : Sol E T K D G Q).rows =
      List.ofFn fun i => ⟨e i, r i, g i, q i⟩ := by
  unfold Sol.rows Sol.zipped
  apply List.ext_getElem
  · simp
  · intro i h1 h2
    simp

theorem rows_length (o : Sol E T K D G Q) (h : o.Aligned) : o.rows.length = o.estimates.length := by
  obtain ⟨h1, h2, h3⟩ := h
  unfold Sol.rows Sol.zipped
  simp [h1, h2, h3]

/-- The concatenation of two solutions. -/
def Sol.append (a b : Sol E T K D G Q) : Sol E T K D G Q :=
  ⟨a.estimates ++ b.estimates, a.residuals ++ b.residuals, a.gains ++ b.gains, a.ratios ++ b.ratios⟩

theorem rows_append (a b : Sol E T K D G Q) (ha : a.Aligned) :
    (a.append b).rows = a.rows ++ b.rows := by
  obtain ⟨h1, h2, h3⟩ := ha
  unfold Sol.rows Sol.zipped Sol.append
  rw [List.zip_append (by omega), List.zip_append (by simp; omega), List.zip_append (by simp; omega),
    List.map_append]

theorem merge_places (epoch : E → Int) (fuel : Nat) (a b : Sol E T K D G Q) (ha : a.Aligned)
    (hb : b.Aligned) (hf : (a.rows ++ b.rows).length < fuel) :
    ∃ (n : Nat) (row : Fin n → Row E T K D G Q) (out : Sol E T K D G Q),
      a.rows ++ b.rows = List.ofFn row ∧ a.merge epoch fuel b = some out ∧ out.Aligned ∧
      out.rows = List.ofFn (row ∘ (indexPerm fun i => epoch (row i).est).symm) := by
  have hab : (a.append b).Aligned := by
    obtain ⟨h1, h2, h3⟩ := ha
    obtain ⟨k1, k2, k3⟩ := hb
    exact ⟨by simp [Sol.append, h1, k1], by simp [Sol.append, h2, k2], by simp [Sol.append, h3, k3]⟩
  have hlen : (a.rows ++ b.rows).length = (a.estimates ++ b.estimates).length := by
    rw [← rows_append a b ha, rows_length _ hab]; rfl
  obtain ⟨c1, c2, c3⟩ := hab
  simp only [Sol.append] at c1 c2 c3
  set es := a.estimates ++ b.estimates with hes
  set v₀ : Vecs es.length E T K D G Q := ⟨indexVec fun i => epoch es[i], fun i => es[i],
    fun i => (a.residuals ++ b.residuals)[i.val]'(by omega),
    fun i => (a.gains ++ b.gains)[i.val]'(by omega),
    fun i => (a.ratios ++ b.ratios)[i.val]'(by omega)⟩ with hv₀
  have hcard : (unfixed v₀.indices).card < fuel := by
    have : (unfixed v₀.indices).card ≤ es.length := by
      refine le_trans (Finset.card_le_univ _) ?_
      simp
    omega
  obtain ⟨v, τ, h1, ⟨r1, r2, r3, r4, r5⟩, h3, _⟩ := cycles_spec fuel (List.finRange es.length) v₀
    (indexVec_injective _) hcard
  have hτ : τ = (indexPerm fun i => epoch es[i])⁻¹ := by
    ext i
    have := h3 i (List.mem_finRange i)
    rw [r1] at this
    have h : (indexPerm fun i => epoch es[i]) (τ i) = i := this
    rw [Equiv.Perm.inv_def, ← h, Equiv.symm_apply_apply, h]
  refine ⟨es.length, fun i => ⟨es[i], (a.residuals ++ b.residuals)[i.val]'(by omega),
    (a.gains ++ b.gains)[i.val]'(by omega), (a.ratios ++ b.ratios)[i.val]'(by omega)⟩,
    ⟨List.ofFn v.estimates, List.ofFn v.residuals, List.ofFn v.gains, List.ofFn v.ratios⟩, ?_, ?_, ?_, ?_⟩
  · rw [← rows_append a b ha]
    apply List.ext_getElem
    · rw [rows_append a b ha, hlen]; simp
    · intro i _ _
      simp [Sol.rows, Sol.zipped, Sol.append, es]
  · unfold Sol.merge
    simp only
    rw [dif_pos ⟨c1, c2, c3⟩, h1]
    rfl
  · exact ⟨by simp, by simp, by simp⟩
  · rw [zipped_eq_ofFn, r2, r3, r4, r5, hτ]
    rfl

/-- **C38 (partial).** `merge` returns, and its result has exactly the entries of both solutions, each once
and whole: the columns stay aligned. Missing: the order of time, see `merge_not_chronological`. -/
theorem merge_permutes_partial (epoch : E → Int) (fuel : Nat) (a b : Sol E T K D G Q) (ha : a.Aligned)
    (hb : b.Aligned) (hf : (a.rows ++ b.rows).length < fuel) :
    ∃ out, a.merge epoch fuel b = some out ∧ out.Aligned ∧ out.rows.Perm (a.rows ++ b.rows) := by
  obtain ⟨n, row, out, h1, h2, h3, h4⟩ := merge_places epoch fuel a b ha hb hf
  refine ⟨out, h2, h3, ?_⟩
  rw [h4, h1]
  exact Equiv.Perm.ofFn_comp_perm _ _

/-- The loops of `merge` never run out of steps: twice as much fuel gives the same result. -/
theorem merge_fuel (epoch : E → Int) (f g : Nat) (a b : Sol E T K D G Q) (ha : a.Aligned)
    (hb : b.Aligned) (hf : (a.rows ++ b.rows).length < f) (hg : (a.rows ++ b.rows).length < g) :
    (a.merge epoch f b).map Sol.rows = (a.merge epoch g b).map Sol.rows := by
  obtain ⟨n, row, out, h1, h2, h3, h4⟩ := merge_places epoch f a b ha hb hf
  obtain ⟨m, row', out', k1, k2, k3, k4⟩ := merge_places epoch g a b ha hb hg
  have hnm : n = m := by
    have := congrArg List.length (h1.symm.trans k1)
    simpa using this
  subst hnm
  have hrow : row = row' := List.ofFn_injective (h1.symm.trans k1)
  subst hrow
  rw [h2, k2, Option.map_some, Option.map_some, h4, k4]

theorem indexVec_of_sorted {n : Nat} (epoch : Fin n → Int) (h : ∀ i j, i ≤ j → epoch i ≤ epoch j)
    (i : Fin n) : indexVec epoch i = i := by
  have hs : sortedIndices epoch = List.finRange n := by
    unfold sortedIndices
    apply List.mergeSort_of_pairwise
    rw [List.pairwise_iff_getElem]
    intro i j hi hj hij
    simp only [List.getElem_finRange, decide_eq_true_eq]
    exact h _ _ (by simpa [Fin.le_def] using Nat.le_of_lt hij)
  unfold indexVec
  simp [hs]

/-- **C38 (partial).** If every entry of the second solution is no earlier than every entry of the first
and both are chronological, then the result is the concatenation, hence chronological. -/
theorem merge_after_partial (epoch : E → Int) (fuel : Nat) (a b : Sol E T K D G Q) (ha : a.Aligned)
    (hb : b.Aligned) (hf : (a.rows ++ b.rows).length < fuel)
    (hs : ((a.rows ++ b.rows).map fun x => epoch x.est).Pairwise (· ≤ ·)) :
    ∃ out, a.merge epoch fuel b = some out ∧ out.rows = a.rows ++ b.rows := by
  obtain ⟨n, row, out, h1, h2, h3, h4⟩ := merge_places epoch fuel a b ha hb hf
  refine ⟨out, h2, ?_⟩
  rw [h4, h1]
  have hid : indexPerm (fun i => epoch (row i).est) = 1 := by
    ext i
    have : (indexPerm fun i => epoch (row i).est) i = i := by
      apply indexVec_of_sorted
      intro i j hij
      rcases eq_or_lt_of_le hij with rfl | hij
      · exact le_refl _
      · rw [h1, List.pairwise_iff_getElem] at hs
        have := hs i.val j.val (by simp) (by simp) hij
        simpa using this
    rw [this]; rfl
  rw [hid]
  rfl

/-! ### Witnesses -/

/-- A solution of time updates only, with its estimates. -/
def timesOnly (l : List Int) : Sol Int Unit Unit Unit Unit Unit :=
  ⟨l, l.map fun _ => none, l.map fun _ => none, l.map fun _ => none⟩

/-- **C38 is refuted.** Merging a solution with one entry at epoch 3 and one with entries at epochs 1 and 2
gives the entries at epochs 2, 3, 1, though both solutions are chronological. -/
theorem merge_not_chronological :
    ∃ out, (timesOnly [3]).merge id 4 (timesOnly [1, 2]) = some out ∧ out.estimates = [2, 3, 1] ∧
      ¬ out.estimates.Pairwise (· ≤ ·) := by
  have hs : sortedIndices (fun i : Fin 3 => id ([3, 1, 2] : List Int)[i]) = [1, 2, 0] := by
    simp [sortedIndices, List.finRange, List.ofFn, Fin.foldr, Fin.foldr.loop, List.mergeSort,
      List.MergeSort.Internal.splitInTwo, List.merge]
  have hv : indexVec (fun i : Fin 3 => id ([3, 1, 2] : List Int)[i]) = ![1, 2, 0] := by
    funext i
    unfold indexVec
    simp only [hs]
    fin_cases i <;> rfl
  refine ⟨⟨[2, 3, 1], [none, none, none], [none, none, none], [none, none, none]⟩, ?_, rfl, by decide⟩
  have hm : (timesOnly [3]).merge id 4 (timesOnly [1, 2]) =
      (cycles 4 (List.finRange 3)
      (⟨indexVec (fun i : Fin 3 => id ([3, 1, 2] : List Int)[i]), fun i => ([3, 1, 2] : List Int)[i],
        fun i => none, fun i => none, fun i => none⟩ : Vecs 3 Int Unit Unit Unit Unit Unit)).map fun v =>
      ⟨List.ofFn v.estimates, List.ofFn v.residuals, List.ofFn v.gains, List.ofFn v.ratios⟩ := by
    unfold Sol.merge
    simp only
    rw [dif_pos (by simp [timesOnly])]
    congr 1
    congr 1
    congr 1
    · funext i; fin_cases i <;> rfl
    · funext i; fin_cases i <;> rfl
    · funext i; fin_cases i <;> rfl
  rw [hm, hv]
  rfl

/-! ### Sequences of operations -/

/-- The solutions built with the API: from an empty solution by any operations. -/
inductive Built (epoch : E → Int) : Sol E T K D G Q → Prop
  | new : Built epoch Sol.new
  | msr (o e r g) : Built epoch o → Built epoch (o.pushMsr e r g)
  | time (o e) : Built epoch o → Built epoch (o.pushTime e)
  | drop (o) : Built epoch o → Built epoch o.dropTimeUpdates
  | byType (o k) : Built epoch o → Built epoch (o.filterByType k)
  | byTracker (o t) : Built epoch o → Built epoch (o.filterByTracker t)
  | exclude (o t) : Built epoch o → Built epoch (o.excludeTracker t)
  | split (o parts part) : Built epoch o → o.split = some parts → part ∈ parts → Built epoch part
  | merge (a b fuel out) : Built epoch a → Built epoch b → a.merge epoch fuel b = some out → Built epoch out

/-- **C37.** After any sequence of operations the columns are aligned. -/
theorem built_aligned (epoch : E → Int) (o : Sol E T K D G Q) (h : Built epoch o) : o.Aligned := by
  induction h with
  | new => exact ⟨rfl, rfl, rfl⟩
  | msr o e r g _ ih =>
    obtain ⟨h1, h2, h3⟩ := ih
    exact ⟨by simp [Sol.pushMsr, h1], by simp [Sol.pushMsr, h2], by simp [Sol.pushMsr, h3]⟩
  | time o e _ ih =>
    obtain ⟨h1, h2, h3⟩ := ih
    exact ⟨by simp [Sol.pushTime, h1], by simp [Sol.pushTime, h2], by simp [Sol.pushTime, h3]⟩
  | drop o _ ih => exact (keepLoop_rows _ o).1
  | byType o k _ ih => exact (keepLoop_rows _ o).1
  | byTracker o k _ ih => exact (keepLoop_rows _ o).1
  | exclude o k _ ih => exact (keepLoop_rows _ o).1
  | split o parts part _ hs hp ih =>
    unfold Sol.split at hs
    rw [Option.map_eq_some_iff] at hs
    obtain ⟨u, hu, rfl⟩ := hs
    obtain ⟨tk, _, rfl⟩ := List.mem_map.1 hp
    exact (keepLoop_rows _ _).1
  | merge a b fuel out _ _ hm iha ihb =>
    unfold Sol.merge at hm
    simp only at hm
    split at hm
    · rw [Option.map_eq_some_iff] at hm
      obtain ⟨v, _, rfl⟩ := hm
      exact ⟨by simp, by simp, by simp⟩
    · cases hm

/-- `search` is `slice::binary_search_by`: on a sorted slice it finds an index of the value if there is
one. -/
def BinSearch (search : List Int → Int → Option Nat) : Prop :=
  ∀ l t, l.Pairwise (· ≤ ·) →
    (∀ i, search l t = some i → ∃ h : i < l.length, l[i] = t) ∧ (search l t = none → t ∉ l)

/-- **C37 (at).** On a chronological solution `at` returns an entry of the solution of that epoch, with its
own residual, gain and ratio, and returns nothing only if no estimate has that epoch. -/
theorem at_spec (epoch : E → Int) (search : List Int → Int → Option Nat) (hb : BinSearch search)
    (o : Sol E T K D G Q) (ha : o.Aligned) (hs : (o.estimates.map epoch).Pairwise (· ≤ ·)) (t : Int) :
    (∀ e r g q, o.atEpoch epoch search t = some (e, r, g, q) →
      (⟨e, r, g, q⟩ : Row E T K D G Q) ∈ o.rows ∧ epoch e = t) ∧
    (o.atEpoch epoch search t = none → ∀ x ∈ o.rows, epoch x.est ≠ t) := by
  obtain ⟨h1, h2⟩ := hb _ t hs
  obtain ⟨a1, a2, a3⟩ := ha
  unfold Sol.atEpoch
  cases hsr : search (o.estimates.map epoch) t with
  | none =>
    refine ⟨by simp, fun _ x hx he => ?_⟩
    apply h2 hsr
    obtain ⟨y, hy, rfl⟩ := List.mem_map.1 hx
    rw [← he]
    exact List.mem_map_of_mem (List.of_mem_zip hy).1
  | some i =>
    obtain ⟨hi, he⟩ := h1 i hsr
    rw [List.length_map] at hi
    simp only [List.getElem_map] at he
    have e1 : o.estimates[i]? = some (o.estimates[i]) := List.getElem?_eq_getElem hi
    have e2 : o.residuals[i]? = some (o.residuals[i]'(by omega)) := List.getElem?_eq_getElem (by omega)
    have e3 : o.gains[i]? = some (o.gains[i]'(by omega)) := List.getElem?_eq_getElem (by omega)
    have e4 : o.ratios[i]? = some (o.ratios[i]'(by omega)) := List.getElem?_eq_getElem (by omega)
    simp only [e1, e2, e3, e4, Option.some.injEq, Prod.mk.injEq, reduceCtorEq, false_imp_iff, and_true]
    rintro e r g q ⟨rfl, rfl, rfl, rfl⟩
    refine ⟨?_, he⟩
    apply List.mem_map.2
    refine ⟨(o.estimates[i], o.residuals[i]'(by omega), o.gains[i]'(by omega), o.ratios[i]'(by omega)), ?_,
      rfl⟩
    apply List.mem_iff_getElem.2
    refine ⟨i, by simp [Sol.zipped]; omega, by simp [Sol.zipped]⟩

/-! ### Examples -/

/-- A solution with one measurement, one time update and a measurement of another tracker. -/
def exSol : Sol Int Nat Nat Unit Unit Unit :=
  ((Sol.new.pushMsr 1 ⟨some 7, [0, 1], ()⟩ (some ())).pushTime 2).pushMsr 3 ⟨some 8, [1], ()⟩ none

/-- The solution of the example is built with the API, hence aligned, and it has three entries. -/
example : Built id exSol ∧ exSol.Aligned ∧ exSol.rows.length = 3 := by
  have h : Built id exSol := .msr _ _ _ _ (.time _ _ (.msr _ _ _ _ .new))
  exact ⟨h, built_aligned _ _ h, rfl⟩

/-- Splitting it gives three parts. -/
example : ∃ parts, exSol.split = some parts ∧ parts.length = 3 ∧
    (exSol.filterByTracker 7).estimates = [1] ∧ (exSol.filterByType 1).estimates = [1, 3] ∧
    (exSol.excludeTracker 7).estimates = [2, 3] ∧ exSol.dropTimeUpdates.estimates = [1, 3] :=
  ⟨_, rfl, rfl, rfl, rfl, rfl, rfl⟩

/-- The hypotheses of the theorems on `merge` hold of two runs one after the other. -/
example : (timesOnly [1, 2]).Aligned ∧ (timesOnly [3]).Aligned ∧
    (((timesOnly [1, 2]).rows ++ (timesOnly [3]).rows).map fun x => id x.est).Pairwise (· ≤ ·) :=
  ⟨⟨rfl, rfl, rfl⟩, ⟨rfl, rfl, rfl⟩, by decide⟩

/-- A search that satisfies the specification, and the look up of the entry at epoch 2 of the example. -/
example : ∃ search, BinSearch search ∧ (exSol.estimates.map id).Pairwise (· ≤ ·) ∧
    exSol.atEpoch id search 2 = some (2, none, none, none) := by
  refine ⟨fun l t => l.findIdx? (fun x => decide (x = t)), ?_, by decide, rfl⟩
  intro l t _
  constructor
  · intro i hi
    rw [List.findIdx?_eq_some_iff_getElem] at hi
    obtain ⟨h, h1, _⟩ := hi
    exact ⟨h, by simpa using h1⟩
  · intro hn ht
    rw [List.findIdx?_eq_none_iff] at hn
    simpa using hn t ht

example := operations_keep_rows exSol ⟨rfl, rfl, rfl⟩
example := merge_permutes_partial id 9 exSol exSol ⟨rfl, rfl, rfl⟩ ⟨rfl, rfl, rfl⟩ (by decide)
example := merge_fuel id 9 12 exSol exSol ⟨rfl, rfl, rfl⟩ ⟨rfl, rfl, rfl⟩ (by decide) (by decide)
example := merge_after_partial id 9 (timesOnly [1, 2]) (timesOnly [3]) ⟨rfl, rfl, rfl⟩ ⟨rfl, rfl, rfl⟩ (by decide) (by decide)
example := split_spec exSol _ rfl

end Verif.Solution
