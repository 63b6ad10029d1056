import Verif.Tracking.Model
import Mathlib.Data.Prod.Lex
/-! Helper lemmas about insertion ordered maps, coalescing and binary searches. -/
namespace Verif.Tracking
set_option linter.unusedSectionVars false

variable {T K : Type} [LinearOrder T] [DecidableEq K]

/-! ### Maps -/

theorem get_insert {V : Type} (m : IMap K V) (k k' : K) (v : V) :
    get (insert m k v) k' = if k = k' then some v else get m k' := by
  induction m with
  | nil => simp [insert, get]
  | cons e m ih =>
    obtain ⟨k0, v0⟩ := e
    rw [insert]
    by_cases h : k0 = k
    · rw [if_pos h]
      subst h
      simp only [get]
      split <;> rfl
    · rw [if_neg h]
      simp only [get, ih]
      by_cases h1 : k0 = k'
      · subst h1; simp [Ne.symm h]
      · simp [h1]

theorem get_eq_none_of_not_mem {V : Type} (m : IMap K V) (k : K) (h : k ∉ m.map Prod.fst) :
    get m k = none := by
  induction m with
  | nil => rfl
  | cons e m ih =>
    simp only [List.map_cons, List.mem_cons, not_or] at h
    rw [get, if_neg (Ne.symm h.1), ih h.2]

theorem get_isSome_iff {V : Type} (m : IMap K V) (k : K) :
    (get m k).isSome ↔ k ∈ m.map Prod.fst := by
  induction m with
  | nil => simp [get]
  | cons e m ih =>
    rw [get]
    by_cases h : e.1 = k
    · simp [h]
    · rw [if_neg h, ih]; simp [Ne.symm h]

theorem get_mem {V : Type} (m : IMap K V) (k : K) (v : V) (h : get m k = some v) : (k, v) ∈ m := by
  induction m with
  | nil => simp [get] at h
  | cons e m ih =>
    rw [get] at h
    split at h
    · rename_i hk
      simp only [Option.some.injEq] at h
      subst h; subst hk; simp
    · exact List.mem_cons_of_mem _ (ih h)

theorem get_of_mem {V : Type} (m : IMap K V) (hn : (m.map Prod.fst).Nodup) (k : K) (v : V)
    (h : (k, v) ∈ m) : get m k = some v := by
  induction m with
  | nil => simp at h
  | cons e m ih =>
    rw [List.map_cons, List.nodup_cons] at hn
    rcases List.mem_cons.mp h with h | h
    · subst h; simp [get]
    · have hk : k ∈ m.map Prod.fst := List.mem_map.mpr ⟨_, h, rfl⟩
      have : e.1 ≠ k := fun he => hn.1 (he ▸ hk)
      rw [get, if_neg this, ih hn.2 h]

theorem get_extend {V : Type} (m es : IMap K V) (hn : (es.map Prod.fst).Nodup) (k : K) :
    get (extend m es) k = (get es k).or (get m k) := by
  induction es generalizing m with
  | nil => simp [extend, get]
  | cons e es ih =>
    rw [List.map_cons, List.nodup_cons] at hn
    have : extend m (e :: es) = extend (insert m e.1 e.2) es := rfl
    rw [this, ih _ hn.2, get_insert, get]
    by_cases h : e.1 = k
    · subst h
      rw [get_eq_none_of_not_mem es _ hn.1]
      simp
    · simp [h]

theorem insert_keys {V : Type} (m : IMap K V) (k : K) (v : V) :
    (insert m k v).map Prod.fst = if k ∈ m.map Prod.fst then m.map Prod.fst
      else m.map Prod.fst ++ [k] := by
  induction m with
  | nil => simp [insert]
  | cons e m ih =>
    rw [insert]
    by_cases h : e.1 = k
    · simp [h]
    · rw [if_neg h, List.map_cons, ih]
      by_cases hk : k ∈ m.map Prod.fst
      · rw [if_pos hk, if_pos (by simp [hk])]; rfl
      · rw [if_neg hk, if_neg (by simp only [List.map_cons, List.mem_cons, not_or]; exact ⟨Ne.symm h, hk⟩)]
        rfl

theorem insert_nodup {V : Type} (m : IMap K V) (k : K) (v : V) (h : (m.map Prod.fst).Nodup) :
    ((insert m k v).map Prod.fst).Nodup := by
  rw [insert_keys]
  split
  · exact h
  · rename_i hk
    rw [List.nodup_append]
    refine ⟨h, by simp, ?_⟩
    intro a ha b hb
    simp only [List.mem_singleton] at hb
    subst hb
    intro he; subst he; exact hk ha

theorem extend_nodup {V : Type} (m es : IMap K V) (h : (m.map Prod.fst).Nodup) :
    ((extend m es).map Prod.fst).Nodup := by
  induction es generalizing m with
  | nil => exact h
  | cons e es ih => exact ih _ (insert_nodup _ _ _ h)

/-! ### Coalescing -/

/-- The strict order on (epoch, tracker). -/
def ltKey (a b : Msr T K) : Prop := a.epoch < b.epoch ∨ (a.epoch = b.epoch ∧ a.tracker < b.tracker)

/-- The entries of a map have distinct keys: an invariant of the `IndexMap` type. -/
def WF (l : List (Msr T K)) : Prop := ∀ m ∈ l, (m.data.map Prod.fst).Nodup

/-- The arc has a value `v` of type `ty` by tracker `t` at epoch `e`. -/
def Has (l : List (Msr T K)) (e : Int) (t : T) (ty : K) (v : Rat) : Prop :=
  ∃ m ∈ l, m.epoch = e ∧ m.tracker = t ∧ get m.data ty = some v

/-- The arc has a measurement by tracker `t` at epoch `e`. -/
def HasKey (l : List (Msr T K)) (e : Int) (t : T) : Prop := ∃ m ∈ l, m.epoch = e ∧ m.tracker = t

/-- The arc has a rejected measurement by tracker `t` at epoch `e`. -/
def Rejected (l : List (Msr T K)) (e : Int) (t : T) : Prop :=
  ∃ m ∈ l, m.epoch = e ∧ m.tracker = t ∧ m.rejected = true

theorem WF.tail {a : Msr T K} {l : List (Msr T K)} (h : WF (a :: l)) : WF l :=
  fun m hm => h m (List.mem_cons_of_mem _ hm)

theorem WF.merge {a b : Msr T K} {l : List (Msr T K)} (h : WF (a :: b :: l)) :
    WF (merge a b :: l) := by
  intro m hm
  rcases List.mem_cons.mp hm with rfl | hm
  · exact extend_nodup _ _ (h a (by simp))
  · exact h m (by simp [hm])

theorem coalesce_key (l : List (Msr T K)) (e : Int) (t : T) :
    HasKey (coalesce l) e t ↔ HasKey l e t := by
  fun_induction coalesce l with
  | case1 => rfl
  | case2 => rfl
  | case3 a b l h ih =>
    rw [ih]
    unfold HasKey
    constructor
    · rintro ⟨m, hm, h1, h2⟩
      rcases List.mem_cons.mp hm with rfl | hm
      · exact ⟨a, by simp, h1, h2⟩
      · exact ⟨m, by simp [hm], h1, h2⟩
    · rintro ⟨m, hm, h1, h2⟩
      rcases List.mem_cons.mp hm with rfl | hm
      · exact ⟨_, List.mem_cons_self, h1, h2⟩
      · rcases List.mem_cons.mp hm with rfl | hm
        · exact ⟨_, List.mem_cons_self, by rw [← h1, h.1]; rfl, by rw [← h2, h.2]; rfl⟩
        · exact ⟨m, by simp [hm], h1, h2⟩
  | case4 a b l h ih =>
    unfold HasKey at *
    simp only [List.mem_cons, exists_eq_or_imp] at ih ⊢
    rw [ih]

theorem coalesce_wf (l : List (Msr T K)) (hw : WF l) : WF (coalesce l) := by
  fun_induction coalesce l with
  | case1 => exact hw
  | case2 => exact hw
  | case3 a b l h ih => exact ih hw.merge
  | case4 a b l h ih =>
    intro m hm
    rcases List.mem_cons.mp hm with rfl | hm
    · exact hw _ (by simp)
    · exact ih hw.tail m hm

theorem coalesce_has_sound (l : List (Msr T K)) (hw : WF l) (e : Int) (t : T) (ty : K) (v : Rat)
    (hh : Has (coalesce l) e t ty v) : Has l e t ty v := by
  fun_induction coalesce l with
  | case1 => exact hh
  | case2 => exact hh
  | case3 a b l h ih =>
    obtain ⟨m, hm, h1, h2, h3⟩ := ih hw.merge hh
    rcases List.mem_cons.mp hm with rfl | hm
    · simp only [merge] at h1 h2 h3
      rw [get_extend _ _ (hw b (by simp))] at h3
      cases hb : get b.data ty with
      | some v' =>
        rw [hb] at h3
        simp only [Option.some_or, Option.some.injEq] at h3
        exact ⟨b, by simp, by rw [h.1, h1], by rw [h.2, h2], by rw [hb, h3]⟩
      | none =>
        rw [hb] at h3
        exact ⟨a, by simp, h1, h2, by simpa using h3⟩
    · exact ⟨m, by simp [hm], h1, h2, h3⟩
  | case4 a b l h ih =>
    obtain ⟨m, hm, h1, h2, h3⟩ := hh
    rcases List.mem_cons.mp hm with rfl | hm
    · exact ⟨_, by simp, h1, h2, h3⟩
    · obtain ⟨m', hm', h'⟩ := ih hw.tail ⟨m, hm, h1, h2, h3⟩
      exact ⟨m', List.mem_cons_of_mem _ hm', h'⟩

theorem coalesce_has_complete (l : List (Msr T K)) (hw : WF l) (e : Int) (t : T) (ty : K)
    (hh : ∃ v, Has l e t ty v) : ∃ v, Has (coalesce l) e t ty v := by
  fun_induction coalesce l with
  | case1 => exact hh
  | case2 => exact hh
  | case3 a b l h ih =>
    apply ih hw.merge
    obtain ⟨v, m, hm, h1, h2, h3⟩ := hh
    have key : (get (merge a b).data ty) = (get b.data ty).or (get a.data ty) :=
      get_extend _ _ (hw b (by simp)) ty
    rcases List.mem_cons.mp hm with rfl | hm
    · cases hb : get b.data ty with
      | some v' => exact ⟨v', _, List.mem_cons_self, h1, h2, by rw [key, hb]; rfl⟩
      | none => exact ⟨v, _, List.mem_cons_self, h1, h2, by rw [key, hb, h3]; rfl⟩
    · rcases List.mem_cons.mp hm with rfl | hm
      · exact ⟨v, _, List.mem_cons_self, by rw [← h1, h.1]; rfl, by rw [← h2, h.2]; rfl,
          by rw [key, h3]; rfl⟩
      · exact ⟨v, m, by simp [hm], h1, h2, h3⟩
  | case4 a b l h ih =>
    obtain ⟨v, m, hm, h1, h2, h3⟩ := hh
    rcases List.mem_cons.mp hm with rfl | hm
    · exact ⟨v, _, by simp, h1, h2, h3⟩
    · obtain ⟨v', m', hm', h'⟩ := ih hw.tail ⟨v, m, hm, h1, h2, h3⟩
      exact ⟨v', m', List.mem_cons_of_mem _ hm', h'⟩

theorem coalesce_rejected (l : List (Msr T K)) (e : Int) (t : T) :
    Rejected (coalesce l) e t ↔ Rejected l e t := by
  fun_induction coalesce l with
  | case1 => rfl
  | case2 => rfl
  | case3 a b l h ih =>
    rw [ih]
    unfold Rejected
    simp only [List.mem_cons, exists_eq_or_imp, merge, Bool.or_eq_true, h.1, h.2]
    tauto
  | case4 a b l h ih =>
    unfold Rejected at *
    simp only [List.mem_cons, exists_eq_or_imp] at ih ⊢
    rw [ih]

theorem coalesce_strict (l : List (Msr T K)) (hs : l.Pairwise leKey) :
    (coalesce l).Pairwise ltKey := by
  fun_induction coalesce l with
  | case1 => simp
  | case2 => simp
  | case3 a b l h ih =>
    apply ih
    rw [List.pairwise_cons] at hs ⊢
    refine ⟨fun m hm => hs.1 m (List.mem_cons_of_mem _ hm), (List.pairwise_cons.mp hs.2).2⟩
  | case4 a b l h ih =>
    rw [List.pairwise_cons] at hs ⊢
    refine ⟨?_, ih hs.2⟩
    intro m hm
    obtain ⟨x, hx, h1, h2⟩ := (coalesce_key (b :: l) m.epoch m.tracker).mp ⟨m, hm, rfl, rfl⟩
    have hab : ltKey a b := by
      rcases hs.1 b (by simp) with h' | ⟨h', h''⟩
      · exact Or.inl h'
      · exact Or.inr ⟨h', lt_of_le_of_ne h'' (fun he => h ⟨h'.symm, he.symm⟩)⟩
    have hbx : leKey b x := by
      rcases List.mem_cons.mp hx with rfl | hx
      · exact Or.inr ⟨rfl, le_refl _⟩
      · exact (List.pairwise_cons.mp hs.2).1 x hx
    unfold ltKey leKey at *
    rw [← h1, ← h2]
    rcases hab with h3 | ⟨h3, h4⟩ <;> rcases hbx with h5 | ⟨h5, h6⟩
    · left; omega
    · left; omega
    · left; omega
    · exact Or.inr ⟨by omega, lt_of_lt_of_le h4 h6⟩

/-- In a strictly sorted arc the key determines the measurement. -/
theorem strict_unique {l : List (Msr T K)} (h : l.Pairwise ltKey) {a b : Msr T K} (ha : a ∈ l)
    (hb : b ∈ l) (h1 : a.epoch = b.epoch) (h2 : a.tracker = b.tracker) : a = b := by
  induction h with
  | nil => simp at ha
  | @cons x l hx _ ih =>
    rcases List.mem_cons.mp ha with ha1 | ha1 <;> rcases List.mem_cons.mp hb with hb1 | hb1
    · rw [ha1, hb1]
    · rcases hx b hb1 with h | ⟨_, h⟩
      · rw [← ha1] at h; omega
      · rw [← ha1, h2] at h; exact absurd h (lt_irrefl _)
    · rcases hx a ha1 with h | ⟨_, h⟩
      · rw [← hb1] at h; omega
      · rw [← hb1, h2] at h; exact absurd h (lt_irrefl _)
    · exact ih ha1 hb1

/-- A strictly sorted arc is left alone by `coalesce`. -/
theorem coalesce_of_strict (l : List (Msr T K)) (h : l.Pairwise ltKey) : coalesce l = l := by
  fun_induction coalesce l with
  | case1 => rfl
  | case2 => rfl
  | case3 a b l hk ih =>
    exfalso
    rcases (List.pairwise_cons.mp h).1 b (by simp) with h' | ⟨_, h'⟩
    · omega
    · rw [hk.2] at h'; exact absurd h' (lt_irrefl _)
  | case4 a b l hk ih => rw [ih (List.pairwise_cons.mp h).2]

/-! ### Lists with the same keys -/

theorem forall₂_of_map_eq {α κ : Type} (key : α → κ) (R : α → α → Prop) (l l' : List α)
    (h : l.map key = l'.map key) (hr : ∀ a ∈ l, ∀ b ∈ l', key a = key b → R a b) :
    List.Forall₂ R l l' := by
  induction l generalizing l' with
  | nil => cases l' with
    | nil => exact List.Forall₂.nil
    | cons => simp at h
  | cons a l ih => cases l' with
    | nil => simp at h
    | cons b l' =>
      simp only [List.map_cons, List.cons.injEq] at h
      exact List.Forall₂.cons (hr a (by simp) b (by simp) h.1)
        (ih l' h.2 (fun a ha b hb => hr a (by simp [ha]) b (by simp [hb])))

theorem map_key_eq (l l' : List (Msr T K)) (h : l.Pairwise ltKey) (h' : l'.Pairwise ltKey)
    (hk : ∀ e t, HasKey l e t ↔ HasKey l' e t) :
    l.map (fun m => toLex (m.epoch, m.tracker)) = l'.map (fun m => toLex (m.epoch, m.tracker)) := by
  have st : ∀ l : List (Msr T K), l.Pairwise ltKey →
      (l.map (fun m => toLex (m.epoch, m.tracker))).Pairwise (· < ·) := by
    intro l h
    rw [List.pairwise_map]
    refine h.imp ?_
    intro a b hab
    rw [Prod.Lex.toLex_lt_toLex]
    exact hab
  have nd : ∀ l : List (Lex (Int × T)), l.Pairwise (· < ·) → l.Nodup :=
    fun l h => h.imp (fun hab => ne_of_lt hab)
  refine List.Perm.eq_of_pairwise (le := (· ≤ ·)) ?_ ((st l h).imp le_of_lt)
    ((st l' h').imp le_of_lt) ?_
  · intro a b _ _ h1 h2; exact le_antisymm h1 h2
  · rw [List.perm_ext_iff_of_nodup (nd _ (st l h)) (nd _ (st l' h'))]
    intro a
    have mk : ∀ l : List (Msr T K), a ∈ l.map (fun m => toLex (m.epoch, m.tracker)) ↔
        HasKey l (ofLex a).1 (ofLex a).2 := by
      intro l
      unfold HasKey
      rw [List.mem_map]
      constructor
      · rintro ⟨m, hm, rfl⟩; exact ⟨m, hm, rfl, rfl⟩
      · rintro ⟨m, hm, h1, h2⟩; exact ⟨m, hm, by rw [h1, h2]; rfl⟩
    rw [mk, mk, hk]

/-! ### Binary searches -/

/-- On a list along which `p` goes from true to false, the partition point separates. -/
theorem partitionPoint_spec {α : Type} (p : α → Bool) (l : List α)
    (h : l.Pairwise (fun a b => p b = true → p a = true)) :
    ∀ i x, l[i]? = some x → (p x = true ↔ i < partitionPoint p l) := by
  induction l with
  | nil => simp
  | cons a l ih =>
    rw [List.pairwise_cons] at h
    intro i x hx
    unfold partitionPoint at ih ⊢
    rw [List.takeWhile_cons]
    cases i with
    | zero =>
      simp only [List.getElem?_cons_zero, Option.some.injEq] at hx
      subst hx
      by_cases hp : p a = true <;> simp [hp]
    | succ i =>
      rw [List.getElem?_cons_succ] at hx
      have hm : x ∈ l := List.mem_of_getElem? hx
      by_cases hp : p a = true
      · rw [if_pos hp, List.length_cons, ih h.2 i x hx]; omega
      · rw [if_neg hp]
        simp only [List.length_nil, Nat.not_lt_zero, iff_false]
        exact fun hpx => hp (h.1 x hm hpx)

theorem slice_eq_filter {α : Type} (p q : α → Bool) (l : List α) (b1 b2 : Nat)
    (hp : ∀ i x, l[i]? = some x → (p x = true ↔ i < b2))
    (hq : ∀ i x, l[i]? = some x → (q x = true ↔ i < b1)) :
    (l.take b2).drop b1 = l.filter (fun x => p x && !q x) := by
  induction l generalizing b1 b2 with
  | nil => simp
  | cons a l ih =>
    have hp0 := hp 0 a (by simp)
    have hq0 := hq 0 a (by simp)
    have hps : ∀ n, n + 1 = b2 → ∀ i x, l[i]? = some x → (p x = true ↔ i < n) := by
      intro n hn i x hx
      rw [hp (i + 1) x (by simpa using hx)]; omega
    have hqs : ∀ n, n = b1 - 1 → ∀ i x, l[i]? = some x → (q x = true ↔ i < n) := by
      intro n hn i x hx
      rw [hq (i + 1) x (by simpa using hx)]; omega
    cases b2 with
    | zero =>
      simp only [List.take_zero, List.drop_nil]
      symm
      rw [List.filter_eq_nil_iff]
      intro x hx
      obtain ⟨i, hi⟩ := List.mem_iff_getElem?.mp hx
      have := hp i x hi
      simp only [Nat.not_lt_zero, iff_false, Bool.not_eq_true] at this
      simp [this]
    | succ b2 =>
      have hpa : p a = true := hp0.mpr (by omega)
      cases b1 with
      | zero =>
        have hqa : q a = false := by
          cases h : q a with
          | false => rfl
          | true => rw [h] at hq0; simp at hq0
        rw [List.take_succ_cons, List.drop_zero, List.filter_cons_of_pos (by simp [hpa, hqa])]
        have := ih 0 b2 (hps b2 rfl) (hqs 0 rfl)
        rw [List.drop_zero] at this
        rw [this]
      | succ b1 =>
        have hqa : q a = true := hq0.mpr (by omega)
        rw [List.take_succ_cons, List.drop_succ_cons,
          List.filter_cons_of_neg (by simp [hqa])]
        exact ih b1 b2 (hps b2 rfl) (hqs b1 rfl)

theorem mapSlice_eq {α : Type} (p q : α → Bool) (f : α → α) (l : List α) (b1 b2 : Nat)
    (hle : b1 ≤ b2)
    (hp : ∀ i x, l[i]? = some x → (p x = true ↔ i < b2))
    (hq : ∀ i x, l[i]? = some x → (q x = true ↔ i < b1)) :
    l.take b1 ++ ((l.take b2).drop b1).map f ++ l.drop b2 =
      l.map (fun x => if p x && !q x then f x else x) ∧
    l.take b1 ++ l.drop b2 = l.filter (fun x => !(p x && !q x)) := by
  induction l generalizing b1 b2 with
  | nil => simp
  | cons a l ih =>
    have hp0 := hp 0 a (by simp)
    have hq0 := hq 0 a (by simp)
    have hps : ∀ n, n = b2 - 1 → ∀ i x, l[i]? = some x → (p x = true ↔ i < n) := by
      intro n hn i x hx
      rw [hp (i + 1) x (by simpa using hx)]; omega
    have hqs : ∀ n, n = b1 - 1 → ∀ i x, l[i]? = some x → (q x = true ↔ i < n) := by
      intro n hn i x hx
      rw [hq (i + 1) x (by simpa using hx)]; omega
    cases b1 with
    | zero =>
      have hqa : q a = false := by
        cases h : q a with
        | false => rfl
        | true => rw [h] at hq0; simp at hq0
      cases b2 with
      | zero =>
        have hpa : p a = false := by
          cases h : p a with
          | false => rfl
          | true => rw [h] at hp0; simp at hp0
        have := ih 0 0 (by omega) (hps 0 rfl) (hqs 0 rfl)
        simp only [List.take_zero, List.drop_zero, List.map_nil, List.nil_append,
          List.append_nil] at this ⊢
        rw [List.map_cons, List.filter_cons_of_pos (by simp [hpa]), ← this.1, ← this.2]
        simp [hpa]
      | succ b2 =>
        have hpa : p a = true := hp0.mpr (by omega)
        have := ih 0 b2 (by omega) (hps b2 rfl) (hqs 0 rfl)
        simp only [List.take_zero, List.drop_zero, List.nil_append] at this ⊢
        rw [List.take_succ_cons, List.drop_succ_cons, List.map_cons, List.map_cons,
          List.filter_cons_of_neg (by simp [hpa, hqa]), ← this.1, ← this.2]
        simp [hpa, hqa]
    | succ b1 =>
      have hqa : q a = true := hq0.mpr (by omega)
      cases b2 with
      | zero => omega
      | succ b2 =>
        have := ih b1 b2 (by omega) (hps b2 rfl) (hqs b1 rfl)
        rw [List.take_succ_cons, List.take_succ_cons, List.drop_succ_cons, List.drop_succ_cons,
          List.map_cons, List.filter_cons_of_pos (by simp [hqa]), ← this.1, ← this.2]
        simp [hqa]

end Verif.Tracking
