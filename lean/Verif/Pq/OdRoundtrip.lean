import Verif.Pq.OdRead
/-!
An orbit determination solution which is written and read.
-/
namespace Verif.Pq
open Verif.Mc (Out)
open Verif.Spacecraft (Craft Param Mode V3)
open Verif.Device (MsrType)

variable {S Fr D : Type} {m : Nat}

/-- The types which the reader knows by name: all but those of the transmitted and received frequencies. -/
def Readable (t : MsrType) : Prop := t ≠ .receiveFreq ∧ t ≠ .transmitFreq ∧ t ≠ .transmitFreqRate

theorem readable_iff (t : MsrType) : fromStr t = true ↔ Readable t := by cases t <;> simp [fromStr, Readable]

/-- The file can be read: the case which makes the reader panic is `od_mixed_types_panic`. -/
def Unmixed (m : Nat) (types : List MsrType) : Prop :=
  types.length ≠ m ∨ (∀ t ∈ types, Readable t) ∨ ∀ t ∈ types, ¬ Readable t

/-- What is read of each gain. -/
noncomputable def gainRead (m : Nat) (types : List MsrType) (g : Option (Matrix (Fin 9) (Fin m) ℝ)) : Option (List Num) :=
  if types.length = m ∧ 0 < m ∧ ∀ t ∈ types, fromStr t = true then g.map flat else none

theorem gain_row (w : OWriter S Fr D) (sol : OdSol S Fr m) (hn : sol.types.Nodup) (hu : Unmixed m sol.types) (info : Meta D)
    (fields : List XPar) (i : Nat) (g : Option (Matrix (Fin 9) (Fin m) ℝ)) (hg : sol.gains[i]? = some g) :
    readGainRow m (gainCols (odFile w sol info fields) (sol.types.filter fromStr)) i = .ok (gainRead m sol.types g) := by
  unfold gainRead
  split
  · rename_i h
    rw [List.filter_eq_self.mpr h.2.2, gain_read w sol hn info fields h.1 i g hg h.2.1]
    rfl
  · rename_i h
    have hnil : gainCols (odFile w sol info fields) (sol.types.filter fromStr) = [] := by
      rcases hu with h1 | h1 | h1
      · exact gains_lost w sol info fields h1 _
      · by_cases hm : sol.types.length = m
        · have h0 : m = 0 := by
            by_contra h0
            exact h ⟨hm, Nat.pos_of_ne_zero h0, fun t ht => (readable_iff t).mpr (h1 t ht)⟩
          have : sol.types = [] := List.length_eq_zero_iff.mp (hm.trans h0)
          rw [this]
          exact gains_none_found _
        · exact gains_lost w sol info fields hm _
      · rw [List.filter_eq_nil_iff.mpr fun t ht => (fun hr => h1 t ht ((readable_iff t).mp hr))]
        exact gains_none_found _
    rw [hnil]
    rfl

/-- The file and the rows which are read from it. -/
def ReadsBack (w : OWriter S Fr D) (sol : OdSol S Fr m) (parse : S → Option Int) (de : D → Option Fr)
    (order : List MsrType → List MsrType) (P : Nat → ORow S Fr m → Prop) : Prop :=
  ∀ (junkS : Nat → S) (junk : OCol → Nat → Num), ∃ f rs types, odToFile w sol none none none none = .ok f ∧
    odFromFile m parse de order junkS junk f = .ok (rs, types) ∧ (∀ t, t ∈ types ↔ t ∈ sol.types ∧ Readable t) ∧
    rs.length = sol.estimates.length ∧ ∀ (i : Nat) row, rs[i]? = some row → P i row

theorem reads_back (w : OWriter S Fr D) (sol : OdSol S Fr m) (e0 : Est Fr) (h : Exportable w sol e0)
    (hr : ∀ r, some r ∈ sol.residuals → r.types.Nodup) (hu : Unmixed m sol.types) (parse : S → Option Int) (de : D → Option Fr)
    (order : List MsrType → List MsrType) (hc : Codec w parse de order) (P : Nat → ORow S Fr m → Prop)
    (hP : ∀ (i : Nat) row e r g q, sol.estimates[i]? = some e → sol.residuals[i]? = some r → sol.gains[i]? = some g →
      sol.ratios[i]? = some q → row.epoch = e.state.epoch ∧ row.frame = e0.state.frame ∧ row.srpArea = e0.nominal.srpArea ∧
          row.dragArea = e0.nominal.dragArea ∧
          (∀ j, row.state (.pos j) = some (e.state.pos j) ∧ row.state (.vel j) = some (e.state.vel j)) ∧
          row.state .cr = some e.state.cr ∧ row.state .cd = some e.state.cd ∧ row.state .dryMass = some e.state.dry ∧
          row.state .propMass = some e.state.prop ∧
          (∀ a b, row.covar a b = some (e.covar (min a b) (max a b))) ∧
          row.ratio = q.map (fun v => (List.finRange 9).map fun k => some (v k)) ∧ row.gain = gainRead m sol.types g ∧
          (r = none → row.resid = none) ∧
          (∀ r', r = some r' → ∃ x, row.resid = some x ∧ SameResid (sol.types.filter fromStr) w.undefined e.state.epoch r' x) →
          P i row) : ReadsBack w sol parse de order P := by
  intro junkS junk
  obtain ⟨f, rs, h1, h2, h3, h4⟩ := od_read_rows w sol e0 h hr parse de order hc junkS junk (gainRead m sol.types)
    fun i g hg => gain_row w sol h.nodup hu _ _ i g hg
  refine ⟨f, rs, _, h1, h2, ?_, h3, ?_⟩
  · intro t
    rw [List.mem_filter, readable_iff]
  · intro i row hrow
    have hi : i < sol.estimates.length := h3 ▸ (List.getElem?_eq_some_iff.mp hrow).1
    have he : sol.estimates[i]? = some sol.estimates[i] := List.getElem?_eq_getElem hi
    have hri : sol.residuals[i]? = some (sol.residuals[i]'(h.resid ▸ hi)) := List.getElem?_eq_getElem _
    have hgi : sol.gains[i]? = some (sol.gains[i]'(h.gain ▸ hi)) := List.getElem?_eq_getElem _
    have hqi : sol.ratios[i]? = some (sol.ratios[i]'(h.ratio ▸ hi)) := List.getElem?_eq_getElem _
    obtain ⟨row', hrow', hall⟩ := h4 i _ _ _ _ he hri hgi hqi
    rw [hrow, Option.some.injEq] at hrow'
    subst hrow'
    exact hP i row _ _ _ _ he hri hgi hqi hall

/-- **C192 (partial).** Of each estimate the epoch, orbit, coefficients and masses of the estimated state and the covariance, if it
is symmetric, are read as they were; the frame and the areas are those of the first estimate. What is not read is the subject of
`od_forgets`. -/
theorem od_estimates_partial (w : OWriter S Fr D) (sol : OdSol S Fr m) (e0 : Est Fr) (h : Exportable w sol e0)
    (hr : ∀ r, some r ∈ sol.residuals → r.types.Nodup) (hu : Unmixed m sol.types) (parse : S → Option Int) (de : D → Option Fr)
    (order : List MsrType → List MsrType) (hc : Codec w parse de order) :
    ReadsBack w sol parse de order fun i row => ∃ e, sol.estimates[i]? = some e ∧
      row.epoch = e.state.epoch ∧ (∀ j, row.state (.pos j) = some (e.state.pos j) ∧ row.state (.vel j) = some (e.state.vel j)) ∧
      row.state .cr = some e.state.cr ∧ row.state .cd = some e.state.cd ∧ row.state .dryMass = some e.state.dry ∧
      row.state .propMass = some e.state.prop ∧
      (∀ a b, a ≤ b → row.covar a b = some (e.covar a b) ∧ row.covar b a = some (e.covar a b)) ∧
      (e.covar.IsSymm → ∀ a b, row.covar a b = some (e.covar a b)) ∧
      row.frame = e0.state.frame ∧ row.srpArea = e0.nominal.srpArea ∧ row.dragArea = e0.nominal.dragArea := by
  refine reads_back w sol e0 h hr hu parse de order hc _ ?_
  rintro i row e r g q he - - - ⟨h1, h2, h3, h4, h5, h6, h7, h8, h9, h10, -⟩
  refine ⟨e, he, h1, h5, h6, h7, h8, h9, ?_, ?_, h2, h3, h4⟩
  · intro a b hab
    rw [h10, h10, min_eq_left hab, max_eq_right hab, min_eq_right hab, max_eq_left hab]
    exact ⟨rfl, rfl⟩
  · intro hs a b
    rw [h10]
    rcases le_total a b with hab | hab
    · rw [min_eq_left hab, max_eq_right hab]
    · rw [min_eq_right hab, max_eq_left hab, hs.apply]

/-- **C192 refuted.** Solutions which agree on the estimated states and covariances (and what is computed from these) have the
same file: the deviations apart from the nominal states, the predicted covariances, the transition matrices and the marks
of prediction cannot be read. -/
theorem od_forgets (w : OWriter S Fr D) (sol sol' : OdSol S Fr m) (hlen : sol.estimates.length = sol'.estimates.length)
    (hest : ∀ (i : Nat) e e', sol.estimates[i]? = some e → sol'.estimates[i]? = some e' → e.state = e'.state ∧ e.covar = e'.covar ∧
      e.nominal.srpArea = e'.nominal.srpArea ∧ e.nominal.dragArea = e'.nominal.dragArea ∧ ∀ p, w.sigmaFor p e = w.sigmaFor p e')
    (hres : sol.residuals = sol'.residuals) (hg : sol.gains = sol'.gains) (hq : sol.ratios = sol'.ratios) (ht : sol.types = sol'.types)
    (req : Option (List XPar)) :
    odToFile w sol req none none none = odToFile w sol' req none none none := by
  have hmap : ∀ {A : Type} (F : Est Fr → A), (∀ (i : Nat) e e', sol.estimates[i]? = some e → sol'.estimates[i]? = some e' → F e = F e') →
      sol.estimates.map F = sol'.estimates.map F := by
    intro A F hF
    apply List.ext_getElem
    · simp [hlen]
    · intro n h1 h2
      simp only [List.length_map] at h1 h2
      simp only [List.getElem_map]
      exact hF n _ _ (List.getElem?_eq_getElem h1) (List.getElem?_eq_getElem h2)
  have hany : ∀ (F : Est Fr → Bool), (∀ (i : Nat) e e', sol.estimates[i]? = some e → sol'.estimates[i]? = some e' → F e = F e') →
      sol.estimates.any F = sol'.estimates.any F := by
    intro F hF
    have := congrArg (fun l : List Bool => l.any id) (hmap F hF)
    simpa [List.any_map] using this
  obtain ⟨es, rs, gs, qs, ts⟩ := sol
  obtain ⟨es', rs', gs', qs', ts'⟩ := sol'
  simp only at hlen hest hres hg hq ht hmap hany
  subst hres hg hq ht
  rcases es with _ | ⟨e, es⟩
  · rcases es' with _ | ⟨e', es'⟩
    · rfl
    · simp at hlen
  rcases es' with _ | ⟨e', es'⟩
  · simp at hlen
  obtain ⟨h1, h2, h3, h4, h5⟩ := hest 0 e e' rfl rfl
  unfold odToFile
  simp only [List.head?_cons, List.getLast?_cons_cons, List.getLast?_cons, odRetained, Option.isSome_none, Bool.or_self,
    Bool.false_eq_true, if_false, hlen]
  have hf : odFields w e = odFields w e' := by
    funext req
    simp only [odFields, h1]
  have hst : ∀ {A : Type} (F : Craft ℝ Fr → A), (e :: es).map (fun e => F e.state) = (e' :: es').map fun e => F e.state :=
    fun F => hmap _ fun i a b ha hb => by rw [(hest i a b ha hb).1]
  have hco : ∀ {A : Type} (F : Craft ℝ Fr → Matrix (Fin 9) (Fin 9) ℝ → A),
      (e :: es).map (fun e => F e.state e.covar) = (e' :: es').map fun e => F e.state e.covar :=
    fun F => hmap _ fun i a b ha hb => by rw [(hest i a b ha hb).1, (hest i a b ha hb).2.1]
  have hsi : ∀ p, (e :: es).map (fun e => some (w.sigmaFor p e)) = (e' :: es').map fun e => some (w.sigmaFor p e) :=
    fun p => hmap _ fun i a b ha hb => by rw [(hest i a b ha hb).2.2.2.2]
  rw [h1, h3, h4, hf]
  rw [hany (fun e => (odFields w e' (req.getD exportParams)).any fun p => (w.toWriter.value e.state p).isNone)
      fun i a b ha hb => by rw [(hest i a b ha hb).1],
    hany (fun e => ((odFields w e' (req.getD exportParams)).filter (isElement w.elemNo)).any fun p => (w.sigmaFor p e).isNone)
      fun i a b ha hb => by simp only [(hest i a b ha hb).2.2.2.2],
    hany (fun e => (w.ric e.state).isNone) fun i a b ha hb => by rw [(hest i a b ha hb).1]]
  have hrec : ∀ fields, odRecords w ⟨e :: es, rs, gs, qs, ts⟩ fields (e :: es) rs = odRecords w ⟨e' :: es', rs, gs, qs, ts⟩ fields (e' :: es') rs := by
    intro fields
    unfold odRecords
    simp only
    rw [hst fun s => some (w.fmt s.epoch)]
    have a1 : ∀ p, (e :: es).map (fun e => some (w.toWriter.value e.state p)) = (e' :: es').map fun e => some (w.toWriter.value e.state p) :=
      fun p => hst fun s => some (w.toWriter.value s p)
    have a2 : ∀ i j, (e :: es).map (fun e => (some (some (e.covar i j)) : Option Num)) = (e' :: es').map fun e => some (some (e.covar i j)) :=
      fun i j => hco fun _ c => some (some (c i j))
    have a3 : ∀ i, (e :: es).map (fun e => some (sqrtN (e.covar i i))) = (e' :: es').map fun e => some (sqrtN (e.covar i i)) :=
      fun i => hco fun _ c => some (sqrtN (c i i))
    have a4 : ∀ i, (e :: es).map (fun e => some ((w.ric e.state).bind fun d => sqrtN (ricCovar d e.covar i i))) =
        (e' :: es').map fun e => some ((w.ric e.state).bind fun d => sqrtN (ricCovar d e.covar i i)) :=
      fun i => hco fun s c => some ((w.ric s).bind fun d => sqrtN (ricCovar d c i i))
    simp only [a1, a2, a3, a4, hsi]
  rw [hrec]
  rfl

/-- **C193 (partial).** Each residual is read if there was one, with its ratio, mark of rejection and tracker, and for each type
which the reader knows the values (`SameResid`). The whitened residuals are always lost (NaN), the types of frequencies too. -/
theorem od_residuals_partial (w : OWriter S Fr D) (sol : OdSol S Fr m) (e0 : Est Fr) (h : Exportable w sol e0)
    (hr : ∀ r, some r ∈ sol.residuals → r.types.Nodup ∧ ∀ t ∈ r.types, t ∈ sol.types) (hu : Unmixed m sol.types)
    (parse : S → Option Int) (de : D → Option Fr) (order : List MsrType → List MsrType) (hc : Codec w parse de order) :
    ReadsBack w sol parse de order fun i row =>
      (sol.residuals[i]? = some none → row.resid = none) ∧
      ∀ r, sol.residuals[i]? = some (some r) → ∃ q, row.resid = some q ∧ q.epoch = row.epoch ∧ q.ratio = r.ratio ∧
        q.rejected = r.rejected ∧ (∀ k, r.tracker = some k → q.tracker = some k) ∧ q.types.Nodup ∧ q.types.length ≤ m ∧
        (∀ t, t ∈ q.types ↔ t ∈ r.types ∧ Readable t) ∧
        (∀ t (j j' : Fin m), r.types[j.val]? = some t → q.types[j'.val]? = some t → q.prefit j' = r.prefit j ∧
          q.postfit j' = r.postfit j ∧ q.noise j' = r.noise j ∧ q.real j' = r.real j ∧ q.computed j' = r.computed j) ∧
        ∀ j' : Fin m, j'.val < q.types.length → q.whitened j' = none := by
  refine reads_back w sol e0 h (fun r hr' => (hr r hr').1) hu parse de order hc _ ?_
  rintro i row e r g q he hri - - ⟨h1, -, -, -, -, -, -, -, -, -, -, -, h2, h3⟩
  constructor
  · intro hn
    rw [hri, Option.some.injEq] at hn
    exact h2 hn
  · intro r' hr'
    rw [hri, Option.some.injEq] at hr'
    obtain ⟨x, hx, hs⟩ := h3 r' hr'
    refine ⟨x, hx, hs.epoch.trans h1.symm, hs.ratio, hs.rejected, ?_, hs.nodup, hs.room, ?_, hs.values, hs.lost⟩
    · intro k hk
      rw [hs.tracker, hk]
      rfl
    · intro t
      rw [hs.types, List.mem_filter, readable_iff]
      have := (hr r' (List.mem_of_getElem? (hr' ▸ hri))).2 t
      exact ⟨fun a => ⟨a.1, a.2.2⟩, fun a => ⟨a.1, this a.1, a.2⟩⟩

/-- **C194 (partial).** The filter-smoother ratios are read as they were; the gains too when there are as many types as
components in a measurement, all known to the reader; with fewer types all the gains are lost. -/
theorem od_gains_partial (w : OWriter S Fr D) (sol : OdSol S Fr m) (e0 : Est Fr) (h : Exportable w sol e0)
    (hr : ∀ r, some r ∈ sol.residuals → r.types.Nodup) (hu : Unmixed m sol.types)
    (parse : S → Option Int) (de : D → Option Fr) (order : List MsrType → List MsrType) (hc : Codec w parse de order) :
    ReadsBack w sol parse de order fun i row =>
      (∃ q, sol.ratios[i]? = some q ∧ row.ratio = q.map fun v => [some (v 0), some (v 1), some (v 2), some (v 3), some (v 4),
        some (v 5), some (v 6), some (v 7), some (v 8)]) ∧
      (sol.types.length ≠ m → row.gain = none) ∧
      (sol.types.length = m → (∀ t ∈ sol.types, Readable t) →
        (sol.gains[i]? = some none → row.gain = none) ∧
        ∀ k, sol.gains[i]? = some (some k) → 0 < m → ∃ l, row.gain = some l ∧ l.length = 9 * m ∧
          ∀ (a : Fin 9) (b : Fin m), l[a.val * m + b.val]? = some (some (k a b))) := by
  refine reads_back w sol e0 h hr hu parse de order hc _ ?_
  rintro i row e r g q he hri hgi hqi ⟨-, -, -, -, -, -, -, -, -, -, h1, h2, -, -⟩
  refine ⟨⟨q, hqi, h1⟩, ?_, ?_⟩
  · intro hm
    rw [h2]
    simp [gainRead, hm]
  · intro hm hall
    constructor
    · intro hn
      rw [hgi, Option.some.injEq] at hn
      rw [h2, hn]
      simp [gainRead]
    · intro k hk h0
      rw [hgi, Option.some.injEq] at hk
      refine ⟨flat k, ?_, ?_, ?_⟩
      · rw [h2, hk]
        unfold gainRead
        rw [if_pos ⟨hm, h0, fun t ht => (readable_iff t).mpr (hall t ht)⟩]
        rfl
      · unfold flat
        rw [flatMap_length _ _ m (by simp), List.length_finRange]
      · intro a b
        have hgen : ∀ (n : Nat) (F : Fin n → Fin m → Num) (a : Fin n) (b : Fin m),
            ((List.finRange n).flatMap fun a => (List.finRange m).map fun b => F a b)[a.val * m + b.val]? = some (F a b) := by
          intro n
          induction n with
          | zero => intro F a; exact a.elim0
          | succ n ih =>
            intro F a b
            rw [List.finRange_succ, List.flatMap_cons]
            refine Fin.cases ?_ (fun a => ?_) a
            · rw [List.getElem?_append_left (by simp)]
              simp
            · rw [List.getElem?_append_right (by simp [Nat.succ_mul]; omega)]
              have : (Fin.succ a).val * m + b.val - ((List.finRange m).map fun b => F 0 b).length = a.val * m + b.val := by
                simp [Nat.succ_mul]; omega
              rw [this, List.flatMap_map]
              exact ih (fun a b => F a.succ b) a b
        exact hgen 9 (fun a b => some (k a b)) a b

/-- **C194 refuted.** With as many types as components, some known to the reader and some not, the file of a solution with
a gain makes the reader panic. -/
theorem od_mixed_types_panic (w : OWriter S Fr D) (sol : OdSol S Fr m) (e0 : Est Fr) (h : Exportable w sol e0)
    (hm : sol.types.length = m) (t u : MsrType) (ht : t ∈ sol.types) (hu : u ∈ sol.types) (hrt : Readable t) (hru : ¬ Readable u)
    (k : Matrix (Fin 9) (Fin m) ℝ) (hk : some k ∈ sol.gains) (parse : S → Option Int) (de : D → Option Fr)
    (order : List MsrType → List MsrType) (hc : Codec w parse de order) (junkS : Nat → S) (junk : OCol → Nat → Num) :
    ∃ f, odToFile w sol none none none none = .ok f ∧ odFromFile m parse de order junkS junk f = .panic := by
  refine ⟨_, od_written_partial w sol e0 h, ?_⟩
  generalize hf : odFile w sol ⟨w.ser e0.state.frame, e0.nominal.srpArea, e0.nominal.dragArea⟩ (odFields w e0 exportParams) = f
  rw [od_read w sol e0 h parse hc.time de hc.frame order junkS junk f hf.symm]
  have h0 : 0 < m := hm ▸ List.length_pos_of_mem ht
  have hlt : ∀ t ∈ sol.types, sol.types.idxOf t < m := fun t ht => (List.idxOf_lt_length_of_mem ht).trans_le hm.le
  have hcols : gainCols f (sol.types.filter fromStr) = (List.finRange 9).flatMap fun a => (sol.types.filter fromStr).map fun t =>
      sol.gains.map fun g => g.map fun k => (some (k a (if h : sol.types.idxOf t < m then ⟨sol.types.idxOf t, h⟩ else ⟨0, h0⟩)) : Num) := by
    rw [← hf]
    refine gains_found w sol h.nodup _ _ hm _ _ ?_
    intro t ht
    have ht' := (List.mem_filter.mp ht).1
    rw [dif_pos (hlt t ht')]
    simp only
    rw [List.getElem?_eq_getElem (List.idxOf_lt_length_of_mem ht'), List.getElem_idxOf]
  have hfl : (sol.types.filter fromStr).length < m := by
    refine lt_of_lt_of_eq ?_ hm
    refine lt_of_le_of_ne (List.length_filter_le _ _) fun he => ?_
    rw [List.length_filter_eq_length_iff] at he
    exact hru ((readable_iff u).mp (he u hu))
  have hfp : 0 < (sol.types.filter fromStr).length :=
    List.length_pos_of_mem (List.mem_filter.mpr ⟨ht, (readable_iff t).mpr hrt⟩)
  generalize gainCols f (sol.types.filter fromStr) = cols at hcols
  have hlen : cols.length = 9 * (sol.types.filter fromStr).length := by
    rw [hcols, flatMap_length _ _ (sol.types.filter fromStr).length (by simp), List.length_finRange]
  have hcell : ∀ (i : Nat) g, sol.gains[i]? = some g → ∀ c ∈ cols, (cellAt c i).isSome = g.isSome := by
    intro i g hg c hcc
    rw [hcols] at hcc
    simp only [List.mem_flatMap, List.mem_map] at hcc
    obtain ⟨a, _, b, _, rfl⟩ := hcc
    rw [cellAt_map _ _ i _ hg]
    simp
  have hne : cols ≠ [] := by
    intro hh
    rw [hh] at hlen
    simp only [List.length_nil] at hlen
    omega
  have hrow : ∀ i, i < sol.estimates.length → (∃ k, sol.gains[i]? = some (some k) ∧ readGainRow m cols i = .panic) ∨
      sol.gains[i]? = some none ∧ readGainRow m cols i = .ok none := by
    intro i hi
    have hgi : sol.gains[i]? = some (sol.gains[i]'(h.gain ▸ hi)) := List.getElem?_eq_getElem _
    unfold readGainRow
    rw [if_neg (by simpa using hne)]
    cases hg : sol.gains[i]'(h.gain ▸ hi) with
    | none =>
      rw [hg] at hgi
      right
      refine ⟨hgi, ?_⟩
      obtain ⟨c, l, rfl⟩ := List.exists_cons_of_ne_nil hne
      have := hcell i none hgi c List.mem_cons_self
      simp only [Option.isSome_none, Option.isSome_eq_false_iff, Option.isNone_iff_eq_none] at this
      exact readGain_null _ i c rfl this _ (by omega)
    | some k =>
      rw [hg] at hgi
      left
      refine ⟨k, hgi, readGain_panics cols i (fun c hcc => by rw [hcell i _ hgi c hcc]; rfl) _ cols.length ?_ le_rfl⟩
      rw [List.mem_range]
      omega
  obtain ⟨i, hi, hgi⟩ := List.getElem_of_mem hk
  have hi' : i < sol.estimates.length := h.gain ▸ hi
  rw [rows_panics _ _ ?_ i (List.mem_range.mpr hi') ?_]
  · rfl
  · intro j hj
    rcases hrow j (List.mem_range.mp hj) with ⟨_, _, hp⟩ | ⟨_, hp⟩
    · left; rw [hp]; rfl
    · right; rw [hp]; exact ⟨_, rfl⟩
  · rcases hrow i hi' with ⟨_, _, hp⟩ | ⟨hn, _⟩
    · rw [hp]; rfl
    · rw [List.getElem?_eq_getElem hi, hgi] at hn
      simp at hn

/-! ### The uncertainties in the RIC frame -/

/-- The variance of the component of the deviation along the `i`-th axis of a frame: `d` has these axes in its columns (it
takes components in the frame to inertial ones), so that the component of `x` is the product with that column. -/
noncomputable def variance (d : Matrix (Fin 6) (Fin 6) ℝ) (c : Matrix (Fin 9) (Fin 9) ℝ) (i : Fin 6) : ℝ :=
  ∑ a : Fin 6, ∑ b : Fin 6, d a i * c (a.castLE (by omega)) (b.castLE (by omega)) * d b i

theorem ricCovar_diag (d : Matrix (Fin 6) (Fin 6) ℝ) (c : Matrix (Fin 9) (Fin 9) ℝ) (i : Fin 6) :
    ricCovar d c i i = ∑ a : Fin 6, ∑ b : Fin 6, d i a * c (a.castLE (by omega)) (b.castLE (by omega)) * d i b := by
  unfold ricCovar
  rw [Matrix.mul_apply, Finset.sum_comm]
  refine Finset.sum_congr rfl fun b _ => ?_
  rw [Matrix.mul_apply, Matrix.transpose_apply, Finset.sum_mul]
  rfl

theorem od_ricCol (w : OWriter S Fr D) (sol : OdSol S Fr m) (info : Meta D) (fields : List XPar) (i : Fin 6) :
    column (odFile w sol info fields) (.ric i) =
      some (.num (sol.estimates.map fun e => some ((w.ric e.state).bind fun d => sqrtN (ricCovar d e.covar i i)))) := by
  have hg : column (gainSeg sol : File OCol (Option (Meta D)) S Num) (.ric i) = none := gainSeg_none sol _ (by simp) (by simp)
  simp only [odFile, column_append, column_map, column, reduceCtorEq, if_false, if_true, decide_false, find_none, Option.map_none, Option.or_none,
    Option.none_or, hg, OCol.ric.injEq, find_self _ _ (List.mem_finRange i), Option.map_some, Option.some_or]

/-- **C195 (partial).** The uncertainty written for an axis of the RIC frame is the standard deviation along that axis if the
matrix of the frame is symmetric, in particular if both frames are the same. -/
theorem ric_sigma_partial (w : OWriter S Fr D) (sol : OdSol S Fr m) (e0 : Est Fr) (h : Exportable w sol e0) :
    ∃ f, odToFile w sol none none none none = .ok f ∧ ∀ i : Fin 6, ∃ l, column f (.ric i) = some (.num l) ∧
      l.length = sol.estimates.length ∧ ∀ (n : Nat) e d, sol.estimates[n]? = some e → w.ric e.state = some d → d.IsSymm →
        0 ≤ variance d e.covar i → l[n]? = some (some (some (Real.sqrt (variance d e.covar i)))) := by
  refine ⟨_, od_written_partial w sol e0 h, fun i => ⟨_, od_ricCol w sol _ _ i, by simp, ?_⟩⟩
  intro n e d he hd hs hv
  rw [List.getElem?_map, he]
  have : ricCovar d e.covar i i = variance d e.covar i := by
    rw [ricCovar_diag, variance]
    refine Finset.sum_congr rfl fun a _ => Finset.sum_congr rfl fun b _ => ?_
    rw [hs.apply a i, hs.apply b i]
  simp [hd, this, sqrtN, not_lt.mpr hv]

/-- A rotation of the axes: x to y, y to z, z to x, for the positions and the velocities. -/
def cyc : Matrix (Fin 6) (Fin 6) ℝ :=
  !![0, 0, 1, 0, 0, 0; 1, 0, 0, 0, 0, 0; 0, 1, 0, 0, 0, 0; 0, 0, 0, 0, 0, 1; 0, 0, 0, 1, 0, 0; 0, 0, 0, 0, 1, 0]

/-- **C195 refuted.** There is a frame (with orthonormal axes) such that for every solution in it, what is written for the radial axis is the standard deviation along the cross-track axis. -/
theorem ric_sigma_false (w : OWriter S Fr D) (sol : OdSol S Fr m) (e0 : Est Fr) (h : Exportable w sol e0)
    (hd : w.ric e0.state = some cyc) (hpos : ∀ a, 0 ≤ e0.covar a a) :
    cyc * cyc.transpose = 1 ∧ variance cyc e0.covar 0 = e0.covar 1 1 ∧ variance cyc e0.covar 2 = e0.covar 0 0 ∧
    ∃ f l, odToFile w sol none none none none = .ok f ∧ column f (.ric 0) = some (.num l) ∧
      l[0]? = some (some (some (Real.sqrt (e0.covar 2 2)))) := by
  have h0 : sol.estimates[0]? = some e0 := by
    rw [← List.head?_eq_getElem?]
    exact h.first
  refine ⟨?_, ?_, ?_, _, _, od_written_partial w sol e0 h, od_ricCol w sol _ _ 0, ?_⟩
  · ext i j
    fin_cases i <;> fin_cases j <;> simp [cyc, Matrix.mul_apply, Fin.sum_univ_succ]
  · simp [variance, cyc, Fin.sum_univ_succ]
  · simp [variance, cyc, Fin.sum_univ_succ]
  · rw [List.getElem?_map, h0]
    have : ricCovar cyc e0.covar 0 0 = e0.covar 2 2 := by
      rw [ricCovar_diag]
      simp [cyc, Fin.sum_univ_succ]
    simp [hd, this, sqrtN, not_lt.mpr (hpos 2)]

/-! ### Examples -/

/-- A spacecraft at `t`. -/
noncomputable def odCraft (t : Int) : Craft ℝ Unit :=
  ⟨(), t, ![7000, 0, 0], ![0, 7, 1], 500, 20, 0, 3, 1.8, 2, 2.2, none, .coast, none, none⟩

/-- An estimate at `t`. -/
noncomputable def odEst (t : Int) (p : Bool) : Est Unit := ⟨odCraft t, 0, 1, 1, 1, p⟩

/-- A writer: epochs and frames as they are. -/
noncomputable def odW (d : Matrix (Fin 6) (Fin 6) ℝ) : OWriter Int Unit Unit where
  fmt := fun t => t
  ser := fun _ => ()
  modeName := fun _ => 0
  other := fun _ _ => none
  elemNo := fun _ => true
  sigmaFor := fun _ _ => some 1
  ric := fun _ => some d
  undefined := 0

/-- A residual of two types. -/
noncomputable def odRes (a b : MsrType) : ORes Int 2 := ⟨5, fun _ => some 1, fun _ => some 2, fun _ => some 3, fun _ => some 4,
  fun _ => some 5, fun _ => some 6, some 1, false, some 7, [a, b]⟩

/-- A solution: a prediction, then a measurement of two types. -/
noncomputable def odSol (a b : MsrType) (p : Bool) : OdSol Int Unit 2 :=
  ⟨[odEst 0 p, odEst 5 false], [none, some (odRes a b)], [none, some 0], [some 0, none], [a, b]⟩

theorem odSol_exportable (d : Matrix (Fin 6) (Fin 6) ℝ) (a b : MsrType) (hab : a ≠ b) (p : Bool) :
    Exportable (odW d) (odSol a b p) (odEst 0 p) where
  first := rfl
  resid := rfl
  gain := rfl
  ratio := rfl
  value := by
    intro q hq h e he
    simp only [odSol, List.mem_cons, List.not_mem_nil, or_false] at he
    rcases he with rfl | rfl
    · exact h
    · rcases q with q | k
      · cases q <;> simp_all [Writer.value, Craft.value, odEst, odCraft, Est.state, Craft.add]
      · simp [Writer.value, odW] at h
  sigma := by intro q _ e _; rfl
  ric := by intro e _; rfl
  typed := by simp [odSol, odRes]
  nodup := by simp [odSol, hab]

theorem odW_codec (d : Matrix (Fin 6) (Fin 6) ℝ) : Codec (odW d) some (fun _ => some ()) List.reverse where
  time := fun _ => rfl
  frame := fun _ => rfl
  perm := fun l => List.reverse_perm l

theorem odSol_unmixed : Unmixed 2 (odSol .range .doppler true).types := .inr (.inl (by simp [odSol, Readable]))

theorem odSol_resid : ∀ r, some r ∈ (odSol .range .doppler true).residuals →
    r.types.Nodup ∧ ∀ t ∈ r.types, t ∈ (odSol .range .doppler true).types := by
  simp [odSol, odRes]

noncomputable example := od_estimates_partial (odW 1) (odSol .range .doppler true) _ (odSol_exportable 1 _ _ (by decide) _)
  (fun r h => (odSol_resid r h).1) odSol_unmixed some (fun _ => some ()) List.reverse (odW_codec 1)

noncomputable example := od_residuals_partial (odW 1) (odSol .range .doppler true) _ (odSol_exportable 1 _ _ (by decide) _)
  odSol_resid odSol_unmixed some (fun _ => some ()) List.reverse (odW_codec 1)

noncomputable example := od_gains_partial (odW 1) (odSol .range .doppler true) _ (odSol_exportable 1 _ _ (by decide) _)
  (fun r h => (odSol_resid r h).1) odSol_unmixed some (fun _ => some ()) List.reverse (odW_codec 1)

noncomputable example := od_mixed_types_panic (odW 1) (odSol .range .receiveFreq true) _ (odSol_exportable 1 _ _ (by decide) _) rfl
  .range .receiveFreq (by simp [odSol]) (by simp [odSol]) (by simp [Readable]) (by simp [Readable]) 0 (by simp [odSol])
  some (fun _ => some ()) List.reverse (odW_codec 1)

/-- Two solutions which differ in the mark of prediction of the first estimate have the same file. -/
example : odSol .range .doppler true ≠ odSol .range .doppler false ∧
    odToFile (odW 1) (odSol .range .doppler true) none none none none = odToFile (odW 1) (odSol .range .doppler false) none none none none := by
  constructor
  · simp [odSol, odEst]
  · refine od_forgets _ _ _ rfl ?_ rfl rfl rfl rfl none
    intro i e e' h h'
    rcases i with _ | _ | i
    · simp only [odSol, List.getElem?_cons_zero, Option.some.injEq] at h h'
      subst h h'
      exact ⟨rfl, rfl, rfl, rfl, fun _ => rfl⟩
    · simp only [odSol, zero_add, List.getElem?_cons_succ, List.getElem?_cons_zero, Option.some.injEq] at h h'
      subst h h'
      exact ⟨rfl, rfl, rfl, rfl, fun _ => rfl⟩
    · simp [odSol] at h

noncomputable example := ric_sigma_partial (odW 1) (odSol .range .doppler true) _ (odSol_exportable 1 _ _ (by decide) _)

noncomputable example := ric_sigma_false (odW cyc) (odSol .range .doppler true) _ (odSol_exportable cyc _ _ (by decide) _) rfl
  (by intro a; simp [odEst])

noncomputable example := od_export_refused (odW 1) { odSol .range .doppler true with gains := [] } none none none none
  (.inr (.inr (.inl (by simp [odSol]))))

noncomputable example := od_window_fails (odW 1) (odSol .range .doppler true) none (some 3) none none (odEst 0 true) (by simp [odSol])
  (.inl ⟨3, rfl, by simp [odEst, Est.state, odCraft, Craft.add]⟩)

/-- The first estimate has a thruster, the second does not. -/
noncomputable example := od_later_missing_fails (odW 1)
  { odSol .range .doppler true with estimates := [⟨{ odCraft 0 with thruster := some ⟨1, 300⟩ }, 0, 1, 1, 1, false⟩, odEst 5 false] }
  _ rfl none (.core .thrust) (by simp [exportParams]) (by decide) (by simp [Writer.value, Craft.value, Est.state, Craft.add]) (odEst 5 false)
  (by simp) (by simp [Writer.value, Craft.value, Est.state, Craft.add, odEst, odCraft])

end Verif.Pq
