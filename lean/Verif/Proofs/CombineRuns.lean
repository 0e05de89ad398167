import Verif.Proofs.CombineLive
import Verif.Spec.Combine
import Mathlib.Algebra.Order.BigOperators.Group.List

/-! combine_ns_runs. -/

set_option linter.unusedSectionVars false

namespace Nestcheck
open Spec
variable {σ K : Type} [CommRing K] [LinearOrder K]

theorem filter_lt_eq_take {α : Type} {key : α → K} {rows : List α}
    (hs : rows.Pairwise (fun a b => key a ≤ key b)) (l : K) :
    rows.filter (fun x => decide (key x < l)) =
      rows.take (rows.countP (fun x => decide (key x < l))) := by
  induction rows with
  | nil => rfl
  | cons r rs ih =>
    rw [List.pairwise_cons] at hs
    by_cases h : key r < l
    · rw [List.filter_cons_of_pos (by simpa using h), List.countP_cons_of_pos (by simpa using h),
        List.take_succ_cons, ih hs.2]
    · have hz : ∀ x ∈ rs, ¬ key x < l := fun x hx hc => h (lt_of_le_of_lt (hs.1 x hx) hc)
      rw [List.filter_cons_of_neg (by simpa using h), List.countP_cons_of_neg (by simpa using h),
        List.countP_eq_zero.mpr (by simpa using hz), List.filter_eq_nil_iff.mpr (by simpa using hz)]
      rfl

/-- The rows of one run carry its live counts as changes. -/
theorem sum_dn_run {r : Run K} {rows : List (Row K)} {n0 : Int} (h1 : rows.map (·.logl) = r.logl)
    (h2 : rows.map (·.dn) = diff r.nlive ++ [-1]) (hlen : r.nlive.length = r.logl.length)
    (hs : r.logl.Pairwise (· ≤ ·)) (h0 : r.nlive[0]? = some n0) (hl : r.nlive.getLast? = some 1) (l : K) :
    ((rows.filter (fun x => decide (x.logl < l))).map (·.dn)).sum = liveOf r l - n0 := by
  have hs' : rows.Pairwise (fun a b => a.logl ≤ b.logl) := by
    rw [← h1, List.pairwise_map] at hs; exact hs
  have hc : rows.countP (fun x => decide (x.logl < l)) = r.logl.countP (fun x => decide (x < l)) := by
    rw [← h1, List.countP_map]; rfl
  rw [filter_lt_eq_take hs', List.map_take, h2, hc]
  unfold liveOf
  set c := r.logl.countP (fun x => decide (x < l)) with hcdef
  have hcle : c ≤ r.nlive.length := by rw [hlen, hcdef]; exact List.countP_le_length
  have hpos : 0 < r.nlive.length := (List.getElem?_eq_some_iff.mp h0).1
  have hdl : (diff r.nlive).length = r.nlive.length - 1 := length_diff _
  by_cases hlt : c < r.nlive.length
  · rw [List.take_append_of_le_length (by omega), List.getD_eq_getElem?_getD,
      List.getElem?_eq_getElem hlt, sum_take_diff h0 (List.getElem?_eq_getElem hlt)]
    rfl
  · have he : c = r.nlive.length := by omega
    rw [List.take_of_length_le (by simp; omega), List.sum_append, List.getD_eq_getElem?_getD,
      List.getElem?_eq_none (by omega)]
    have : (diff r.nlive).sum = 1 - n0 := by
      rw [← List.take_length (l := diff r.nlive), hdl]
      apply sum_take_diff h0
      rw [List.getLast?_eq_getElem?] at hl
      exact hl
    rw [this, Option.getD_none, List.sum_cons, List.sum_nil]; ring

/-- Thread labels `n, n+1, ..` of rows agree with the rows of `thread_min_max`. -/
structure RowsOK (n : Nat) (rows : List (Row K)) (tmm : List (WithBot K × K)) : Prop where
  lab : ∀ r ∈ rows, ∃ k : Nat, k < tmm.length ∧ r.label = some ((n + k : Nat) : Int)
  range : ∀ (k : Nat) (mm : WithBot K × K), tmm[k]? = some mm → ∀ r ∈ rows,
    r.label = some ((n + k : Nat) : Int) → mm.1 ≤ (r.logl : WithBot K) ∧ r.logl ≤ mm.2
  stop : ∀ (k : Nat) (mm : WithBot K × K), tmm[k]? = some mm → ∃ r ∈ rows,
    r.label = some ((n + k : Nat) : Int) ∧ r.logl = mm.2

theorem RowsOK.perm {n : Nat} {rows rows' : List (Row K)} {tmm : List (WithBot K × K)}
    (h : RowsOK n rows tmm) (hp : rows.Perm rows') : RowsOK n rows' tmm :=
  ⟨fun r hr => h.lab r (hp.mem_iff.mpr hr), fun k mm hk r hr => h.range k mm hk r (hp.mem_iff.mpr hr),
   fun k mm hk => by
    obtain ⟨r, hr, h1⟩ := h.stop k mm hk
    exact ⟨r, hp.mem_iff.mp hr, h1⟩⟩

theorem RowsOK.append {n : Nat} {rows rows' : List (Row K)} {t t' : List (WithBot K × K)}
    (h : RowsOK n rows t) (h' : RowsOK (n + t.length) rows' t') : RowsOK n (rows ++ rows') (t ++ t') := by
  constructor
  · intro r hr
    rcases List.mem_append.mp hr with hr | hr
    · obtain ⟨k, hk, e⟩ := h.lab r hr
      exact ⟨k, by simp; omega, e⟩
    · obtain ⟨k, hk, e⟩ := h'.lab r hr
      exact ⟨t.length + k, by simp; omega, by rw [e, Nat.add_assoc]⟩
  · intro k mm hk r hr e
    by_cases hkt : k < t.length
    · rw [List.getElem?_append_left hkt] at hk
      rcases List.mem_append.mp hr with hr | hr
      · exact h.range k mm hk r hr e
      · obtain ⟨j, hj, e'⟩ := h'.lab r hr
        rw [e, Option.some.injEq] at e'
        omega
    · rw [List.getElem?_append_right (by omega)] at hk
      rcases List.mem_append.mp hr with hr | hr
      · obtain ⟨j, hj, e'⟩ := h.lab r hr
        rw [e, Option.some.injEq] at e'
        omega
      · exact h'.range _ mm hk r hr (by rw [e]; congr 2; omega)
  · intro k mm hk
    by_cases hkt : k < t.length
    · rw [List.getElem?_append_left hkt] at hk
      obtain ⟨r, hr, e⟩ := h.stop k mm hk
      exact ⟨r, by simp [hr], e⟩
    · rw [List.getElem?_append_right (by omega)] at hk
      obtain ⟨r, hr, e, e'⟩ := h'.stop _ mm hk
      exact ⟨r, by simp [hr], by rw [e]; congr 2; omega, e'⟩

theorem mem_rows_of_label {rows : List (Row K)} {labels : List Int} {n : Nat}
    (h2 : rows.map (·.label) = labels.map (fun k => some (k + (n : Int)))) {i : Nat} {r : Row K}
    (hi : rows[i]? = some r) : ∃ k, labels[i]? = some k ∧ r.label = some (k + n) := by
  have := congrArg (·[i]?) h2
  simp only [List.getElem?_map, hi, Option.map_some] at this
  cases hl : labels[i]? with
  | none => rw [hl] at this; simp at this
  | some k => rw [hl] at this; simp only [Option.map_some, Option.some.injEq] at this; exact ⟨k, rfl, this⟩

/-- The rows of a valid run, its labels moved up by `n`. -/
theorem RowsOK.of_valid {r : Run K} {labels : List Int} {tmm : List (WithBot K × K)}
    (hv : ValidWith r labels tmm) {rows : List (Row K)} {n : Nat} (h1 : rows.map (·.logl) = r.logl)
    (h2 : rows.map (·.label) = labels.map (fun k => some (k + (n : Int)))) : RowsOK n rows tmm := by
  obtain ⟨-, -, -, hl, -, hs, hok⟩ := validWith_iff.mp hv
  obtain ⟨q1, -, q3⟩ := (threadsOK_iff_pick hs hl).mp hok
  constructor
  · intro x hx
    obtain ⟨i, hi⟩ := List.mem_iff_getElem?.mp hx
    obtain ⟨k, hk, e⟩ := mem_rows_of_label h2 hi
    have := (q1 k).mp (List.mem_of_getElem? hk)
    exact ⟨k.toNat, by omega, by rw [e]; congr 1; omega⟩
  · intro k mm hk x hx e
    obtain ⟨i, hi⟩ := List.mem_iff_getElem?.mp hx
    obtain ⟨k', hk', e'⟩ := mem_rows_of_label h2 hi
    rw [e, Option.some.injEq] at e'
    have : k' = k := by omega
    subst this
    apply (q3 k mm hk).1
    rw [mem_pick]
    exact ⟨i, hk', by rw [← h1, List.getElem?_map, hi]; rfl⟩
  · intro k mm hk
    obtain ⟨i, hi, hl'⟩ := mem_pick.mp (q3 k mm hk).2
    rw [← h1, List.getElem?_map, Option.map_eq_some_iff] at hl'
    obtain ⟨x, hx, e⟩ := hl'
    obtain ⟨k', hk', e'⟩ := mem_rows_of_label h2 hx
    rw [hi, Option.some.injEq] at hk'
    refine ⟨x, List.mem_of_getElem? hx, ?_, e⟩
    rw [e', ← hk']; congr 1; push_cast; omega

/-- Sorted rows with good labels make a valid run. -/
theorem RowsOK.valid {rows : List (Row K)} {tmm : List (WithBot K × K)} (h : RowsOK 0 rows tmm)
    (hs : rows.Pairwise (fun a b => a.logl ≤ b.logl)) (hb : ∃ p ∈ tmm, p.1 = ⊥) {nl : List Int}
    (hn : nl.length = rows.length) :
    ∃ labels : List Int, rows.map (·.label) = labels.map some ∧ ValidWith (runOfRows rows nl tmm) labels tmm := by
  have hall : ∃ labels : List Int, rows.map (·.label) = labels.map some := by
    have := h.lab
    clear h hs hn
    induction rows with
    | nil => exact ⟨[], rfl⟩
    | cons r rs ih =>
      obtain ⟨ls, hls⟩ := ih (fun x hx => this x (by simp [hx]))
      obtain ⟨k, -, e⟩ := this r (by simp)
      exact ⟨((0 + k : Nat) : Int) :: ls, by simp [hls, e]⟩
  obtain ⟨labels, hlab⟩ := hall
  have hlen : labels.length = rows.length := by
    have := congrArg List.length hlab; simpa using this.symm
  have hlab' : rows.map (·.label) = labels.map (fun k => some (k + ((0 : Nat) : Int))) := by
    rw [hlab]; simp
  refine ⟨labels, hlab, validWith_iff.mpr ⟨?_, rfl, ?_, ?_, ?_, ?_, ?_⟩⟩
  · simp only [runOfRows]; rw [hlab, allSome_map_some]
  · simp [runOfRows, hn]
  · simp [runOfRows, hlen]
  · simp [runOfRows]
  · simp only [runOfRows]; rw [List.pairwise_map]; exact hs
  · have hs' : (rows.map (·.logl)).Pairwise (· ≤ ·) := by rw [List.pairwise_map]; exact hs
    refine (threadsOK_iff_pick hs' (by simp [hlen])).mpr ⟨?_, hb, ?_⟩
    · intro k
      constructor
      · intro hk
        obtain ⟨i, hi⟩ := List.mem_iff_getElem?.mp hk
        have hil : i < rows.length := by rw [← hlen]; exact (List.getElem?_eq_some_iff.mp hi).1
        obtain ⟨k', hk', e⟩ := mem_rows_of_label hlab' (List.getElem?_eq_getElem hil)
        obtain ⟨j, hj, e'⟩ := h.lab _ (List.getElem_mem hil)
        rw [e, Option.some.injEq] at e'
        rw [hi, Option.some.injEq] at hk'
        omega
      · rintro ⟨hk0, hk1⟩
        have hkl : k.toNat < tmm.length := by omega
        obtain ⟨x, hx, e, -⟩ := h.stop k.toNat _ (List.getElem?_eq_getElem hkl)
        obtain ⟨i, hi⟩ := List.mem_iff_getElem?.mp hx
        obtain ⟨k', hk', e'⟩ := mem_rows_of_label hlab' hi
        rw [e, Option.some.injEq] at e'
        have : k = k' := by omega
        rw [this]; exact List.mem_of_getElem? hk'
    · intro k mm hk
      constructor
      · intro l hl
        obtain ⟨i, hi, hl'⟩ := mem_pick.mp hl
        simp only [List.getElem?_map, Option.map_eq_some_iff] at hl'
        obtain ⟨x, hx, rfl⟩ := hl'
        obtain ⟨k', hk', e'⟩ := mem_rows_of_label hlab' hx
        rw [hi, Option.some.injEq] at hk'
        exact h.range k mm hk x (List.mem_of_getElem? hx) (by rw [e', ← hk']; congr 1; push_cast; omega)
      · obtain ⟨x, hx, e, e2⟩ := h.stop k mm hk
        obtain ⟨i, hi⟩ := List.mem_iff_getElem?.mp hx
        obtain ⟨k', hk', e'⟩ := mem_rows_of_label hlab' hi
        rw [e, Option.some.injEq] at e'
        rw [mem_pick]
        exact ⟨i, by rw [hk']; congr 1; omega, by rw [List.getElem?_map, hi]; simp [e2]⟩

theorem checkRun_strict {A : Argsort K} {r : Run K} (hv : Valid r) (hs : r.logl.Pairwise (· < ·))
    (da dw : Bool) (w : World σ) : checkRun A r da dw w = (.ok (), w) := by
  obtain ⟨labels, tmm, hv⟩ := hv
  obtain ⟨a1, a2, a3, a4, a5, a6, a7⟩ := validWith_iff.mp hv
  unfold checkRun
  rw [M.bind_ok (a := ()) (w' := w) (by rw [checkMembers_ok.mpr ⟨_, _, a1, a2, a3, a4, a5⟩]; rfl),
    M.bind_ok (a := ()) (w' := w) (by rw [checkLogls_apply, if_neg (by simpa using a6), if_pos hs]),
    (checkThreads_iff a1 a2 a4).mpr a7]
  rfl

/-- The loop over the runs. -/
theorem relabelLoop_ok {A : Argsort K} {da dw : Bool} (runs : List (Run K)) (hv : ∀ r ∈ runs, Valid r)
    (hne : ∀ r ∈ runs, r.logl ≠ []) (hs : ∀ r ∈ runs, r.logl.Pairwise (· < ·))
    (hl : ∀ r ∈ runs, r.nlive.getLast? = some 1) (n : Nat) :
    ∃ (runs' : List (Run K)) (arrs : List (List (Row K))),
      (∀ w : World σ, relabelLoop A da dw n runs w = (.ok runs', w)) ∧
      runs'.length = runs.length ∧
      List.Forall₂ (fun t tm => t.tmm = some tm) runs' (runs.map (fun r => r.tmm.getD [])) ∧
      List.Forall₂ (fun t a => arrayGivenRun t = .ok a) runs' arrs ∧
      RowsOK n arrs.flatten (allStarts runs) ∧
      arrs.flatten.map (·.logl) = runs.flatMap (·.logl) ∧
      arrs.flatten.map (·.theta) = runs.flatMap (·.theta) ∧
      arrs.flatten.map (fun r => (r.logl, r.label, r.theta)) =
        (relabelled n runs).map (fun p => (p.1, some p.2.1, p.2.2)) ∧
      ∀ l, ((arrs.flatten.filter (fun x => decide (x.logl < l))).map (·.dn)).sum =
        (runs.map (fun r => liveOf r l)).sum - (runs.map (fun r => r.nlive.headD 0)).sum := by
  induction runs generalizing n with
  | nil =>
    refine ⟨[], [], fun w => rfl, rfl, .nil, .nil, ⟨by simp, by simp [allStarts], by simp [allStarts]⟩,
      rfl, rfl, rfl, by simp⟩
  | cons r rs ih =>
    obtain ⟨runs', arrs, i1, i2, i3, i4, i5, i6, i7, i8, i9⟩ := ih (fun x hx => hv x (by simp [hx]))
      (fun x hx => hne x (by simp [hx])) (fun x hx => hs x (by simp [hx]))
      (fun x hx => hl x (by simp [hx])) (n + (r.tmm.getD []).length)
    have hvr := hv r (by simp)
    obtain ⟨labels, tmm, hvw⟩ := id hvr
    obtain ⟨a1, a2, a3, a4, a5, a6, a7⟩ := validWith_iff.mp hvw
    set r' : Run K := { r with labels := r.labels.map (·.map (· + (n : Int))) } with hr'
    have hr'l : r'.labels = some (labels.map (· + (n : Int))) := by rw [hr', a1]; rfl
    obtain ⟨arr, b1, b2, b3, b4, b5⟩ := arrayGivenRun_ok (r := r') hr'l (by simpa using a4) a3 a5
      (hne r (by simp))
    have b3' : arr.map (·.label) = labels.map (fun k => some (k + (n : Int))) := by
      rw [b3, List.map_map]; rfl
    have htm : r.tmm.getD [] = tmm := by rw [a2]; rfl
    refine ⟨r' :: runs', arr :: arrs, ?_, by simp [i2], ?_, .cons b1 i4, ?_, ?_, ?_, ?_, ?_⟩
    · intro w
      rw [relabelLoop, M.bind_ok (checkRun_strict hvr (hs r (by simp)) da dw w), M.bind_ok (i1 w)]
      rfl
    · refine .cons ?_ i3
      rw [show r'.tmm = some tmm from a2]; exact congrArg some htm.symm
    · rw [List.flatten_cons]
      have : allStarts (r :: rs) = tmm ++ allStarts rs := by simp [allStarts, htm]
      rw [this]
      refine (RowsOK.of_valid hvw b2 b3').append ?_
      rw [htm] at i5; exact i5
    · rw [List.flatten_cons, List.map_append, i6, b2]; rfl
    · rw [List.flatten_cons, List.map_append, i7, b5]; rfl
    · rw [List.flatten_cons, List.map_append, i8, relabelled, List.map_append]
      congr 1
      have e : arr.map (fun r => (r.logl, r.label, r.theta)) =
          (arr.map (·.logl)).zip ((arr.map (·.label)).zip (arr.map (·.theta))) := by
        rw [List.zip_map', List.zip_map']
      rw [e, b2, b3, b5, a1]
      simp only [Option.getD_some, hr']
      rw [List.zip_map_left, List.zip_map_right]
      rfl
    · intro l
      have hpos : 0 < r.nlive.length := by rw [a3]; exact List.length_pos_iff.mpr (hne r (by simp))
      rw [List.flatten_cons, List.filter_append, List.map_append, List.sum_append, i9 l]
      have := sum_dn_run (r := r) (n0 := r.nlive.headD 0) (by rw [b2]) (by rw [b4]) a3 a6
        (by cases hn : r.nlive with
            | nil => rw [hn] at hpos; simp at hpos
            | cons a as => rfl) (hl r (by simp)) l
      rw [this]
      simp only [List.map_cons, List.sum_cons]
      ring

theorem liveOf_self {r : Run K} (hs : r.logl.Pairwise (· < ·)) {i : Nat} {l : K} {n : Int}
    (hi : r.logl[i]? = some l) (hn : r.nlive[i]? = some n) : liveOf r l = n := by
  unfold liveOf
  have : r.logl.countP (fun x => decide (x < l)) = i := by
    have hil := (List.getElem?_eq_some_iff.mp hi).1
    have hr : r.logl[i] = l := (List.getElem?_eq_some_iff.mp hi).2
    conv_lhs => rw [← List.take_append_drop i r.logl, List.countP_append]
    rw [List.countP_eq_length.mpr, List.countP_eq_zero.mpr]
    · simp; omega
    · intro x hx
      rw [List.drop_eq_getElem_cons hil, hr] at hx
      rw [← List.take_append_drop i r.logl, List.pairwise_append, List.drop_eq_getElem_cons hil, hr,
        List.pairwise_cons] at hs
      rcases List.mem_cons.mp hx with rfl | hx
      · simp
      · simpa using le_of_lt (hs.2.1.1 x hx)
    · intro x hx
      rw [← List.take_append_drop i r.logl, List.pairwise_append, List.drop_eq_getElem_cons hil, hr] at hs
      simpa using hs.2.2 x hx l (by simp)
  rw [this, List.getD_eq_getElem?_getD, hn]; rfl

theorem liveOf_low {r : Run K} {l : K} (h : ∀ x ∈ r.logl, l ≤ x) : liveOf r l = r.nlive.headD 0 := by
  unfold liveOf
  rw [List.countP_eq_zero.mpr (by intro x hx; simpa using h x hx)]
  cases r.nlive <;> rfl

theorem liveOf_nonneg {r : Run K} (h : ∀ n ∈ r.nlive, 0 < n) (l : K) : 0 ≤ liveOf r l := by
  unfold liveOf
  rw [List.getD_eq_getElem?_getD]
  cases hn : r.nlive[r.logl.countP (fun x => decide (x < l))]? with
  | none => simp
  | some n => exact le_of_lt (h n (List.mem_of_getElem? hn))

theorem liveOf_high {r : Run K} (hlen : r.nlive.length = r.logl.length) {l : K} (h : ∀ x ∈ r.logl, x < l) :
    liveOf r l = 0 := by
  unfold liveOf
  rw [List.countP_eq_length.mpr (by intro x hx; simpa using h x hx), List.getD_eq_getElem?_getD,
    List.getElem?_eq_none (by omega)]
  rfl

theorem Valid.logl_ne {r : Run K} (h : Valid r) : r.logl ≠ [] := by
  obtain ⟨labels, tmm, hv⟩ := h
  obtain ⟨-, -, -, h2, -, hs, hok⟩ := validWith_iff.mp hv
  obtain ⟨p, hp, -⟩ := hok.init
  obtain ⟨k, hk⟩ := List.mem_iff_getElem?.mp hp
  have := (hok.labels_range k).mpr ⟨by omega, by have := (List.getElem?_eq_some_iff.mp hk).1; omega⟩
  intro hc
  rw [hc] at h2
  rw [List.length_eq_zero_iff.mp h2] at this
  simp at this

theorem Valid.sorted {r : Run K} (h : Valid r) : r.logl.Pairwise (· ≤ ·) := by
  obtain ⟨labels, tmm, hv⟩ := h
  exact (validWith_iff.mp hv).2.2.2.2.2.1

theorem Valid.nlive_len {r : Run K} (h : Valid r) : r.nlive.length = r.logl.length := by
  obtain ⟨labels, tmm, hv⟩ := h
  exact hv.nlive_len

theorem nodup_of_flatMap {α β : Type} {f : α → List β} {xs : List α} (h : (xs.flatMap f).Nodup) {x : α}
    (hx : x ∈ xs) : (f x).Nodup := by
  obtain ⟨a, b, rfl⟩ := List.append_of_mem hx
  rw [List.flatMap_append, List.flatMap_cons] at h
  exact (List.nodup_append.mp (List.nodup_append.mp h).2.1).1

theorem Spec.Combinable.strict {runs : List (Run K)} {m : K} (h : Combinable runs m) {r : Run K}
    (hr : r ∈ runs) : r.logl.Pairwise (· < ·) := by
  have h1 := Valid.sorted (h.valid r hr)
  have h2 : r.logl.Nodup := nodup_of_flatMap h.distinct hr
  rw [List.Nodup] at h2
  exact (List.pairwise_and_iff.mpr ⟨h1, h2⟩).imp (fun h => lt_of_le_of_ne h.1 h.2)

/-- Live counts of several runs at a sample of one of them. -/
theorem Spec.Combinable.sum_pos {runs : List (Run K)} {m : K} (h : Combinable runs m) {l : K}
    (hl : l ∈ runs.flatMap (·.logl)) : 0 < (runs.map (fun r => liveOf r l)).sum := by
  obtain ⟨r, hr, hlr⟩ := List.mem_flatMap.mp hl
  obtain ⟨i, hi⟩ := List.mem_iff_getElem?.mp hlr
  have hlt : i < r.nlive.length := by
    rw [Valid.nlive_len (h.valid r hr)]; exact (List.getElem?_eq_some_iff.mp hi).1
  have h1 : liveOf r l = r.nlive[i] := liveOf_self (h.strict hr) hi (List.getElem?_eq_getElem hlt)
  have h2 := h.pos r hr _ (List.getElem_mem hlt)
  obtain ⟨a, b, rfl⟩ := List.append_of_mem hr
  rw [List.map_append, List.map_cons, List.sum_append, List.sum_cons]
  have ha : 0 ≤ (a.map (fun r => liveOf r l)).sum := by
    apply List.sum_nonneg
    intro x hx
    obtain ⟨y, hy, rfl⟩ := List.mem_map.mp hx
    exact liveOf_nonneg (h.pos y (by simp [hy])) l
  have hb : 0 ≤ (b.map (fun r => liveOf r l)).sum := by
    apply List.sum_nonneg
    intro x hx
    obtain ⟨y, hy, rfl⟩ := List.mem_map.mp hx
    exact liveOf_nonneg (h.pos y (by simp [hy])) l
  omega

theorem nodup_flatMap_disjoint {α β : Type} {f : α → List β} {a b : List α} {x : α}
    (h : ((a ++ x :: b).flatMap f).Nodup) {z : β} (hz : z ∈ f x) {y : α} (hy : y ∈ a ∨ y ∈ b) : z ∉ f y := by
  rw [List.flatMap_append, List.flatMap_cons] at h
  intro hc
  rcases hy with hy | hy
  · exact (List.nodup_append.mp h).2.2 z (List.mem_flatMap.mpr ⟨y, hy, hc⟩) z (by simp [hz]) rfl
  · exact (List.nodup_append.mp (List.nodup_append.mp h).2.1).2.2 z hz z
      (List.mem_flatMap.mpr ⟨y, hy, hc⟩) rfl

theorem Spec.Combinable.sum_last {runs : List (Run K)} {m : K} (h : Combinable runs m) {l : K}
    (hl : l ∈ runs.flatMap (·.logl)) (hmax : ∀ x ∈ runs.flatMap (·.logl), x ≤ l) :
    (runs.map (fun r => liveOf r l)).sum = 1 := by
  obtain ⟨r, hr, hlr⟩ := List.mem_flatMap.mp hl
  have hlast : r.logl.getLast? = some l :=
    getLast?_sorted (Valid.sorted (h.valid r hr)) hlr
      (fun x hx => hmax x (List.mem_flatMap.mpr ⟨r, hr, hx⟩))
  have h1 : liveOf r l = 1 := by
    have hn := h.last r hr
    rw [List.getLast?_eq_getElem?] at hlast hn
    rw [Valid.nlive_len (h.valid r hr)] at hn
    exact liveOf_self (h.strict hr) hlast hn
  obtain ⟨a, b, rfl⟩ := List.append_of_mem hr
  have hz : ∀ y, y ∈ a ∨ y ∈ b → liveOf y l = 0 := by
    intro y hy
    have hym : y ∈ a ++ r :: b := by rcases hy with hy | hy <;> simp [hy]
    apply liveOf_high (Valid.nlive_len (h.valid y hym))
    intro x hx
    refine lt_of_le_of_ne (hmax x (List.mem_flatMap.mpr ⟨y, hym, hx⟩)) ?_
    rintro rfl
    exact nodup_flatMap_disjoint h.distinct hlr hy hx
  rw [List.map_append, List.map_cons, List.sum_append, List.sum_cons, h1, sum_zeros, sum_zeros]
  · rfl
  · intro x hx
    obtain ⟨y, hy, rfl⟩ := List.mem_map.mp hx
    exact hz y (.inr hy)
  · intro x hx
    obtain ⟨y, hy, rfl⟩ := List.mem_map.mp hx
    exact hz y (.inl hy)

theorem sum_first_of {runs : List (Run K)} {m : K} (this : ∀ r ∈ runs, r.nlive[0]? =
    some (((r.tmm.getD []).countP (fun p => decide (p.1 ≤ (m : WithBot K))) : Nat) : Int)) :
    (runs.map (fun r => r.nlive.headD 0)).sum =
      (((allStarts runs).countP (fun p => decide (p.1 ≤ (m : WithBot K))) : Nat) : Int) := by
  induction runs with
  | nil => rfl
  | cons r rs ih =>
    have e : allStarts (r :: rs) = r.tmm.getD [] ++ allStarts rs := rfl
    rw [e, List.countP_append, List.map_cons, List.sum_cons, ih (fun x hx => this x (by simp [hx]))]
    have h1 := this r (by simp)
    rw [Nat.cast_add]
    cases hn : r.nlive with
    | nil => rw [hn] at h1; simp at h1
    | cons a as => rw [hn] at h1; simpa using h1

theorem Spec.Combinable.sum_first {runs : List (Run K)} {m : K} (h : Combinable runs m) :
    (runs.map (fun r => r.nlive.headD 0)).sum =
      (((allStarts runs).countP (fun p => decide (p.1 ≤ (m : WithBot K))) : Nat) : Int) :=
  sum_first_of h.first

/-- Everything about the result of `combine_ns_runs`. -/
theorem combineRuns_ok {A : Argsort K} {da dw : Bool} {runs : List (Run K)} {m : K} (h : Combinable runs m) :
    ∃ (c : Run K) (labels : List Int),
      (∀ w : World σ, combineRuns A runs da dw w = (.ok c, w)) ∧
      ValidWith c labels (allStarts runs) ∧ c.logl.Pairwise (· < ·) ∧
      (c.logl.zip (labels.zip c.theta)).Perm (relabelled 0 runs) ∧
      ∀ (i : Nat) (l : K), c.logl[i]? = some l → c.nlive[i]? = some (runs.map (fun r => liveOf r l)).sum := by
  by_cases h1 : ∃ r, runs = [r]
  · obtain ⟨r, rfl⟩ := h1
    have hr : r ∈ [r] := by simp
    obtain ⟨labels, tmm, hv⟩ := h.valid r hr
    have hta : allStarts [r] = tmm := by simp [allStarts, hv.tmm_eq]
    refine ⟨r, labels, ?_, by rw [hta]; exact hv, h.strict hr, ?_, ?_⟩
    · intro w
      unfold combineRuns
      rw [M.bind_ok (x := stackRuns A [r] da dw) (a := r) (w' := w) rfl, M.bind_ok (checkRun_strict (h.valid r hr) (h.strict hr) da dw w)]
      rfl
    · simp [relabelled, hv.labels_eq]
    · intro i l hi
      have hlt : i < r.nlive.length := by
        rw [Valid.nlive_len (h.valid r hr)]; exact (List.getElem?_eq_some_iff.mp hi).1
      rw [List.getElem?_eq_getElem hlt]
      have := liveOf_self (h.strict hr) hi (List.getElem?_eq_getElem hlt)
      simp [this]
  have hne : runs ≠ [] := by
    rintro rfl; have := h.low_mem; simp at this
  obtain ⟨runs', arrs, i1, i2, i3, i4, i5, i6, i7, i8, i9⟩ := relabelLoop_ok (σ := σ) (A := A) (da := da)
    (dw := dw) runs h.valid (fun r hr => Valid.logl_ne (h.valid r hr)) (fun r hr => h.strict hr) h.last 0
  set S := sortBy A (fun r : Row K => r.logl) arrs.flatten with hS
  have hperm : S.Perm arrs.flatten := sortBy_perm A _ _
  have hnd : (arrs.flatten.map (·.logl)).Nodup := by rw [i6]; exact h.distinct
  have hstrict : S.Pairwise (fun a b => a.logl < b.logl) := sortBy_strict hnd
  have hmemS : ∀ l, l ∈ S.map (·.logl) ↔ l ∈ runs.flatMap (·.logl) := by
    intro l; rw [(hperm.map _).mem_iff, i6]
  have hmin : amin (S.map (·.logl)) = some m :=
    amin_eq_some.mpr ⟨(hmemS m).mpr h.low_mem, fun x hx => h.low x ((hmemS x).mp hx)⟩
  have hsum : ∀ (i : Nat) (r : Row K), S[i]? = some r →
      (((allStarts runs).countP (fun p => decide (p.1 ≤ (m : WithBot K))) : Nat) : Int) +
        ((S.map (·.dn)).take i).sum = (runs.map (fun x => liveOf x r.logl)).sum := by
    intro i r hi
    rw [← List.map_take, take_eq_filter hstrict hi, ((hperm.filter _).map _).sum_eq, i9, h.sum_first]
    ring
  have hdict : ∀ w : World σ, dictGivenRunArray S (allStarts runs) w = (.ok (runOfRows S (liveFrom
      (((allStarts runs).countP (fun p => decide (p.1 ≤ (m : WithBot K))) : Nat) : Int) (S.map (·.dn)))
        (allStarts runs)), w) := by
    intro w
    rw [dict_apply hmin h.onLow rfl, if_pos]
    have hpos : 0 < S.length := by
      rw [List.length_pos_iff]; intro hc; rw [hc] at hmin; simp [amin] at hmin
    constructor
    · intro i hi
      rw [hsum i S[i] (List.getElem?_eq_getElem hi)]
      exact h.sum_pos ((hmemS _).mp (List.mem_map.mpr ⟨_, List.getElem_mem hi, rfl⟩))
    · rw [hsum (S.length - 1) S[S.length - 1] (List.getElem?_eq_getElem (by omega))]
      apply h.sum_last ((hmemS _).mp (List.mem_map.mpr ⟨_, List.getElem_mem _, rfl⟩))
      intro x hx
      rw [← hmemS] at hx
      obtain ⟨y, hy, rfl⟩ := List.mem_map.mp hx
      obtain ⟨j, hj, rfl⟩ := List.mem_iff_getElem.mp hy
      rcases Nat.lt_or_ge j (S.length - 1) with hlt | hge
      · exact le_of_lt (List.pairwise_iff_getElem.mp hstrict j (S.length - 1) hj (by omega) hlt)
      · have : j = S.length - 1 := by omega
        subst this; exact le_rfl
  have hSne : S.map (·.dn) ≠ [] := by
    intro hc
    have : S = [] := by simpa using hc
    rw [this] at hmin; simp [amin] at hmin
  set nl := liveFrom (((allStarts runs).countP (fun p => decide (p.1 ≤ (m : WithBot K))) : Nat) : Int)
    (S.map (·.dn)) with hnl
  have hnlen : nl.length = S.length := by rw [hnl, length_liveFrom hSne, List.length_map]
  obtain ⟨labels, hlab, hvalid⟩ := (i5.perm hperm.symm).valid (hstrict.imp le_of_lt)
    (by
      obtain ⟨r, rs, rfl⟩ := List.exists_cons_of_ne_nil hne
      obtain ⟨labels, tmm, hv⟩ := h.valid r (by simp)
      obtain ⟨p, hp, hb⟩ := hv.init
      exact ⟨p, by simp [allStarts, hv.tmm_eq, hp], hb⟩) hnlen
  have hst : (runOfRows S nl (allStarts runs)).logl.Pairwise (· < ·) := by
    simp only [runOfRows]; rw [List.pairwise_map]; exact hstrict
  refine ⟨runOfRows S nl (allStarts runs), labels, ?_, hvalid, hst, ?_, ?_⟩
  · intro w
    have hmid : stackRuns A runs da dw w = (.ok (runOfRows S nl (allStarts runs)), w) := by
      unfold stackRuns
      split
      · exact absurd ⟨_, rfl⟩ h1
      have hr'ne : runs' ≠ [] := by
        intro hc; rw [hc] at i2; exact hne (List.length_eq_zero_iff.mp i2.symm)
      have ha : arrs ≠ [] := by
        intro hc; rw [hc] at i6; simp at i6
        obtain ⟨r, rs, rfl⟩ := List.exists_cons_of_ne_nil hne
        exact Valid.logl_ne (h.valid r (by simp)) (i6 r (by simp))
      rw [M.bind_ok (i1 w), M.bind_ok (a := allStarts runs) (w' := w) (by
          rw [M.lift_apply, tmmStack_ok hr'ne i3]; simp only [allStarts, List.flatMap_def]),
        M.bind_ok (a := arrs) (w' := w) (by rw [M.lift_apply, arraysGivenRuns_ok i4]),
        M.bind_ok (a := arrs.flatten) (w' := w) (by
          rw [M.lift_apply, vstack_ok ha (by rw [i7]; exact h.dim)])]
      exact hdict w
    unfold combineRuns
    rw [M.bind_ok hmid, M.bind_ok (checkRun_strict ⟨_, _, hvalid⟩ hst da dw w)]
    rfl
  · have e : (S.map (·.logl)).zip (labels.zip (S.map (·.theta))) =
        S.map (fun r => (r.logl, r.label.getD 0, r.theta)) := by
      have : labels = S.map (fun r => r.label.getD 0) := by
        have := congrArg (List.map (fun o : Option Int => o.getD 0)) hlab
        rw [List.map_map, List.map_map] at this
        rw [show ((fun o : Option Int => o.getD 0) ∘ some) = id from rfl, List.map_id] at this
        exact this.symm
      rw [this, List.zip_map', List.zip_map']
    simp only [runOfRows]
    rw [e]
    refine (hperm.map _).trans ?_
    have := congrArg (List.map (fun p : K × Option Int × List K => (p.1, p.2.1.getD 0, p.2.2))) i8
    rw [List.map_map, List.map_map] at this
    have e2 : arrs.flatten.map (fun r => (r.logl, r.label.getD 0, r.theta)) = relabelled 0 runs := by
      refine this.trans ?_
      exact List.map_id _
    rw [e2]
  · intro i l hi
    simp only [runOfRows, List.getElem?_map, Option.map_eq_some_iff] at hi ⊢
    obtain ⟨r, hr, rfl⟩ := hi
    rw [hnl, getElem?_liveFrom (by simpa using (List.getElem?_eq_some_iff.mp hr).1), hsum i r hr]

end Nestcheck
