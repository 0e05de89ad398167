import Verif.Proofs.RunArray
import Verif.Spec.Threads

/-! get_run_threads. -/

set_option linter.unusedSectionVars false

namespace Nestcheck
open Spec
variable {σ K : Type} [CommRing K] [LinearOrder K]

theorem mem_pick {α : Type} {labels : List Int} {k : Int} {xs : List α} {x : α} :
    x ∈ pick labels k xs ↔ ∃ i : Nat, labels[i]? = some k ∧ xs[i]? = some x := by
  unfold pick
  simp only [List.mem_map, List.mem_filter, decide_eq_true_eq]
  constructor
  · rintro ⟨⟨a, b⟩, ⟨hm, rfl⟩, rfl⟩
    obtain ⟨i, hi⟩ := List.mem_iff_getElem?.mp hm
    rw [List.getElem?_zip_eq_some] at hi
    exact ⟨i, hi⟩
  · rintro ⟨i, h1, h2⟩
    exact ⟨(k, x), ⟨List.mem_iff_getElem?.mpr
      ⟨i, by rw [List.getElem?_zip_eq_some]; exact ⟨h1, h2⟩⟩, rfl⟩, rfl⟩

theorem length_pick {α : Type} {labels : List Int} {k : Int} {xs : List α}
    (h : labels.length = xs.length) : (pick labels k xs).length = labels.count k := by
  unfold pick
  rw [List.length_map, ← List.countP_eq_length_filter, List.count]
  have : labels = (labels.zip xs).map (·.1) := by rw [List.map_fst_zip (by omega)]
  conv_rhs => rw [this, List.countP_map]
  apply List.countP_congr
  intro p _
  simp

theorem pick_sublist {α : Type} {labels : List Int} {k : Int} {xs : List α} :
    (pick labels k xs).Sublist xs := by
  unfold pick
  refine ((List.filter_sublist).map _).trans ?_
  induction labels generalizing xs with
  | nil => simp
  | cons l ls ih => cases xs with
    | nil => simp
    | cons x xs => simpa using ih

theorem pick_map {α β : Type} (f : α → β) (labels : List Int) (k : Int) (xs : List α) :
    pick labels k (xs.map f) = (pick labels k xs).map f := by
  unfold pick
  rw [List.zip_map_right, List.filter_map, List.map_map, List.map_map]
  rfl

theorem pick_zip {α β : Type} {labels : List Int} {k : Int} {xs : List α} {ys : List β}
    (h1 : labels.length = xs.length) (h2 : labels.length = ys.length) :
    pick labels k (xs.zip ys) = (pick labels k xs).zip (pick labels k ys) := by
  induction labels generalizing xs ys with
  | nil => simp [pick]
  | cons l ls ih =>
    cases xs with
    | nil => simp at h1
    | cons x xs =>
      cases ys with
      | nil => simp at h2
      | cons y ys =>
        have := ih (xs := xs) (ys := ys) (by simpa using h1) (by simpa using h2)
        unfold pick at this ⊢
        by_cases hl : l = k <;> simp [hl, this]

theorem filter_label_map {α : Type} {rows : List (Row K)} {labels : List Int}
    (h : rows.map (·.label) = labels.map some) (k : Int) (f : Row K → α) :
    (rows.filter (fun r => decide (r.label = some k))).map f = pick labels k (rows.map f) := by
  induction rows generalizing labels with
  | nil => simp [pick]
  | cons r rows ih =>
    cases labels with
    | nil => simp at h
    | cons l labels =>
      simp only [List.map_cons, List.cons.injEq] at h
      have := ih h.2
      unfold pick at this ⊢
      by_cases hk : l = k
      · simp [h.1, hk, this]
      · simp [h.1, hk, this]

theorem threadsOK_iff_pick {logl : List K} {labels : List Int} {tmm : List (WithBot K × K)}
    (hs : logl.Pairwise (· ≤ ·)) (hlen : labels.length = logl.length) :
    ThreadsOK logl labels tmm ↔ (∀ k : Int, k ∈ labels ↔ 0 ≤ k ∧ k < tmm.length) ∧
      (∃ p ∈ tmm, p.1 = ⊥) ∧
      ∀ (k : Nat) (mm : WithBot K × K), tmm[k]? = some mm →
        (∀ l ∈ pick labels k logl, mm.1 ≤ (l : WithBot K) ∧ l ≤ mm.2) ∧ mm.2 ∈ pick labels k logl := by
  have hle : ∀ (i j : Nat) (x y : K), i ≤ j → logl[i]? = some x → logl[j]? = some y → x ≤ y := by
    intro i j x y hij hx hy
    rcases Nat.lt_or_eq_of_le hij with h | rfl
    · exact pairwise_iff_getElem?.mp hs i j x y h hx hy
    · rw [hx] at hy; cases hy; exact le_rfl
  have hget : ∀ (i : Nat) (k : Int), labels[i]? = some k → ∃ l, logl[i]? = some l := by
    intro i k hi
    have : i < logl.length := by rw [← hlen]; exact (List.getElem?_eq_some_iff.mp hi).1
    exact ⟨_, List.getElem?_eq_getElem this⟩
  constructor
  · rintro ⟨h1, h2, h3, h4⟩
    refine ⟨h1, h2, ?_⟩
    intro k mm hmm
    have hkt : k < tmm.length := (List.getElem?_eq_some_iff.mp hmm).1
    have hk : (k : Int) ∈ labels := (h1 k).mpr ⟨by omega, by omega⟩
    obtain ⟨f, hf⟩ := exists_firstOf hk
    obtain ⟨e, he⟩ := exists_lastOf hk
    obtain ⟨lf, hlf⟩ := hget f _ hf.1
    obtain ⟨le, hle'⟩ := hget e _ he.1
    have e1 := h4 k mm e le hmm he hle'
    refine ⟨?_, mem_pick.mpr ⟨e, he.1, by rw [e1]; exact hle'⟩⟩
    intro l hl
    obtain ⟨i, hi, hil⟩ := mem_pick.mp hl
    constructor
    · refine le_trans (h3 k mm f lf hmm hf hlf) (WithBot.coe_le_coe.mpr ?_)
      refine hle f i lf l ?_ hlf hil
      by_contra hc
      exact hf.2 i (by omega) hi
    · rw [e1]
      refine hle i e l le ?_ hil hle'
      by_contra hc
      exact he.2 i (by omega) hi
  · rintro ⟨h1, h2, h3⟩
    refine ⟨h1, h2, ?_, ?_⟩
    · intro k mm i l hmm hf hl
      exact ((h3 k mm hmm).1 l (mem_pick.mpr ⟨i, hf.1, hl⟩)).1
    · intro k mm i l hmm hf hl
      obtain ⟨h4, h5⟩ := h3 k mm hmm
      obtain ⟨j, hj, hjl⟩ := mem_pick.mp h5
      refine le_antisymm (hle j i _ _ ?_ hjl hl) (h4 l (mem_pick.mpr ⟨i, hf.1, hl⟩)).2
      by_contra hc
      exact hf.2 j (by omega) hj

/-! ### one thread -/

theorem threadDn_map (rows : List (Row K)) :
    (threadDn rows).map (·.logl) = rows.map (·.logl) ∧
    (threadDn rows).map (·.label) = rows.map (·.label) ∧
    (threadDn rows).map (·.theta) = rows.map (·.theta) ∧
    (rows ≠ [] → (threadDn rows).map (·.dn) = List.replicate (rows.length - 1) 0 ++ [-1]) := by
  fun_induction threadDn rows with
  | case1 => simp
  | case2 r => simp
  | case3 r rs h ih =>
    obtain ⟨h1, h2, h3, h4⟩ := ih
    have hne : rs ≠ [] := by rintro rfl; exact h rfl
    have hpos : 0 < rs.length := List.length_pos_iff.mpr hne
    refine ⟨by simp [h1], by simp [h2], by simp [h3], fun _ => ?_⟩
    rw [List.map_cons, h4 hne, List.length_cons, ← List.cons_append, ← List.replicate_succ]
    congr 2
    omega

theorem sum_take_zeros {n i : Nat} (h : i ≤ n) :
    ((List.replicate n (0 : Int) ++ [-1]).take i).sum = 0 := by
  rw [List.take_append_of_le_length (by simpa using h), List.take_replicate]
  simp

theorem getLast?_sorted {xs : List K} (hs : xs.Pairwise (· ≤ ·)) {m : K} (hm : m ∈ xs)
    (hle : ∀ x ∈ xs, x ≤ m) : xs.getLast? = some m := by
  obtain ⟨ys, y, rfl⟩ := List.eq_nil_or_concat xs |>.resolve_left (by rintro rfl; simp at hm)
  simp only [List.concat_eq_append, List.getLast?_append, List.getLast?_singleton] at *
  have h1 : y ≤ m := hle y (by simp)
  have h2 : m ≤ y := by
    rcases List.mem_append.mp hm with h | h
    · exact (List.pairwise_append.mp hs).2.2 m h y (by simp)
    · simp at h; exact h.le
  rw [le_antisymm h1 h2]; rfl

/-- The thread with label `k`, start and end `mm`. -/
def threadRun (logl : List K) (theta : List (List K)) (k : Int) (mm : WithBot K × K) : Run K :=
  { logl := logl, nlive := List.replicate logl.length 1, theta := theta,
    labels := some (List.replicate logl.length k), tmm := some [mm] }

theorem getThread_ok {rows : List (Row K)} {labels : List Int} {tmm : List (WithBot K × K)}
    {i : Nat} {k : Int} {mm : WithBot K × K} (hlab : rows.map (·.label) = labels.map some)
    (hs : (rows.map (·.logl)).Pairwise (· ≤ ·)) (hmm : tmm[i]? = some mm)
    (h1 : ∀ l : K, l ∈ pick labels k (rows.map (·.logl)) → mm.1 ≤ (l : WithBot K) ∧ l ≤ mm.2)
    (h2 : mm.2 ∈ pick labels k (rows.map (·.logl))) (w : World σ) :
    getThread rows tmm i k w = (.ok (threadRun (pick labels k (rows.map (·.logl)))
      (pick labels k (rows.map (·.theta))) k mm), w) := by
  set arr0 := rows.filter (fun r => decide (r.label = some k)) with harr0
  have eL : arr0.map (·.logl) = pick labels k (rows.map (·.logl)) := filter_label_map hlab k _
  have eT : arr0.map (·.theta) = pick labels k (rows.map (·.theta)) := filter_label_map hlab k _
  rw [← eL] at h1 h2 ⊢
  rw [← eT]
  have hne : arr0 ≠ [] := by rintro h; rw [h] at h2; simp at h2
  obtain ⟨d1, d2, d3, d4⟩ := threadDn_map arr0
  have d4 := d4 hne
  have hsort : (arr0.map (·.logl)).Pairwise (· ≤ ·) := hs.sublist (List.filter_sublist.map _)
  have hlast := getLast?_sorted hsort h2 (fun x hx => (h1 x hx).2)
  have hlen : (threadDn arr0).length = arr0.length := by
    have := congrArg List.length d1; simpa using this
  have hpos : 0 < arr0.length := List.length_pos_iff.mpr hne
  have hlabs : arr0.map (·.label) = (List.replicate arr0.length k).map some := by
    rw [List.map_replicate, List.eq_replicate_iff]
    refine ⟨by simp, ?_⟩
    intro b hb
    obtain ⟨r, hr, rfl⟩ := List.mem_map.mp hb
    rw [harr0, List.mem_filter] at hr
    simpa using hr.2
  unfold getThread
  rw [← harr0, hmm]
  cases hgl : (threadDn arr0).getLast? with
  | none =>
    rw [List.getLast?_eq_none_iff] at hgl
    rw [hgl] at hlen; simp at hlen; omega
  | some last =>
    have hll : last.logl = mm.2 := by
      rw [← d1, List.getLast?_map, hgl] at hlast
      simpa using hlast
    simp only
    rw [M.bind_ok (a := ()) (w' := w) (by rw [M.assert_apply]; simp [hll])]
    obtain ⟨x, xs, hx⟩ := List.exists_cons_of_ne_nil (l := arr0.map (·.logl)) (by simpa using hne)
    have hmin : amin ((threadDn arr0).map (·.logl)) = some x := by
      rw [d1, hx]; exact amin_sorted (by rw [← hx]; exact hsort)
    have hxs : mm.1 ≤ (x : WithBot K) := (h1 x (by rw [hx]; simp)).1
    rw [dict_apply hmin (n0 := 1) (by
        refine le_trans List.countP_le_length ?_; simp) (by
        rw [List.countP_cons_of_pos (by simpa using hxs)]; simp), if_pos]
    · congr 2
      unfold runOfRows threadRun
      rw [d1, d2, d3, hlabs, allSome_map_some, List.length_map]
      congr 1
      apply List.ext_getElem?
      intro j
      by_cases hj : j < arr0.length
      · rw [getElem?_liveFrom (by simpa [hlen] using hj), d4, sum_take_zeros (by omega),
          List.getElem?_replicate, if_pos hj]; simp
      · rw [List.getElem?_eq_none, List.getElem?_eq_none]
        · simp; omega
        · rw [length_liveFrom (by rw [d4]; simp)]; simp [hlen]; omega
    · constructor
      · intro j hj
        rw [d4, sum_take_zeros (by omega)]; simp
      · rw [d4, hlen, sum_take_zeros (by omega)]; simp

theorem getThreadsLoop_ok {rows : List (Row K)} {tmm : List (WithBot K × K)} {f : Nat → Run K}
    (hf : ∀ (i : Nat) (w : World σ), i < tmm.length → getThread rows tmm i (Int.ofNat i) w = (.ok (f i), w))
    (n i : Nat) (h : i + n = tmm.length) (w : World σ) :
    getThreadsLoop rows tmm i ((List.range' i n).map Int.ofNat) w =
      (.ok ((List.range' i n).map f), w) := by
  induction n generalizing i with
  | zero => rfl
  | succ n ih =>
    simp only [List.range'_succ, List.map_cons, getThreadsLoop]
    rw [M.bind_ok (a := f i) (w' := w) (hf i w (by omega)), M.bind_ok (ih (i + 1) (by omega))]
    rfl

/-- `get_run_threads` on a run of the documented format. -/
theorem getRunThreads_ok {r : Run K} {labels : List Int} {tmm : List (WithBot K × K)}
    (h : ValidWith r labels tmm) (w : World σ) :
    getRunThreads r w = (.ok ((List.range tmm.length).map (fun k : Nat =>
      threadRun (pick labels k r.logl) (pick labels k r.theta) k (tmm.getD k (⊥, 0)))), w) := by
  obtain ⟨hl, ht, h1, h2, h3, hs, hok⟩ := validWith_iff.mp h
  have hne : r.logl ≠ [] := by
    intro h0
    obtain ⟨p, hp, -⟩ := h.init
    have hpos := List.length_pos_of_mem hp
    have := (h.labels_range 0).mpr ⟨by omega, by omega⟩
    have := List.length_pos_of_mem this
    rw [h2, h0] at this; simp at this
  obtain ⟨rows, ha, e1, e2, e3, e4⟩ := arrayGivenRun_ok hl h2 h1 h3 hne
  obtain ⟨r1, r2, r3⟩ := (threadsOK_iff_pick hs h2).mp hok
  have hu : unique labels = (List.range tmm.length).map Int.ofNat := unique_eq_intRange.mpr r1
  unfold getRunThreads
  rw [M.bind_ok (a := rows) (w' := w) (by rw [M.lift_apply, ha])]
  simp only [hl, ht]
  rw [M.bind_ok (a := ()) (w' := w) (by rw [M.assert_apply]; simp [hu]), hu, List.range_eq_range']
  refine getThreadsLoop_ok (fun i w hi => ?_) _ 0 (by omega) w
  have hmm : tmm[i]? = some tmm[i] := List.getElem?_eq_getElem hi
  have := getThread_ok (σ := σ) (k := i) e2 (by rw [e1]; exact hs) hmm
    (by rw [e1]; exact (r3 i _ hmm).1) (by rw [e1]; exact (r3 i _ hmm).2) w
  rw [e1, e4] at this
  rw [List.getD_eq_getElem?_getD, hmm]
  exact this

/-- The threads together have the samples of the run. -/
theorem pick_perm {α : Type} {labels : List Int} {n : Nat} {xs : List α}
    (hr : ∀ k ∈ labels, 0 ≤ k ∧ k < (n : Int)) (hl : labels.length = xs.length) :
    ((List.range n).flatMap (fun k : Nat => pick labels (k : Int) xs)).Perm xs := by
  induction labels generalizing xs with
  | nil => cases xs with
    | nil => simp [pick]
    | cons _ _ => simp at hl
  | cons l labels ih =>
    cases xs with
    | nil => simp at hl
    | cons x xs =>
      have ih := ih (xs := xs) (fun k hk => hr k (by simp [hk])) (by simpa using hl)
      obtain ⟨h0, h1⟩ := hr l (by simp)
      obtain ⟨m, rfl⟩ := Int.eq_ofNat_of_zero_le h0
      have hm : m < n := by omega
      have hsplit : List.range n = List.range m ++ m :: (List.range' (m + 1) (n - m - 1)) := by
        rw [List.range_eq_range', List.range_eq_range',
          show n = m + (1 + (n - m - 1)) by omega, List.range'_append_1.symm,
          ← List.range'_append_1 (s := 0 + m)]
        simp
      have hsame : ∀ k : Nat, k ≠ m → pick ((m : Int) :: labels) (k : Int) (x :: xs)
          = pick labels (k : Int) xs := by
        intro k hk
        unfold pick
        rw [List.zip_cons_cons, List.filter_cons_of_neg (by simp; omega)]
      have hm' : pick ((m : Int) :: labels) (m : Int) (x :: xs) = x :: pick labels (m : Int) xs := by
        unfold pick; simp
      rw [hsplit] at ih ⊢
      simp only [List.flatMap_append, List.flatMap_cons] at ih ⊢
      have e1 : (List.range m).flatMap (fun k : Nat => pick ((m : Int) :: labels) (k : Int) (x :: xs)) =
          (List.range m).flatMap (fun k : Nat => pick labels (k : Int) xs) := by
        apply List.flatMap_congr
        intro k hk; exact hsame k (by have := List.mem_range.mp hk; omega)
      have e2 : (List.range' (m + 1) (n - m - 1)).flatMap
            (fun k : Nat => pick ((m : Int) :: labels) (k : Int) (x :: xs)) =
          (List.range' (m + 1) (n - m - 1)).flatMap (fun k : Nat => pick labels (k : Int) xs) := by
        apply List.flatMap_congr
        intro k hk; exact hsame k (by have := (List.mem_range'_1.mp hk).1; omega)
      rw [e1, e2, hm', List.cons_append]
      exact List.perm_middle.trans (ih.cons x)

end Nestcheck
