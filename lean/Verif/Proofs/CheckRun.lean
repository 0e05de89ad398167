import Verif.Proofs.Basic
import Verif.Spec.Run

set_option linter.unusedSectionVars false

namespace Nestcheck
open Spec
variable {K σ : Type} [CommRing K] [LinearOrder K]

theorem pairwise_iff_getElem? {α : Type} {R : α → α → Prop} {l : List α} :
    l.Pairwise R ↔ ∀ (i j : Nat) (x y : α), i < j → l[i]? = some x → l[j]? = some y → R x y := by
  rw [List.pairwise_iff_getElem]
  constructor
  · intro h i j x y hij hx hy
    obtain ⟨hi, rfl⟩ := List.getElem?_eq_some_iff.mp hx
    obtain ⟨hj, rfl⟩ := List.getElem?_eq_some_iff.mp hy
    exact h i j hi hj hij
  · intro h i j hi hj hij
    exact h i j _ _ hij (List.getElem?_eq_getElem hi) (List.getElem?_eq_getElem hj)

theorem whereIdx_head_iff {labels : List Int} {k : Int} {i : Nat} :
    (whereIdx (fun x => decide (x = k)) labels).head? = some i ↔ FirstOf labels k i := by
  constructor
  · intro h
    obtain ⟨l, hl⟩ := List.head?_eq_some_iff.mp h
    refine ⟨mem_whereIdx_eq.mp (by rw [hl]; simp), ?_⟩
    intro j hj hc
    have := whereIdx_head_le hl (mem_whereIdx_eq.mpr hc)
    omega
  · rintro ⟨h1, h2⟩
    have hm := mem_whereIdx_eq.mpr h1
    cases hw : whereIdx (fun x => decide (x = k)) labels with
    | nil => rw [hw] at hm; simp at hm
    | cons a l =>
      have := whereIdx_head_le hw hm
      have ha : labels[a]? = some k := mem_whereIdx_eq.mp (by rw [hw]; simp)
      have : ¬ a < i := fun h => h2 a h ha
      simp; omega

theorem whereIdx_last_iff {labels : List Int} {k : Int} {i : Nat} :
    (whereIdx (fun x => decide (x = k)) labels).getLast? = some i ↔ LastOf labels k i := by
  constructor
  · intro h
    refine ⟨mem_whereIdx_eq.mp (List.mem_of_getLast? h), ?_⟩
    intro j hj hc
    have := pairwise_lt_le_getLast whereIdx_pairwise h (mem_whereIdx_eq.mpr hc)
    omega
  · rintro ⟨h1, h2⟩
    have hm := mem_whereIdx_eq.mpr h1
    cases hw : (whereIdx (fun x => decide (x = k)) labels).getLast? with
    | none => rw [List.getLast?_eq_none_iff] at hw; rw [hw] at hm; simp at hm
    | some a =>
      have := pairwise_lt_le_getLast whereIdx_pairwise hw hm
      have ha : labels[a]? = some k := mem_whereIdx_eq.mp (List.mem_of_getLast? hw)
      have : ¬ a > i := fun h => h2 a h ha
      simp; omega

theorem exists_firstOf {labels : List Int} {k : Int} (h : k ∈ labels) : ∃ i, FirstOf labels k i := by
  obtain ⟨j, hj⟩ := List.mem_iff_getElem?.mp h
  have hm := mem_whereIdx_eq.mpr hj
  cases hw : (whereIdx (fun x => decide (x = k)) labels).head? with
  | none => rw [List.head?_eq_none_iff] at hw; rw [hw] at hm; simp at hm
  | some i => exact ⟨i, whereIdx_head_iff.mp hw⟩

theorem exists_lastOf {labels : List Int} {k : Int} (h : k ∈ labels) : ∃ i, LastOf labels k i := by
  obtain ⟨j, hj⟩ := List.mem_iff_getElem?.mp h
  have hm := mem_whereIdx_eq.mpr hj
  cases hw : (whereIdx (fun x => decide (x = k)) labels).getLast? with
  | none => rw [List.getLast?_eq_none_iff] at hw; rw [hw] at hm; simp at hm
  | some i => exact ⟨i, whereIdx_last_iff.mp hw⟩

theorem firstOf_unique {labels : List Int} {k : Int} {i j : Nat} (h1 : FirstOf labels k i)
    (h2 : FirstOf labels k j) : i = j := by
  rw [← whereIdx_head_iff] at h1 h2
  simpa [h1] using h2

theorem lastOf_unique {labels : List Int} {k : Int} {i j : Nat} (h1 : LastOf labels k i)
    (h2 : LastOf labels k j) : i = j := by
  rw [← whereIdx_last_iff] at h1 h2
  simpa [h1] using h2

/-- What a successful check of one thread establishes. -/
theorem checkThread_spec {logl : List K} {labels : List Int} {tmm : List (WithBot K × K)} {k : Nat}
    {mm : WithBot K × K} (hlen : labels.length = logl.length) (hk : (k : Int) ∈ labels)
    (hmm : tmm[k]? = some mm) :
    ∃ i j x y, FirstOf labels k i ∧ LastOf labels k j ∧ logl[i]? = some x ∧ logl[j]? = some y ∧
      checkThread logl labels tmm k =
        if mm.1 ≤ (x : WithBot K) ∧ mm.2 = y then .ok () else .error .assertion := by
  obtain ⟨i, hi⟩ := exists_firstOf hk
  obtain ⟨j, hj⟩ := exists_lastOf hk
  have hi' : i < logl.length := by rw [← hlen]; exact (List.getElem?_eq_some_iff.mp hi.1).1
  have hj' : j < logl.length := by rw [← hlen]; exact (List.getElem?_eq_some_iff.mp hj.1).1
  refine ⟨i, j, _, _, hi, hj, List.getElem?_eq_getElem hi', List.getElem?_eq_getElem hj', ?_⟩
  unfold checkThread
  simp only [whereIdx_head_iff.mpr hi, whereIdx_last_iff.mpr hj, Option.bind_some,
    List.getElem?_eq_getElem hi', List.getElem?_eq_getElem hj', Int.toNat_natCast, hmm]
  by_cases h1 : mm.1 ≤ (logl[i] : WithBot K) <;> by_cases h2 : mm.2 = logl[j] <;> simp [h1, h2]

theorem checkThreadLoop_ok {logl : List K} {labels : List Int} {tmm : List (WithBot K × K)}
    {labs : List Int} :
    checkThreadLoop logl labels tmm labs = .ok () ↔
      ∀ lab ∈ labs, checkThread logl labels tmm lab = .ok () := by
  induction labs with
  | nil => simp [checkThreadLoop]
  | cons a as ih =>
    simp only [checkThreadLoop, List.forall_mem_cons, ← ih]
    cases checkThread logl labels tmm a <;> simp [bind, Except.bind]

theorem checkThreadLoop_error {logl : List K} {labels : List Int} {tmm : List (WithBot K × K)}
    {labs : List Int} {e : PyErr} (h : checkThreadLoop logl labels tmm labs = .error e) :
    ∃ lab ∈ labs, checkThread logl labels tmm lab = .error e := by
  induction labs with
  | nil => simp [checkThreadLoop] at h
  | cons a as ih =>
    simp only [checkThreadLoop] at h
    cases hc : checkThread logl labels tmm a with
    | error e' =>
      rw [hc] at h; simp [bind, Except.bind] at h
      exact ⟨a, by simp, by rw [hc, h]⟩
    | ok u =>
      rw [hc] at h; simp only [bind, Except.bind] at h
      obtain ⟨l, hl, hl'⟩ := ih h
      exact ⟨l, by simp [hl], hl'⟩

theorem range_checkThread {labels : List Int} {tmm : List (WithBot K × K)}
    (hr : ∀ k : Int, k ∈ labels ↔ 0 ≤ k ∧ k < tmm.length) {lab : Int} (hl : lab ∈ labels) :
    ∃ (k : Nat) (mm : WithBot K × K), lab = k ∧ tmm[k]? = some mm := by
  have h := (hr lab).mp hl
  refine ⟨lab.toNat, tmm[lab.toNat]'(by omega), by omega, ?_⟩
  rw [List.getElem?_eq_getElem]

/-- The thread part of the documented format. -/
structure ThreadsOK (logl : List K) (labels : List Int) (tmm : List (WithBot K × K)) : Prop where
  labels_range : ∀ k : Int, k ∈ labels ↔ 0 ≤ k ∧ k < tmm.length
  init : ∃ p ∈ tmm, p.1 = ⊥
  start_le : ∀ (k : Nat) (mm : WithBot K × K) (i : Nat) (l : K), tmm[k]? = some mm → FirstOf labels k i → logl[i]? = some l →
    mm.1 ≤ (l : WithBot K)
  end_eq : ∀ (k : Nat) (mm : WithBot K × K) (i : Nat) (l : K), tmm[k]? = some mm → LastOf labels k i → logl[i]? = some l →
    mm.2 = l

theorem checkThreads_iff {r : Run K} {labels : List Int} {tmm : List (WithBot K × K)}
    (hl : r.labels = some labels) (ht : r.tmm = some tmm) (hlen : labels.length = r.logl.length) :
    checkThreads r = .ok () ↔ ThreadsOK r.logl labels tmm := by
  unfold checkThreads
  simp only [hl, ht]
  by_cases h1 : unique labels = (List.range tmm.length).map Int.ofNat
  swap
  · simp only [ne_eq, h1, not_false_eq_true, if_true, reduceCtorEq, false_iff]
    intro h; exact h1 (unique_eq_intRange.mpr h.labels_range)
  have hr := unique_eq_intRange.mp h1
  by_cases h2 : ∃ p ∈ tmm, p.1 = ⊥
  swap
  · have : ¬ (tmm.any fun p => decide (p.1 = ⊥)) = true := by
      simpa using h2
    simp only [h1, ne_eq, not_true_eq_false, if_false, this, not_false_eq_true, if_true,
      reduceCtorEq, false_iff]
    intro h; exact h2 h.init
  have h2' : (tmm.any fun p => decide (p.1 = ⊥)) = true := by simpa using h2
  rw [if_neg (by simpa using h1), if_neg (by simpa using h2'), checkThreadLoop_ok]
  constructor
  · intro h
    refine ⟨hr, h2, ?_, ?_⟩
    · intro k mm i l hmm hi hil
      have hk : (k : Int) ∈ labels := List.mem_iff_getElem?.mpr ⟨i, hi.1⟩
      obtain ⟨i', j', x, y, hi', hj', hx, hy, hc⟩ := checkThread_spec hlen hk hmm
      rw [h _ (mem_unique.mpr hk)] at hc
      split_ifs at hc with hcond
      obtain rfl := firstOf_unique hi hi'
      rw [hil] at hx; cases hx; exact hcond.1
    · intro k mm i l hmm hi hil
      have hk : (k : Int) ∈ labels := List.mem_iff_getElem?.mpr ⟨i, hi.1⟩
      obtain ⟨i', j', x, y, hi', hj', hx, hy, hc⟩ := checkThread_spec hlen hk hmm
      rw [h _ (mem_unique.mpr hk)] at hc
      split_ifs at hc with hcond
      obtain rfl := lastOf_unique hi hj'
      rw [hil] at hy; cases hy; exact hcond.2
  · intro h lab hlab
    have hlab := mem_unique.mp hlab
    obtain ⟨k, mm, rfl, hmm⟩ := range_checkThread hr hlab
    obtain ⟨i', j', x, y, hi', hj', hx, hy, hc⟩ := checkThread_spec hlen hlab hmm
    rw [hc, if_pos ⟨h.start_le k mm i' x hmm hi' hx, h.end_eq k mm j' y hmm hj' hy⟩]

theorem checkThreads_error {r : Run K} {labels : List Int} {tmm : List (WithBot K × K)}
    (hl : r.labels = some labels) (ht : r.tmm = some tmm) (hlen : labels.length = r.logl.length)
    {e : PyErr} (h : checkThreads r = .error e) : e = .assertion := by
  unfold checkThreads at h
  simp only [hl, ht] at h
  split_ifs at h with h1 h2
  · simpa using h.symm
  · obtain ⟨lab, hlab, hc⟩ := checkThreadLoop_error h
    have hr := unique_eq_intRange.mp (not_not.mp h1)
    have hlab := mem_unique.mp hlab
    obtain ⟨k, mm, rfl, hmm⟩ := range_checkThread hr hlab
    obtain ⟨i', j', x, y, hi', hj', hx, hy, hc'⟩ := checkThread_spec hlen hlab hmm
    rw [hc] at hc'
    split_ifs at hc' with hcond
    simpa using hc'
  · simpa using h.symm

theorem checkLogls_apply (A : Argsort K) (logl : List K) (da dw : Bool) (w : World σ) :
    checkLogls A logl da dw w =
      if ¬ logl.Pairwise (· ≤ ·) then (.error .assertion, w)
      else if logl.Pairwise (· < ·) then (.ok (), w)
      else if da then (.error .assertion, w)
      else if dw then (.ok (), { w with warns := w.warns ++ [.dupLogl] })
      else (.ok (), w) := by
  unfold checkLogls
  rw [M.bind_apply, M.assert_apply]
  by_cases h : logl.Pairwise (· ≤ ·)
  · have h' : decide (logl = sortBy A id logl) = true := by
      rw [decide_eq_true_iff]; exact (sortBy_id_eq_iff A).mpr h
    rw [h']
    simp only [h, not_true_eq_false, if_false, if_true]
    have hu := unique_length_eq_iff h
    by_cases hs : logl.Pairwise (· < ·)
    · have := hu.mpr hs
      cases da <;> cases dw <;> simp [hs, this]
    · have : ¬ (logl.length - (unique logl).length = 0) := fun hh => hs (hu.mp hh)
      cases da <;> cases dw <;> simp [hs, this]
  · have h' : decide (logl = sortBy A id logl) = false := by
      rw [decide_eq_false_iff_not]; exact fun hh => h ((sortBy_id_eq_iff A).mp hh)
    rw [h']
    simp [h]

theorem checkMembers_ok {r : Run K} :
    checkMembers r = .ok () ↔ ∃ labels tmm, r.labels = some labels ∧ r.tmm = some tmm ∧
      r.nlive.length = r.logl.length ∧ labels.length = r.logl.length ∧
      r.theta.length = r.logl.length := by
  unfold checkMembers
  rcases r.labels with _ | labels <;> rcases r.tmm with _ | tmm <;> simp
  constructor
  · intro h
    split_ifs at h with h1 h2 h3
    exact ⟨h1.symm, h2.symm, h3.symm⟩
  · rintro ⟨h1, h2, h3⟩
    simp [h1, h2, h3]

theorem checkMembers_error {r : Run K} {e : PyErr} (h : checkMembers r = .error e) :
    e = .assertion := by
  unfold checkMembers at h
  split at h
  · split_ifs at h <;> simpa using h.symm
  · simpa using h.symm

theorem validWith_iff {r : Run K} {labels : List Int} {tmm : List (WithBot K × K)} :
    ValidWith r labels tmm ↔ r.labels = some labels ∧ r.tmm = some tmm ∧
      r.nlive.length = r.logl.length ∧ labels.length = r.logl.length ∧
      r.theta.length = r.logl.length ∧ r.logl.Pairwise (· ≤ ·) ∧ ThreadsOK r.logl labels tmm := by
  constructor
  · rintro ⟨h1, h2, h3, h4, h5, h6, h7, h8, h9, h10⟩
    exact ⟨h1, h2, h3, h4, h5, pairwise_iff_getElem?.mpr h6, ⟨h7, h8, h9, h10⟩⟩
  · rintro ⟨h1, h2, h3, h4, h5, h6, ⟨h7, h8, h9, h10⟩⟩
    exact ⟨h1, h2, h3, h4, h5, pairwise_iff_getElem?.mp h6, h7, h8, h9, h10⟩

/-- Complete description of `check_ns_run`: result and effects. -/
theorem checkRun_ok_iff (A : Argsort K) (r : Run K) (da dw : Bool) (w : World σ) :
    (checkRun A r da dw w).1 = .ok () ↔ Valid r ∧ (da = true → Distinct r.logl) := by
  have hstrict : Valid r → (Distinct r.logl ↔ r.logl.Pairwise (· < ·)) := by
    rintro ⟨labels, tmm, h⟩
    constructor
    · intro hd
      rw [pairwise_iff_getElem?]
      intro i j x y hij hx hy
      exact lt_of_le_of_ne (h.sorted i j x y hij hx hy) (hd i j x y hij hx hy)
    · intro hd i j x y hij hx hy
      exact ne_of_lt (pairwise_iff_getElem?.mp hd i j x y hij hx hy)
  unfold checkRun
  rw [M.bind_apply, M.lift_apply]
  cases hm : checkMembers r with
  | error e =>
    simp only [reduceCtorEq, false_iff]
    rintro ⟨⟨labels, tmm, h⟩, -⟩
    have : checkMembers r = .ok () :=
      checkMembers_ok.mpr ⟨labels, tmm, h.labels_eq, h.tmm_eq, h.nlive_len, h.labels_len, h.theta_len⟩
    rw [hm] at this; simp at this
  | ok u =>
    obtain ⟨labels, tmm, hl, ht, h1, h2, h3⟩ := checkMembers_ok.mp hm
    simp only
    rw [M.bind_apply, checkLogls_apply]
    by_cases hs : r.logl.Pairwise (· ≤ ·)
    swap
    · simp only [hs, not_false_eq_true, if_true, reduceCtorEq, false_iff]
      rintro ⟨⟨labels', tmm', h⟩, -⟩
      exact hs (pairwise_iff_getElem?.mpr h.sorted)
    have hv : checkThreads r = .ok () ↔ Valid r := by
      rw [checkThreads_iff hl ht h2]
      constructor
      · intro h; exact ⟨labels, tmm, validWith_iff.mpr ⟨hl, ht, h1, h2, h3, hs, h⟩⟩
      · rintro ⟨l', t', h⟩
        have := validWith_iff.mp h
        obtain ⟨a, b, -, -, -, -, c⟩ := this
        rw [hl] at a; rw [ht] at b; cases a; cases b; exact c
    simp only [hs, not_true_eq_false, if_false]
    by_cases hlt : r.logl.Pairwise (· < ·)
    · simp only [hlt, if_true, M.lift_apply, hv]
      constructor
      · intro h; exact ⟨h, fun _ => (hstrict h).mpr hlt⟩
      · exact fun h => h.1
    · simp only [hlt, if_false]
      cases da with
      | true =>
        simp only [if_true, reduceCtorEq, false_iff]
        rintro ⟨h, h'⟩
        exact hlt ((hstrict h).mp (h' trivial))
      | false => cases dw <;> simp [hv]

theorem checkRun_error (A : Argsort K) (r : Run K) (da dw : Bool) (w : World σ) {e : PyErr}
    (h : (checkRun A r da dw w).1 = .error e) : e = .assertion := by
  unfold checkRun at h
  rw [M.bind_apply, M.lift_apply] at h
  cases hm : checkMembers r with
  | error e' => rw [hm] at h; simp at h; rw [← h]; exact checkMembers_error hm
  | ok u =>
    obtain ⟨labels, tmm, hl, ht, h1, h2, h3⟩ := checkMembers_ok.mp hm
    rw [hm] at h
    simp only at h
    rw [M.bind_apply, checkLogls_apply] at h
    split_ifs at h <;> simp at h <;> first | exact h.symm | exact checkThreads_error hl ht h2 h

theorem checkRun_world (A : Argsort K) (r : Run K) (da dw : Bool) (w : World σ) :
    (checkRun A r da dw w).2.rng = w.rng ∧
    ((checkRun A r da dw w).2.warns = w.warns ∨
      (da = false ∧ dw = true ∧ ¬ r.logl.Pairwise (· < ·) ∧
        (checkRun A r da dw w).2.warns = w.warns ++ [.dupLogl])) := by
  unfold checkRun
  rw [M.bind_apply, M.lift_apply]
  cases hm : checkMembers r with
  | error e' => simp
  | ok u =>
    simp only
    rw [M.bind_apply, checkLogls_apply]
    split_ifs <;> simp_all

end Nestcheck
