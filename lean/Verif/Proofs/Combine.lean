import Verif.Proofs.Split
import Verif.Proofs.Random
import Mathlib.Algebra.BigOperators.Group.List.Basic

/-! combine_threads. -/

set_option linter.unusedSectionVars false

namespace Nestcheck
open Spec
variable {σ K : Type} [CommRing K] [LinearOrder K] (R : Rng σ K)

theorem tmmStack_ok {threads : List (Run K)} {tms : List (List (WithBot K × K))} (h0 : threads ≠ [])
    (h : List.Forall₂ (fun t tm => t.tmm = some tm) threads tms) :
    tmmStack threads = .ok tms.flatten := by
  induction h with
  | nil => exact absurd rfl h0
  | @cons t tm ts tms h1 h2 ih =>
    cases h2 with
    | nil => simp [tmmStack, h1]
    | cons h3 h4 =>
      rw [tmmStack, h1]
      · simp only
        rw [ih (by simp)]
        rfl
      · simp

theorem arraysGivenRuns_ok {threads : List (Run K)} {arrs : List (List (Row K))}
    (h : List.Forall₂ (fun t a => arrayGivenRun t = .ok a) threads arrs) :
    arraysGivenRuns threads = .ok arrs := by
  induction h with
  | nil => rfl
  | cons h1 h2 ih => rw [arraysGivenRuns, h1, ih]; rfl

theorem vstack_ok {arrs : List (List (Row K))} (h0 : arrs ≠ [])
    (h : SameDim (arrs.flatten.map (·.theta))) : vstack arrs = .ok arrs.flatten := by
  cases arrs with
  | nil => exact absurd rfl h0
  | cons a as =>
    unfold vstack
    simp only
    rw [if_pos]
    simp only [List.all_eq_true, decide_eq_true_eq]
    intro x hx y hy
    exact h _ (List.mem_map_of_mem hx) _ (List.mem_map_of_mem hy)

/-- The rows of a thread: zero change in nlive but for the last, -1 there. -/
structure ThreadRows (arr : List (Row K)) (p : WithBot K × K) : Prop where
  split : ∃ init last, arr = init ++ [last] ∧ (∀ r ∈ init, r.dn = 0 ∧ r.logl < p.2) ∧
    last.dn = -1 ∧ last.logl = p.2
  born : ∀ r ∈ arr, p.1 < (r.logl : WithBot K)

theorem diff_replicate (n : Nat) (a : Int) : diff (List.replicate n a) = List.replicate (n - 1) 0 := by
  rw [List.eq_replicate_iff]
  refine ⟨by simp [length_diff], ?_⟩
  intro b hb
  unfold diff at hb
  rw [List.mem_iff_getElem] at hb
  obtain ⟨i, hi, rfl⟩ := hb
  simp

theorem thread_rows {t : Run K} {p : WithBot K × K} (h : IsThread t p.1 p.2) :
    ∃ arr, arrayGivenRun t = .ok arr ∧ ThreadRows arr p ∧ arr.map (·.logl) = t.logl ∧
      arr.map (·.label) = labelColumn t ∧ arr.map (·.theta) = t.theta := by
  have hpos : 0 < t.logl.length := List.length_pos_iff.mpr h.nonempty
  rcases arrayGivenRun_cases t with ⟨e, he⟩ | ⟨-, -, -, -, arr, ha, e1, e2, e3, e4⟩
  · exfalso
    unfold arrayGivenRun at he
    simp only at he
    rw [if_neg, if_neg (by omega)] at he
    · simp at he
    · push Not
      refine ⟨?_, by rw [h.ones]; simp, h.theta_len⟩
      unfold labelColumn
      cases hl : t.labels with
      | none => simp
      | some ls => simp [h.labels_len ls hl]
  · refine ⟨arr, ha, ⟨?_, ?_⟩, e1, e2, e4⟩
    · rw [h.ones, diff_replicate] at e3
      obtain ⟨init, last, rfl⟩ := List.eq_nil_or_concat arr |>.resolve_left (by
        rintro rfl; simp at e3)
      rw [List.concat_eq_append] at e1 e3 ⊢
      rw [List.map_append] at e1 e3
      have e3' := List.append_inj' e3 (by simp)
      have hstop : last.logl = p.2 := by
        have := h.last
        rw [← e1] at this
        simpa using this
      refine ⟨init, last, rfl, ?_, by simpa using e3'.2, hstop⟩
      intro r hr
      refine ⟨?_, ?_⟩
      · have : r.dn ∈ init.map (·.dn) := List.mem_map_of_mem hr
        rw [e3'.1] at this
        exact (List.mem_replicate.mp this).2
      · have hs := pairwise_iff_getElem?.mpr h.strict
        rw [← e1, List.pairwise_append] at hs
        rw [← hstop]
        exact hs.2.2 _ (List.mem_map_of_mem hr) _ (by simp)
    · intro r hr
      exact h.born _ (by rw [← e1]; exact List.mem_map_of_mem hr)

/-- The samples array of a list of threads. -/
theorem threads_rows {threads : List (Run K)} {tmm : List (WithBot K × K)}
    (h : List.Forall₂ (fun t p => IsThread t p.1 p.2) threads tmm) :
    ∃ arrs, List.Forall₂ (fun t a => arrayGivenRun t = .ok a) threads arrs ∧
      List.Forall₂ ThreadRows arrs tmm ∧ arrs.flatten.map (·.logl) = threads.flatMap (·.logl) ∧
      arrs.flatten.map (·.label) = threads.flatMap labelColumn ∧
      arrs.flatten.map (·.theta) = threads.flatMap (·.theta) := by
  induction h with
  | nil => exact ⟨[], .nil, .nil, rfl, rfl, rfl⟩
  | cons h1 h2 ih =>
    obtain ⟨arrs, a1, a2, a3, a4, a5⟩ := ih
    obtain ⟨arr, b1, b2, b3, b4, b5⟩ := thread_rows h1
    refine ⟨arr :: arrs, .cons b1 a1, .cons b2 a2, ?_, ?_, ?_⟩ <;>
      simp_all

/-- What `combine_threads` does with the run it has built (ns_run_utils.py:288-294). -/
def finishThreads (run : Run K) : Run K :=
  match checkThreads run with
  | .ok _ => run
  | .error _ => { run with labels := none, tmm := none }

theorem checkThreads_runOfRows {rows : List (Row K)} {nl : List Int} {tmm : List (WithBot K × K)}
    {e : PyErr} (h : checkThreads (runOfRows rows nl tmm) = .error e) : e = .assertion := by
  cases hl : allSome (rows.map (·.label)) with
  | none =>
    unfold checkThreads runOfRows at h
    simp only [hl] at h
    simpa using h.symm
  | some ls =>
    refine checkThreads_error (r := runOfRows rows nl tmm) (labels := ls) (tmm := tmm) hl rfl ?_ h
    have := congrArg List.length (allSome_eq_some.mp hl)
    simp only [List.length_map] at this
    simp [runOfRows, this]

/-- A call of `combine_threads` on proper threads, up to the update of births and
the live counts. -/
theorem combineThreads_eq {A : Argsort K} {threads : List (Run K)} {tmm : List (WithBot K × K)}
    {arrs : List (List (Row K))} {abp : Bool} {w : World σ} (h0 : threads ≠ [])
    (hT : List.Forall₂ (fun t p => IsThread t p.1 p.2) threads tmm)
    (hA : List.Forall₂ (fun t a => arrayGivenRun t = .ok a) threads arrs)
    (hdim : SameDim (arrs.flatten.map (·.theta))) {rows : List (Row K)} {s : σ} {nl : List Int}
    (hb : birthUpdate R abp (finiteStarts tmm) (sortBy A (·.logl) arrs.flatten) ⟨R.seed 0, w.warns⟩
      = (.ok rows, ⟨s, w.warns⟩))
    (hd : dictGivenRunArray rows tmm w = (.ok (runOfRows rows nl tmm), w)) :
    combineThreads A R threads abp w = (.ok (finishThreads (runOfRows rows nl tmm)), w) := by
  have hst : tmmStack threads = .ok tmm := by
    rw [tmmStack_ok (tms := tmm.map (fun p => [p])) h0]
    · congr 1
      clear hT hb hd
      induction tmm with
      | nil => rfl
      | cons p ps ih => simpa using ih
    · clear hb hd hA hdim h0
      induction hT with
      | nil => exact .nil
      | cons h1 h2 ih => exact .cons h1.tmm_eq ih
  have hlen : threads.length = tmm.length := hT.length_eq
  have hane : arrs ≠ [] := by
    rintro rfl
    have := hA.length_eq
    simp at this
    exact h0 this
  unfold combineThreads
  rw [M.bind_ok (a := tmm) (w' := w) (by rw [M.lift_apply, hst])]
  rw [M.bind_ok (a := ()) (w' := w) (by rw [M.assert_apply]; simp [hlen])]
  rw [M.bind_ok (a := arrs) (w' := w) (by rw [M.lift_apply, arraysGivenRuns_ok hA])]
  rw [M.bind_ok (a := arrs.flatten) (w' := w) (by rw [M.lift_apply, vstack_ok hane hdim])]
  rw [M.bind_ok (a := w.rng) (w' := w) (by rw [M.getState_apply])]
  rw [M.bind_ok (a := ()) (w' := ⟨R.seed 0, w.warns⟩) (by rfl)]
  rw [M.bind_ok hb]
  rw [M.bind_ok (a := ()) (w' := w) (by rfl)]
  rw [M.bind_ok hd]
  unfold finishThreads
  cases hc : checkThreads (runOfRows rows nl tmm) with
  | ok u => rfl
  | error e =>
    cases checkThreads_runOfRows hc
    rfl

/-! ### births on unique points -/

theorem modify_eq_map {rows : List (Row K)} {k : Nat} {s : K} (hnd : (rows.map (·.logl)).Nodup)
    (hk : (rows.map (·.logl))[k]? = some s) (f : Row K → Row K) :
    rows.modify k f = rows.map (fun r => if r.logl = s then f r else r) := by
  apply List.ext_getElem?
  intro i
  rw [List.getElem?_modify, List.getElem?_map]
  cases hi : rows[i]? with
  | none => simp
  | some r =>
    have : k = i ↔ r.logl = s := by
      constructor
      · rintro rfl; rw [List.getElem?_map, hi] at hk; simpa using hk
      · intro h
        have hi' : (rows.map (·.logl))[i]? = some s := by rw [List.getElem?_map, hi, ← h]; rfl
        obtain ⟨hk1, hk2⟩ := List.getElem?_eq_some_iff.mp hk
        obtain ⟨hi1, hi2⟩ := List.getElem?_eq_some_iff.mp hi'
        exact (List.Nodup.getElem_inj_iff hnd).mp (by rw [hk2, hi2])
    by_cases hc : r.logl = s
    · simp [this, hc]
    · simp [this, hc]

/-- The births of a list of starts, each the logl of exactly one row. -/
theorem birthUpdate_unique (abp : Bool) (starts : List K) (rows : List (Row K)) (w : World σ)
    (hnd : (rows.map (·.logl)).Nodup) (hin : ∀ s ∈ starts, s ∈ rows.map (·.logl)) :
    birthUpdate R abp starts rows w =
      (.ok (rows.map (fun r => { r with dn := r.dn + (starts.count r.logl : Int) })), w) := by
  induction starts generalizing rows with
  | nil => simp [birthUpdate]
  | cons s ss ih =>
    obtain ⟨k, hk⟩ := List.mem_iff_getElem?.mp (hin s (by simp))
    have hone : whereIdx (fun x => decide (x = s)) (rows.map (·.logl)) = [k] := by
      have hl : (whereIdx (fun x => decide (x = s)) (rows.map (·.logl))).length = 1 := by
        rw [length_whereIdx]
        have := List.count_eq_one_of_mem hnd (List.mem_of_getElem? hk)
        rw [List.count] at this
        rw [← this]
        apply List.countP_congr
        intro x _; simp
      obtain ⟨k', hk'⟩ := List.length_eq_one_iff.mp hl
      have : k ∈ whereIdx (fun x => decide (x = s)) (rows.map (·.logl)) := mem_whereIdx_eq.mpr hk
      rw [hk'] at this ⊢
      simp at this; rw [this]
    unfold birthUpdate
    simp only [hone]
    rw [M.bind_ok (a := ()) (w' := w) (by cases abp <;> rfl)]
    rw [M.bind_ok (x := (pure k : M σ Nat)) (a := k) (w' := w) rfl]
    have hlog : (rows.modify k (fun r => { r with dn := r.dn + 1 })).map (·.logl) = rows.map (·.logl) := by
      rw [modify_eq_map hnd hk, List.map_map]
      apply List.map_congr_left
      intro r _
      simp only [Function.comp]
      split <;> rfl
    rw [ih _ (by rw [hlog]; exact hnd) (fun x hx => by rw [hlog]; exact hin x (by simp [hx]))]
    rw [modify_eq_map hnd hk, List.map_map]
    congr 2
    apply List.map_congr_left
    intro r _
    simp only [Function.comp, List.count_cons]
    by_cases hc : r.logl = s
    · rw [if_pos hc]
      simp only [hc, BEq.rfl, if_true]
      congr 1
      push_cast
      ring
    · rw [if_neg hc]
      have : (s == r.logl) = false := by simp; exact fun h => hc h.symm
      simp [this]

/-! ### sums of changes in nlive -/

theorem sum_zeros {xs : List Int} (h : ∀ x ∈ xs, x = 0) : xs.sum = 0 := by
  induction xs with
  | nil => rfl
  | cons x xs ih =>
    rw [List.sum_cons, h x (by simp), ih (fun y hy => h y (by simp [hy]))]; rfl

theorem sum_indicator {rows : List (Row K)} {s : K} (hnd : (rows.map (·.logl)).Nodup)
    (hmem : s ∈ rows.map (·.logl)) (l : K) :
    ((rows.filter (fun x => decide (x.logl < l))).map
        (fun r => if r.logl = s then (1 : Int) else 0)).sum = if s < l then 1 else 0 := by
  induction rows with
  | nil => simp at hmem
  | cons r rs ihr =>
    simp only [List.map_cons, List.nodup_cons] at hnd
    by_cases hrs : r.logl = s
    · have hz : ((rs.filter (fun x => decide (x.logl < l))).map
          (fun r => if r.logl = s then (1 : Int) else 0)).sum = 0 := by
        apply sum_zeros
        intro x hx
        obtain ⟨q, hq, rfl⟩ := List.mem_map.mp hx
        rw [if_neg]
        intro h
        apply hnd.1
        rw [hrs, ← h]
        exact List.mem_map_of_mem (List.mem_filter.mp hq).1
      by_cases hc : s < l
      · rw [List.filter_cons_of_pos (by simpa [hrs] using hc)]
        simp [hrs, hc, hz]
      · rw [List.filter_cons_of_neg (by simpa [hrs] using hc), hz]
        simp [hc]
    · have := ihr hnd.2 (by
        rcases List.mem_cons.mp hmem with h | h
        · exact absurd h.symm hrs
        · exact h)
      by_cases hc : r.logl < l
      · rw [List.filter_cons_of_pos (by simpa using hc), List.map_cons, List.sum_cons, this, if_neg hrs]
        simp
      · rw [List.filter_cons_of_neg (by simpa using hc), this]


theorem take_eq_filter {rows : List (Row K)} (hs : rows.Pairwise (fun a b => a.logl < b.logl))
    {i : Nat} {r : Row K} (hi : rows[i]? = some r) :
    rows.take i = rows.filter (fun x => decide (x.logl < r.logl)) := by
  have hil := (List.getElem?_eq_some_iff.mp hi).1
  have hr : rows[i] = r := (List.getElem?_eq_some_iff.mp hi).2
  conv_rhs => rw [← List.take_append_drop i rows, List.filter_append]
  rw [List.filter_eq_self.mpr, List.filter_eq_nil_iff.mpr, List.append_nil]
  · intro x hx
    rw [List.drop_eq_getElem_cons hil, hr] at hx
    rcases List.mem_cons.mp hx with rfl | hx
    · simp
    · have : (r :: rows.drop (i + 1)).Pairwise (fun a b => a.logl < b.logl) := by
        rw [← hr, ← List.drop_eq_getElem_cons hil]
        exact hs.sublist (List.drop_sublist _ _)
      have := List.rel_of_pairwise_cons this hx
      simpa using this.le
  · intro x hx
    have hp : (rows.take i ++ rows.drop i).Pairwise (fun a b => a.logl < b.logl) := by
      rw [List.take_append_drop]; exact hs
    have := (List.pairwise_append.mp hp).2.2 x hx r (by
      rw [List.drop_eq_getElem_cons hil, hr]; simp)
    simpa using this

theorem ThreadRows.sum_filter {arr : List (Row K)} {p : WithBot K × K} (h : ThreadRows arr p) (l : K) :
    ((arr.filter (fun x => decide (x.logl < l))).map (·.dn)).sum = if p.2 < l then (-1 : Int) else 0 := by
  obtain ⟨init, last, rfl, h1, h2, h3⟩ := h.split
  have h0 : ((init.filter (fun x => decide (x.logl < l))).map (·.dn)).sum = 0 := by
    apply sum_zeros
    intro x hx
    obtain ⟨r, hr, rfl⟩ := List.mem_map.mp hx
    exact (h1 r (List.mem_filter.mp hr).1).1
  rw [List.filter_append, List.map_append, List.sum_append, h0, zero_add]
  by_cases hc : p.2 < l
  · simp [h3, hc, h2]
  · simp [h3, hc]

theorem sum_ends {arrs : List (List (Row K))} {tmm : List (WithBot K × K)}
    (h : List.Forall₂ ThreadRows arrs tmm) (l : K) :
    ((arrs.flatten.filter (fun x => decide (x.logl < l))).map (·.dn)).sum =
      -(tmm.countP (fun p => decide (p.2 < l)) : Int) := by
  induction h with
  | nil => simp
  | @cons a p as ps h1 h2 ih =>
    rw [List.flatten_cons, List.filter_append, List.map_append, List.sum_append, ih, h1.sum_filter,
      List.countP_cons]
    by_cases hc : p.2 < l
    · simp [hc]
    · simp [hc]

theorem sum_starts {rows : List (Row K)} {starts : List K} (hnd : (rows.map (·.logl)).Nodup)
    (hin : ∀ s ∈ starts, s ∈ rows.map (·.logl)) (l : K) :
    ((rows.filter (fun x => decide (x.logl < l))).map (fun r => (starts.count r.logl : Int))).sum =
      starts.countP (fun s => decide (s < l)) := by
  induction starts with
  | nil => simp
  | cons s ss ih =>
    have ih := ih (fun x hx => hin x (by simp [hx]))
    have hone := sum_indicator hnd (hin s (by simp)) l
    have hsplit : ((rows.filter (fun x => decide (x.logl < l))).map
          (fun r => ((s :: ss).count r.logl : Int))).sum =
        ((rows.filter (fun x => decide (x.logl < l))).map (fun r => (ss.count r.logl : Int))).sum +
        ((rows.filter (fun x => decide (x.logl < l))).map
          (fun r => if r.logl = s then (1 : Int) else 0)).sum := by
      rw [← List.sum_map_add]
      congr 1
      apply List.map_congr_left
      intro r _
      rw [List.count_cons]
      by_cases h : r.logl = s
      · simp [h]
      · simp [h, Ne.symm h]
    rw [hsplit, ih, hone, List.countP_cons]
    by_cases hc : s < l <;> simp [hc]

end Nestcheck
