import Verif.Model.ErrorAnalysis
import Verif.Props.Threads
import Verif.Proofs.Weights

/-! What can be said of every successful call of combine_threads, and the indexes
drawn by bootstrap_resample_run. -/

set_option linter.unusedSectionVars false

namespace Nestcheck
open Spec
variable {σ K : Type} [CommRing K] [LinearOrder K] (R : Rng σ K)

theorem map_modify_dn {γ : Type} (f : Row K → γ) (g : Int → Int)
    (hf : ∀ r d, f { r with dn := d } = f r) (rows : List (Row K)) (k : Nat) :
    (rows.modify k (fun r => { r with dn := g r.dn })).map f = rows.map f := by
  induction rows generalizing k with
  | nil => simp
  | cons r rs ih =>
    cases k with
    | zero => simp [hf]
    | succ k => simp [ih]

/-- The update of births only changes the change-in-nlive column. -/
theorem birthUpdate_samples {abp : Bool} {ss : List K} {rows rows' : List (Row K)} {w w' : World σ}
    (h : birthUpdate R abp ss rows w = (.ok rows', w')) :
    rows'.map (fun r => (r.logl, r.label, r.theta)) = rows.map (fun r => (r.logl, r.label, r.theta)) := by
  induction ss generalizing rows w with
  | nil => simp only [birthUpdate, M.pure_apply, Prod.mk.injEq, Except.ok.injEq] at h; rw [h.1]
  | cons s ss ih =>
    rw [birthUpdate] at h
    obtain ⟨_, w1, -, h⟩ := M.bind_eq_ok.mp h
    obtain ⟨k, w2, -, h⟩ := M.bind_eq_ok.mp h
    rw [ih h]
    exact map_modify_dn _ (· + 1) (fun _ _ => rfl) _ _

/-- A successful call of `dict_given_run_array`. -/
theorem dict_inv {rows : List (Row K)} {tmm : List (WithBot K × K)} {run : Run K} {w w' : World σ}
    (h : dictGivenRunArray rows tmm w = (.ok run, w')) :
    ∃ nl : List Int, run = runOfRows rows nl tmm ∧ (∀ n ∈ nl, 0 < n) ∧ nl.getLast? = some 1 ∧
      nl.length = rows.length := by
  unfold dictGivenRunArray at h
  dsimp only at h
  cases hm : amin (rows.map (·.logl)) with
  | none => rw [hm] at h; simp at h
  | some m =>
    have hne : rows ≠ [] := by rintro rfl; simp [amin] at hm
    have hpos : 0 < rows.length := List.length_pos_iff.mpr hne
    rw [hm] at h
    dsimp only at h
    obtain ⟨_, w1, h1, h⟩ := M.bind_eq_ok.mp h
    obtain ⟨nl, w2, h2, h⟩ := M.bind_eq_ok.mp h
    obtain ⟨_, w3, h3, h⟩ := M.bind_eq_ok.mp h
    obtain ⟨_, w4, h4, h⟩ := M.bind_eq_ok.mp h
    rw [M.assert_apply, Prod.mk.injEq] at h3 h4
    simp only [M.pure_apply, Prod.mk.injEq, Except.ok.injEq] at h
    refine ⟨nl, h.1.symm, ?_, ?_, ?_⟩
    · intro n hn
      have := h3.1
      split at this
      · rename_i hc
        rw [List.all_eq_true] at hc
        simpa using hc n hn
      · simp at this
    · have := h4.1
      split at this
      · rename_i hc; simpa using hc
      · simp at this
    · split at h2
      · simp only [M.bind_apply, M.warn_apply, M.pure_apply, Prod.mk.injEq, Except.ok.injEq] at h2
        rw [← h2.1]
        have := List.countP_le_length (p := fun x => decide (x = m)) (l := rows.map (·.logl))
        simp only [List.length_map] at this
        simp only [List.length_append, List.length_replicate, List.length_drop, List.length_map,
          List.length_cons, length_cumsumFrom, List.length_dropLast]
        omega
      · simp only [M.pure_apply, Prod.mk.injEq, Except.ok.injEq] at h2
        rw [← h2.1]
        simp only [List.length_cons, length_cumsumFrom, List.length_dropLast, List.length_map]
        omega

theorem arraysGivenRuns_inv {threads : List (Run K)} {arrs : List (List (Row K))}
    (h : arraysGivenRuns threads = .ok arrs) :
    List.Forall₂ (fun t a => arrayGivenRun t = .ok a) threads arrs := by
  induction threads generalizing arrs with
  | nil => simp only [arraysGivenRuns, Except.ok.injEq] at h; rw [← h]; exact .nil
  | cons t ts ih =>
    rw [arraysGivenRuns] at h
    cases h1 : arrayGivenRun t with
    | error e => rw [h1] at h; cases h
    | ok a =>
      rw [h1, Py.ok_bind] at h
      cases h2 : arraysGivenRuns ts with
      | error e => rw [h2] at h; cases h
      | ok as =>
        rw [h2, Py.ok_bind] at h
        cases h
        exact .cons h1 (ih h2)

theorem vstack_inv {arrs : List (List (Row K))} {rows : List (Row K)} (h : vstack arrs = .ok rows) :
    rows = arrs.flatten := by
  unfold vstack at h
  cases arrs with
  | nil => simp at h
  | cons a as =>
    simp only at h
    split at h
    · cases h; rfl
    · cases h

theorem zip_of_arrays {threads : List (Run K)} {arrs : List (List (Row K))}
    (h : List.Forall₂ (fun t a => arrayGivenRun t = .ok a) threads arrs) :
    arrs.flatten.map (fun r => (r.logl, r.theta)) = threads.flatMap (fun t => t.logl.zip t.theta) := by
  induction h with
  | nil => rfl
  | @cons t a ts as f1 f2 ih =>
    rw [List.flatMap_cons, List.flatten_cons, List.map_append, ih]
    congr 1
    rcases arrayGivenRun_cases t with ⟨e, he⟩ | ⟨-, -, -, -, arr, ha, e1, -, -, e4⟩
    · rw [he] at f1; cases f1
    · rw [ha] at f1
      cases f1
      rw [← e1, ← e4, List.zip_map']

/-- Whatever threads `combine_threads` is given, a run it returns has exactly their
samples in ascending order, and positive live counts ending in 1. -/
theorem combineThreads_inv {A : Argsort K} {threads : List (Run K)} {abp : Bool} {run : Run K}
    {w w' : World σ} (h : combineThreads A R threads abp w = (.ok run, w')) :
    (run.logl.zip run.theta).Perm (threads.flatMap (fun t => t.logl.zip t.theta)) ∧
    run.logl.Pairwise (· ≤ ·) ∧ run.theta.length = run.logl.length ∧
    run.nlive.length = run.logl.length ∧ (∀ n ∈ run.nlive, 0 < n) ∧ run.nlive.getLast? = some 1 ∧
    ThreadsUsable run := by
  unfold combineThreads at h
  obtain ⟨tmm, w1, h1, h⟩ := M.bind_eq_ok.mp h
  obtain ⟨_, w2, h2, h⟩ := M.bind_eq_ok.mp h
  obtain ⟨arrs, w3, h3, h⟩ := M.bind_eq_ok.mp h
  obtain ⟨rows0, w4, h4, h⟩ := M.bind_eq_ok.mp h
  obtain ⟨st, w5, h5, h⟩ := M.bind_eq_ok.mp h
  obtain ⟨_, w6, h6, h⟩ := M.bind_eq_ok.mp h
  obtain ⟨rows, w7, h7, h⟩ := M.bind_eq_ok.mp h
  obtain ⟨_, w8, h8, h⟩ := M.bind_eq_ok.mp h
  obtain ⟨run0, w9, h9, h⟩ := M.bind_eq_ok.mp h
  obtain ⟨nl, hrun, n1, n2, n3⟩ := dict_inv h9
  have hF := arraysGivenRuns_inv (by rw [M.lift_apply, Prod.mk.injEq] at h3; exact h3.1)
  have hv := vstack_inv (by rw [M.lift_apply, Prod.mk.injEq] at h4; exact h4.1)
  have hs := birthUpdate_samples R h7
  have hfin : run = finishThreads (runOfRows rows nl tmm) := by
    rw [← hrun]
    unfold finishThreads
    cases hc : checkThreads run0 with
    | ok u => rw [hc] at h; simp only [M.pure_apply, Prod.mk.injEq, Except.ok.injEq] at h; exact h.1.symm
    | error e =>
      have he : e = .assertion := checkThreads_runOfRows (by rw [← hrun]; exact hc)
      subst he
      rw [hc] at h
      simp only [M.pure_apply, Prod.mk.injEq, Except.ok.injEq] at h
      exact h.1.symm
  obtain ⟨m1, m2, m3⟩ := finishThreads_members (rows := rows) (nl := nl) (tmm := tmm)
  have hsort : rows.Pairwise (fun a b => a.logl ≤ b.logl) := by
    have := sortBy_sorted A (·.logl) rows0
    have h1 : rows.map (·.logl) = (sortBy A (·.logl) rows0).map (·.logl) := by
      have := congrArg (List.map (·.1)) hs
      rwa [List.map_map, List.map_map] at this
    rw [← List.pairwise_map (f := fun r : Row K => r.logl) (R := (· ≤ ·))] at this ⊢
    rw [h1]; exact this
  rw [hfin]
  refine ⟨?_, ?_, ?_, ?_, ?_, ?_, finishThreads_usable hsort n3⟩
  · rw [m1, m3, List.zip_map']
    have h1 : rows.map (fun r => (r.logl, r.theta)) =
        (sortBy A (·.logl) rows0).map (fun r => (r.logl, r.theta)) := by
      have := congrArg (List.map (fun q => (q.1, q.2.2))) hs
      rwa [List.map_map, List.map_map] at this
    rw [h1]
    refine ((sortBy_perm A _ rows0).map _).trans ?_
    rw [hv, zip_of_arrays hF]
  · rw [m1, List.pairwise_map]; exact hsort
  · rw [m1, m3]; simp
  · rw [m2, m1, n3]; simp
  · rw [m2]; exact n1
  · rw [m2]; exact n2

/-! ### The indexes of a replication -/

/-- What `np.random.randint` may return. -/
theorem npRandint_inv {lo hi : Nat} {n : Int} {w w' : World σ} {xs : List Nat}
    (h : npRandint R lo hi n w = (.ok xs, w')) :
    (xs.length : Int) = n ∧ (∀ x ∈ xs, lo ≤ x ∧ x < hi) ∧ w'.warns = w.warns := by
  unfold npRandint at h
  split_ifs at h with h1 h2 h3
  · simp at h
  · simp only [M.pure_apply, Prod.mk.injEq, Except.ok.injEq] at h
    rw [← h.1, ← h.2, h2]; simp
  · simp at h
  · simp only [M.draw_apply, Prod.mk.injEq, Except.ok.injEq] at h
    rw [← h.1, ← h.2]
    refine ⟨?_, R.randint_range _ _ _ _ (by omega), rfl⟩
    rw [R.randint_length]; omega

theorem npRandint_ok {lo hi : Nat} {n : Int} (h : n = 0 ∨ (0 < n ∧ lo < hi)) (w : World σ) :
    ∃ xs s, npRandint R lo hi n w = (.ok xs, ⟨s, w.warns⟩) := by
  unfold npRandint
  rcases h with rfl | ⟨h1, h2⟩
  · exact ⟨[], w.rng, rfl⟩
  · rw [if_neg (by omega), if_neg (by omega), if_neg (by omega)]
    exact ⟨_, _, rfl⟩

end Nestcheck
