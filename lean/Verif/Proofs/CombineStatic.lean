import Verif.Proofs.CombineLive

/-! combine_threads for threads which all start from the whole prior. -/

set_option linter.unusedSectionVars false

namespace Nestcheck
open Spec
variable {σ K : Type} [CommRing K] [LinearOrder K] (R : Rng σ K)

/-- Is this row the last of a thread? -/
def isEnd (r : Row K) : Bool := decide (r.dn = -1)

theorem sum_dn_eq {rows : List (Row K)} (h : ∀ r ∈ rows, r.dn = 0 ∨ r.dn = -1) :
    (rows.map (·.dn)).sum = -(rows.countP isEnd : Int) := by
  induction rows with
  | nil => rfl
  | cons r rs ih =>
    have ih := ih (fun x hx => h x (by simp [hx]))
    rw [List.map_cons, List.sum_cons, ih, List.countP_cons]
    rcases h r (by simp) with h | h
    · simp [isEnd, h]
    · simp [isEnd, h]

theorem ThreadRows.dn_mem {arr : List (Row K)} {p : WithBot K × K} (h : ThreadRows arr p)
    {r : Row K} (hr : r ∈ arr) : (r.dn = 0 ∧ r.logl < p.2) ∨ (r.dn = -1 ∧ r.logl = p.2) := by
  obtain ⟨init, last, rfl, h1, h2, h3⟩ := h.split
  rcases List.mem_append.mp hr with hr | hr
  · exact .inl (h1 r hr)
  · simp at hr; rw [hr]; exact .inr ⟨h2, h3⟩

/-- The end rows have the logls of the ends of the threads. -/
theorem filter_isEnd {arrs : List (List (Row K))} {tmm : List (WithBot K × K)}
    (h : List.Forall₂ ThreadRows arrs tmm) :
    (arrs.flatten.filter isEnd).map (·.logl) = tmm.map (·.2) := by
  induction h with
  | nil => rfl
  | @cons a p as ps h1 h2 ih =>
    obtain ⟨init, last, rfl, h3, h4, h5⟩ := h1.split
    rw [List.flatten_cons, List.filter_append, List.filter_append, List.filter_eq_nil_iff.mpr]
    · rw [List.nil_append, List.map_append, ih, List.map_cons]
      simp [isEnd, h4, h5]
    · intro r hr; simp [isEnd, (h3 r hr).1]

theorem gather_whereIdx {α : Type} (p : α → Bool) (xs : List α) :
    gather xs (whereIdx p xs) = xs.filter p := by
  unfold gather whereIdx
  rw [List.filterMap_filter]
  conv_rhs => rw [← gather_range xs]
  unfold gather
  rw [List.filter_filterMap]
  apply List.filterMap_congr
  intro i hi
  have : i < xs.length := List.mem_range.mp hi
  rw [List.getElem?_eq_getElem this]
  cases hp : p xs[i] <;> simp [hp, Option.filter]

theorem countP_whereIdx_ge {α : Type} (p : α → Bool) (xs : List α) (i : Nat) :
    (whereIdx p xs).countP (fun k => decide (i ≤ k)) = (xs.drop i).countP p := by
  unfold whereIdx
  rw [List.countP_filter]
  induction xs using List.reverseRecOn with
  | nil => simp
  | append_singleton xs x ih =>
    rw [List.length_append, List.length_singleton, List.range_succ, List.countP_append,
      List.drop_append, List.countP_append]
    have e : (List.range xs.length).countP (fun a => decide (i ≤ a) && Option.any p (xs ++ [x])[a]?) =
        (List.range xs.length).countP (fun a => decide (i ≤ a) && Option.any p xs[a]?) := by
      apply List.countP_congr
      intro a ha
      rw [List.getElem?_append_left (List.mem_range.mp ha)]
    rw [e, ih]
    congr 1
    by_cases h : i ≤ xs.length
    · have : i - xs.length = 0 := by omega
      simp [h, this, List.countP_cons]
    · have : i - xs.length = (i - xs.length - 1) + 1 := by omega
      rw [this]
      simp [h]

theorem combineThreads_static {A : Argsort K} {threads : List (Run K)}
    {tmm : List (WithBot K × K)} {abp : Bool} (h0 : threads ≠ [])
    (hT : List.Forall₂ (fun t p => IsThread t p.1 p.2) threads tmm)
    (hdim : SameDim (threads.flatMap (·.theta)))
    (hs : ∀ p ∈ tmm, p.1 = ⊥) :
    ∃ (rows : List (Row K)) (nl : List Int),
      (∀ w : World σ, combineThreads A R threads abp w = (.ok (finishThreads (runOfRows rows nl tmm)), w)) ∧
      rows.Pairwise (fun a b => a.logl ≤ b.logl) ∧
      (∃ rows0 : List (Row K), rows0.map (·.logl) = threads.flatMap (·.logl) ∧
        rows0.map (·.label) = threads.flatMap labelColumn ∧
        rows0.map (·.theta) = threads.flatMap (·.theta) ∧ rows.Perm rows0) ∧
      nl.length = rows.length ∧
      ∃ ends : List Nat, ends.Nodup ∧ (∀ k ∈ ends, k < rows.length) ∧
        ((gather rows ends).map (·.logl)).Perm (tmm.map (·.2)) ∧
        (∀ (k : Nat) (r : Row K), rows[k]? = some r → k ∉ ends →
          ∃ k' ∈ ends, k < k' ∧ ∃ r', rows[k']? = some r' ∧ r.logl < r'.logl) ∧
        ∀ i < rows.length, nl[i]? = some (ends.countP (fun k => decide (i ≤ k)) : Int) := by
  obtain ⟨arrs, hA, hR, e1, e2, e3⟩ := threads_rows hT
  set S := sortBy A (·.logl) arrs.flatten with hS
  have hperm : S.Perm arrs.flatten := sortBy_perm A _ _
  have hsort : S.Pairwise (fun a b => a.logl ≤ b.logl) := sortBy_sorted A _ _
  have hsortS : (S.map (·.logl)).Pairwise (· ≤ ·) := by rw [List.pairwise_map]; exact hsort
  have hSne : S ≠ [] := by
    intro h
    have : arrs.flatten = [] := by rw [h] at hperm; exact hperm.nil_eq.symm
    obtain ⟨t, ts, rfl⟩ := List.exists_cons_of_ne_nil h0
    cases hT with
    | cons h1 h2 =>
      have hne := h1.nonempty
      rw [this] at e1
      simp at e1
      exact hne e1.1
  have hpos : 0 < S.length := List.length_pos_iff.mpr hSne
  have hfin : finiteStarts tmm = [] := by
    rw [List.eq_nil_iff_forall_not_mem]
    intro s hs'
    obtain ⟨p, hp, h⟩ := mem_finiteStarts.mp hs'
    rw [hs p hp] at h
    simp at h
  obtain ⟨x, xs, hx⟩ := List.exists_cons_of_ne_nil (l := S.map (·.logl)) (by simpa using hSne)
  have hmin : amin (S.map (·.logl)) = some x := by
    rw [hx]; exact amin_sorted (by rw [← hx]; exact hsortS)
  have hdup : tmm.countP (fun p => decide (p.1 = (x : WithBot K))) ≤ 1 := by
    rw [List.countP_eq_zero.mpr]
    · omega
    · intro p hp; simp [hs p hp]
  have hn0 : (tmm.length : Int) = tmm.countP (fun p => decide (p.1 ≤ (x : WithBot K))) := by
    rw [List.countP_eq_length.mpr]
    intro p hp; simp [hs p hp]
  have hdn : ∀ r ∈ S, r.dn = 0 ∨ r.dn = -1 := by
    intro r hr
    obtain ⟨arr, -, p, -, hra, hth⟩ := exists_thread hR (hperm.mem_iff.mp hr)
    rcases hth.dn_mem hra with h | h
    · exact .inl h.1
    · exact .inr h.1
  have hcount : S.countP isEnd = tmm.length := by
    rw [hperm.countP_eq, List.countP_eq_length_filter]
    have := congrArg List.length (filter_isEnd hR)
    rwa [List.length_map, List.length_map] at this
  have hlive : ∀ i, (tmm.length : Int) + ((S.map (·.dn)).take i).sum = (S.drop i).countP isEnd := by
    intro i
    rw [← List.map_take, sum_dn_eq (fun r hr => hdn r (List.mem_of_mem_take hr)), ← hcount]
    have := List.countP_append (p := isEnd) (l₁ := S.take i) (l₂ := S.drop i)
    rw [List.take_append_drop] at this
    omega
  have hnext : ∀ (k : Nat) (r : Row K), S[k]? = some r → isEnd r = false →
      ∃ k', k < k' ∧ ∃ r', S[k']? = some r' ∧ isEnd r' = true ∧ r.logl < r'.logl := by
    intro k r hk hr
    obtain ⟨arr, harr, p, -, hra, hth⟩ := exists_thread hR (hperm.mem_iff.mp (List.mem_of_getElem? hk))
    rcases hth.dn_mem hra with h | h
    · obtain ⟨init, last, rfl, h3, h4, h5⟩ := hth.split
      have hl : last ∈ S := hperm.mem_iff.mpr (List.mem_flatten.mpr ⟨_, harr, by simp⟩)
      obtain ⟨k', hk'⟩ := List.mem_iff_getElem?.mp hl
      have hlt : r.logl < last.logl := by rw [h5]; exact h.2
      refine ⟨k', ?_, last, hk', by simp [isEnd, h4], hlt⟩
      by_contra hc
      rcases Nat.lt_or_eq_of_le (Nat.le_of_not_lt hc) with h6 | rfl
      · exact absurd hlt (not_lt.mpr (pairwise_iff_getElem?.mp hsort k' k _ _ h6 hk' hk))
      · rw [hk] at hk'; cases hk'; exact lt_irrefl _ hlt
    · simp [isEnd, h.1] at hr
  have hcond : (∀ i < S.length, 0 < (tmm.length : Int) + ((S.map (·.dn)).take i).sum) ∧
      (tmm.length : Int) + ((S.map (·.dn)).take (S.length - 1)).sum = 1 := by
    constructor
    · intro i hi
      rw [hlive]
      have : 0 < (S.drop i).countP isEnd := by
        rw [List.countP_pos_iff]
        have hg := List.getElem?_eq_getElem hi
        cases hc : isEnd S[i] with
        | true => exact ⟨S[i], List.mem_of_getElem? (i := 0) (by rw [List.getElem?_drop]; exact hg), hc⟩
        | false =>
          obtain ⟨k', hk, r', hr', he, -⟩ := hnext i _ hg hc
          refine ⟨r', ?_, he⟩
          apply List.mem_of_getElem? (i := k' - i)
          rw [List.getElem?_drop, show i + (k' - i) = k' by omega, hr']
      omega
    · rw [hlive]
      have hi : S.length - 1 < S.length := by omega
      have hg := List.getElem?_eq_getElem hi
      rw [List.drop_eq_getElem_cons hi, List.drop_eq_nil_of_le (by omega), List.countP_cons]
      cases hc : isEnd S[S.length - 1] with
      | true => simp
      | false =>
        obtain ⟨k', hk, r', hr', -⟩ := hnext _ _ hg hc
        have := (List.getElem?_eq_some_iff.mp hr').1
        omega
  refine ⟨S, liveFrom tmm.length (S.map (·.dn)), ?_, hsort, ⟨arrs.flatten, e1, e2, e3, hperm⟩, ?_,
    whereIdx isEnd S, whereIdx_nodup, fun k hk => whereIdx_lt hk, ?_, ?_, ?_⟩
  · intro w
    refine combineThreads_eq R h0 hT hA (by rw [e3]; exact hdim) (s := R.seed 0) ?_ ?_
    · rw [hfin]; rfl
    · rw [dict_apply hmin hdup hn0, if_pos hcond]
  · rw [length_liveFrom, List.length_map]
    simpa using hSne
  · rw [gather_whereIdx, ← filter_isEnd hR]
    exact (hperm.filter _).map _
  · intro k r hk hnk
    have : isEnd r = false := by
      by_contra hc
      exact hnk (mem_whereIdx.mpr ⟨r, hk, by simpa using hc⟩)
    obtain ⟨k', h1, r', h2, h3, h4⟩ := hnext k r hk this
    exact ⟨k', mem_whereIdx.mpr ⟨r', h2, h3⟩, h1, r', h2, h4⟩
  · intro i hi
    rw [getElem?_liveFrom (by simpa using hi), hlive, countP_whereIdx_ge]

end Nestcheck
