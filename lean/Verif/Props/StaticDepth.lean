import Verif.Props.StaticThreads

/-! C102: how many samples the threads of an ideal sampler have. -/

namespace Nestcheck
open Spec MeasureTheory ENNReal
variable {σ : Type} {N : Nat}

noncomputable section

/-- How many times the lineages of the points removed were replaced before. -/
def depths (l : List (Removal N)) : List Nat := inherit (fun m _ => m + 1) (fun _ => 0) l

section
variable {start : Finset (Fin N)} {l : List (Removal N)} {d n : Nat} {labels : List Int}

theorem StaticLabels.label (h : StaticLabels start l d n labels) {i : Nat} {s : Removal N} (hi : l[i]? = some s) :
    ∃ k : Nat, labels[i]? = some (k : Int) ∧ k < n := by
  have hil : i < labels.length := by rw [h.len]; exact (List.getElem?_eq_some_iff.mp hi).1
  obtain ⟨h0, h1⟩ := (h.range _).mp (List.getElem_mem hil)
  exact ⟨labels[i].toNat, by rw [List.getElem?_eq_getElem hil]; congr 1; omega, by omega⟩

theorem StaticLabels.firstOf (h : StaticLabels start l d n labels) (hl : Lives start start l) {i : Nat} {s : Removal N} {k : Int}
    (hi : l[i]? = some s) (hs : s.point ∈ start) (hk : labels[i]? = some k) : FirstOf labels k i := by
  refine ⟨hk, fun j hj hjk => ?_⟩
  obtain ⟨q, -, hq⟩ := exists_pred hj hjk hk
  have hql : q < l.length := by have := hq.1; have := (List.getElem?_eq_some_iff.mp hi).1; omega
  have := (h.next q i _ s (List.getElem?_eq_getElem hql) hi).mp hq
  exact Finset.disjoint_left.mp (hl.fresh _ (List.getElem_mem hql)) this hs

theorem StaticLabels.same (h : StaticLabels start l d n labels) {i j : Nat} {s t : Removal N} (hi : l[i]? = some s) (hj : l[j]? = some t)
    (hb : s.point ∈ t.born) : labels[i]? = labels[j]? := by
  obtain ⟨-, k, h1, h2, -⟩ := (h.next j i t s hj hi).mpr hb
  rw [h1, h2]

theorem count_take_succ {labels : List Int} {i : Nat} {k k' : Int} (hi : labels[i]? = some k') :
    (labels.take (i + 1)).count k = (labels.take i).count k + if k' = k then 1 else 0 := by
  obtain ⟨h1, h2⟩ := List.getElem?_eq_some_iff.mp hi
  rw [List.take_succ_eq_append_getElem h1, List.count_append, h2, List.count_singleton]
  simp only [beq_iff_eq]

theorem consecutive_count {labels : List Int} {i j : Nat} {k : Int} (h : Consecutive labels j i) (hk : labels[i]? = some k) :
    (labels.take i).count k = (labels.take j).count k + 1 := by
  obtain ⟨h1, k', h2, h3, h4⟩ := h
  rw [hk] at h3
  cases h3
  have key : ∀ m, j < m → m ≤ i → (labels.take m).count k = (labels.take j).count k + 1 := by
    intro m hm
    induction m with
    | zero => omega
    | succ m ih =>
      intro hmi
      rcases Nat.lt_or_ge j m with hjm | hjm
      · have hml : m < labels.length := by have := (List.getElem?_eq_some_iff.mp hk).1; omega
        rw [count_take_succ (List.getElem?_eq_getElem hml), if_neg, ih hjm (by omega), Nat.add_zero]
        intro e
        exact h4 m hjm (by omega) (by rw [List.getElem?_eq_getElem hml, e])
      · have : m = j := by omega
        subst this
        rw [count_take_succ h2, if_pos rfl]
  exact key i h1 le_rfl

theorem StaticLabels.depth (h : StaticLabels start l d n labels) (hl : Lives start start l) (i : Nat) : ∀ {s : Removal N} {k : Int},
    l[i]? = some s → labels[i]? = some k → (depths l)[i]? = some ((labels.take i).count k) := by
  induction i using Nat.strong_induction_on with
  | _ i ih =>
    intro s k hi hk
    rcases hl.origin i s hi with hs | ⟨j, hj, t, ht, hb⟩
    · unfold depths
      rw [hl.initial (Finset.Subset.refl _) hi hs, List.count_eq_zero_of_not_mem]
      intro hm
      obtain ⟨m, hm⟩ := List.mem_iff_getElem?.mp hm
      have hmi : m < i := by have := (List.getElem?_eq_some_iff.mp hm).1; rw [List.length_take] at this; omega
      rw [List.getElem?_take_of_lt hmi] at hm
      exact (h.firstOf hl hi hs hk).2 m hmi hm
    · have hcon := (h.next j i t s ht hi).mpr hb
      have hjk : labels[j]? = some k := by rw [← h.same hi ht hb, hk]
      have h1 := hl.passed (pass := fun m _ => m + 1) (f := fun _ => 0) (Finset.Subset.refl _) hi ht hb
      change (depths l)[i]? = ((depths l)[j]?).map (fun m => m + 1) at h1
      rw [h1, ih j hj ht hjk, Option.map_some, consecutive_count hcon hk]

/-- The sum of the squares of the numbers of samples with each label. -/
theorem sum_count_sq (n : Nat) : ∀ (labels : List Int), (∀ k ∈ labels, 0 ≤ k ∧ k < n) →
    ∑ k ∈ Finset.range n, (labels.count (k : Int)) ^ 2 =
      ∑ i ∈ Finset.range labels.length, (2 * (labels.take i).count (labels.getD i 0) + 1) := by
  intro labels
  induction labels using List.reverseRecOn with
  | nil => simp
  | append_singleton ls k ih =>
    intro hr
    obtain ⟨h0, h1⟩ := hr k (by simp)
    obtain ⟨m, rfl⟩ : ∃ m : Nat, k = m := ⟨k.toNat, by omega⟩
    have hm : m ∈ Finset.range n := Finset.mem_range.mpr (by omega)
    rw [List.length_append, List.length_singleton, Finset.sum_range_succ]
    have e1 : ∑ i ∈ Finset.range ls.length, (2 * ((ls ++ [(m : Int)]).take i).count ((ls ++ [(m : Int)]).getD i 0) + 1) =
        ∑ i ∈ Finset.range ls.length, (2 * (ls.take i).count (ls.getD i 0) + 1) := by
      refine Finset.sum_congr rfl fun i hi => ?_
      have hi := Finset.mem_range.mp hi
      rw [List.take_append_of_le_length hi.le, List.getD_eq_getElem?_getD, List.getElem?_append_left hi, ← List.getD_eq_getElem?_getD]
    rw [e1, ← ih fun k hk => hr k (by simp [hk])]
    have e2 : (ls ++ [(m : Int)]).getD ls.length 0 = m := by simp [List.getD_eq_getElem?_getD]
    rw [e2, List.take_left]
    have e3 : ∀ k ∈ Finset.range n, ((ls ++ [(m : Int)]).count (k : Int)) ^ 2 =
        (ls.count (k : Int)) ^ 2 + if k = m then 2 * ls.count (m : Int) + 1 else 0 := by
      intro k _
      rw [List.count_append, List.count_singleton]
      by_cases hk : k = m
      · subst hk
        simp
        ring
      · rw [if_neg hk, if_neg (by simp; omega)]
        ring
    rw [Finset.sum_congr rfl e3, Finset.sum_add_distrib, Finset.sum_ite_eq' _ m, if_pos hm]

/-- Each thread has one of the samples which are not replaced. -/
theorem StaticLabels.final_count (h : StaticLabels start l d n labels) (k : Int) : (labels.drop d).count k ≤ 1 := by
  by_contra hcon
  have hdup : List.Duplicate k (labels.drop d) := List.duplicate_iff_two_le_count.mpr (by omega)
  obtain ⟨a, b, hab, e1, e2⟩ : ∃ a b : Nat, a < b ∧ (labels.drop d)[a]? = some k ∧ (labels.drop d)[b]? = some k := by
    obtain ⟨a, b, ha, h1, h2⟩ := List.duplicate_iff_exists_distinct_get.mp hdup
    exact ⟨a, b, ha, by rw [h1]; simp, by rw [h2]; simp⟩
  rw [List.getElem?_drop] at e1 e2
  obtain ⟨q, hq⟩ := exists_next (show d + a < d + b by omega) e1 e2
  have hql : q < l.length := by
    obtain ⟨_, -, hk, -⟩ := hq.2
    rw [← h.len]; exact (List.getElem?_eq_some_iff.mp hk).1
  have hal : d + a < l.length := by have := hq.1; omega
  have := (h.next (d + a) q _ _ (List.getElem?_eq_getElem hal) (List.getElem?_eq_getElem hql)).mp hq
  rw [h.stopped (d + a) _ (by omega) (List.getElem?_eq_getElem hal)] at this
  simp at this

/-- The sum of the squares of the numbers of samples which the threads have among the first `k0`, in terms of the removals. -/
theorem StaticLabels.squares_le (h : StaticLabels start l d n labels) (hl : Lives start start l) (k0 : Nat) :
    ∑ k ∈ Finset.range n, ((labels.take k0).count (k : Int)) ^ 2 ≤
      2 * ∑ i ∈ Finset.range (min k0 d), (2 * (depths l).getD i 0 + 1) + 2 * n := by
  set m := min k0 d with hm
  have h1 : ∀ k ∈ Finset.range n, ((labels.take k0).count (k : Int)) ^ 2 ≤ 2 * ((labels.take m).count (k : Int)) ^ 2 + 2 := by
    intro k _
    have h2 : (labels.take k0).count (k : Int) ≤ (labels.take m).count (k : Int) + 1 := by
      have h3 : (labels.take k0).Sublist (labels.take m ++ labels.drop d) := by
        rcases Nat.le_total k0 d with hk | hk
        · rw [hm, min_eq_left hk]
          exact List.sublist_append_left _ _
        · rw [hm, min_eq_right hk, List.take_append_drop]
          exact List.take_sublist _ _
      have h4 := h3.count_le (k : Int)
      rw [List.count_append] at h4
      have := h.final_count (k : Int)
      omega
    have h5 : ((labels.take k0).count (k : Int)) ^ 2 ≤ ((labels.take m).count (k : Int) + 1) ^ 2 := Nat.pow_le_pow_left h2 2
    refine h5.trans ?_
    rcases Nat.eq_zero_or_pos ((labels.take m).count (k : Int)) with hc | hc
    · rw [hc]; norm_num
    · nlinarith [sq_nonneg (((labels.take m).count (k : Int) : ℤ) - 1)]
  refine (Finset.sum_le_sum h1).trans ?_
  rw [Finset.sum_add_distrib, ← Finset.mul_sum, Finset.sum_const, Finset.card_range, smul_eq_mul,
    sum_count_sq n (labels.take m) fun k hk => (h.range k).mp (List.mem_of_mem_take hk)]
  have hml : (labels.take m).length = m := by rw [List.length_take, h.len, h.total]; omega
  rw [hml, Nat.mul_comm n 2]
  refine Nat.add_le_add_right (Nat.mul_le_mul_left 2 (le_of_eq ?_)) _
  refine Finset.sum_congr rfl fun i hi => ?_
  have hi := Finset.mem_range.mp hi
  have hil : i < labels.length := by rw [h.len, h.total]; omega
  have hil' : i < l.length := by rw [← h.len]; exact hil
  rw [List.take_take, min_eq_left hi.le, List.getD_eq_getElem?_getD, List.getElem?_take_of_lt hi, List.getElem?_eq_getElem hil,
    Option.getD_some, List.getD_eq_getElem?_getD,
    h.depth hl i (List.getElem?_eq_getElem hil') (List.getElem?_eq_getElem hil), Option.getD_some]

end

/-! ### The labels as a function of the removals -/

/-- How many of the initial points are removed before `b`. -/
def rankOf (start : Finset (Fin N)) (l : List (Removal N)) (b : Fin N) : Nat :=
  (l.takeWhile (fun s => decide (s.point ≠ b))).countP (fun s => decide (s.point ∈ start))

/-- The labels of the threads of the points removed. -/
def labelsOf (start : Finset (Fin N)) (l : List (Removal N)) : List Int :=
  inherit (fun k _ => k) (fun b => (rankOf start l b : Int)) l

section
variable {start : Finset (Fin N)} {l : List (Removal N)} {d n : Nat} {labels : List Int}

theorem takeWhile_point (hl : Lives start start l) {i : Nat} {s : Removal N} (hi : l[i]? = some s) :
    l.takeWhile (fun t => decide (t.point ≠ s.point)) = l.take i := by
  obtain ⟨h1, h2⟩ := List.getElem?_eq_some_iff.mp hi
  have e : l = l.take i ++ s :: l.drop (i + 1) := by
    rw [← h2, ← List.drop_eq_getElem_cons h1, List.take_append_drop]
  conv_lhs => rw [e]
  rw [List.takeWhile_append_of_pos, List.takeWhile_cons_of_neg, List.append_nil]
  · simp
  · intro t ht
    obtain ⟨j, hj⟩ := List.mem_iff_getElem?.mp ht
    have hji : j < i := by have := (List.getElem?_eq_some_iff.mp hj).1; rw [List.length_take] at this; omega
    rw [List.getElem?_take_of_lt hji] at hj
    rw [decide_eq_true_iff]
    intro e
    have := hl.once j i t s hj hi e
    omega

/-- Before the `i`-th removal the labels in use are those smaller than the number of initial points removed. -/
theorem StaticLabels.used (h : StaticLabels start l d n labels) (hl : Lives start start l) : ∀ (i : Nat), i ≤ l.length → ∀ k : Nat,
    (k : Int) ∈ labels.take i ↔ k < (l.take i).countP (fun s => decide (s.point ∈ start)) := by
  intro i
  induction i with
  | zero => simp
  | succ i ih =>
    intro hi k
    have hil : i < l.length := by omega
    have hil' : i < labels.length := by rw [h.len]; exact hil
    have hs := List.getElem?_eq_getElem hil
    have ih := ih (by omega)
    obtain ⟨m, hm, hmn⟩ := h.label hs
    have hm' : labels[i] = m := by rw [List.getElem?_eq_getElem hil'] at hm; exact Option.some.inj hm
    rw [List.take_succ_eq_append_getElem hil', List.take_succ_eq_append_getElem hil, List.countP_append, List.mem_append, ih k, hm',
      List.mem_singleton, List.countP_singleton]
    by_cases hst : l[i].point ∈ start
    · have hfirst := h.firstOf hl hs hst hm
      have hge : (l.take i).countP (fun s => decide (s.point ∈ start)) = m := by
        have h1 : ¬ m < (l.take i).countP (fun s => decide (s.point ∈ start)) := by
          rw [← ih m]
          intro hcon
          obtain ⟨j, hj⟩ := List.mem_iff_getElem?.mp hcon
          have hji : j < i := by have := (List.getElem?_eq_some_iff.mp hj).1; rw [List.length_take] at this; omega
          rw [List.getElem?_take_of_lt hji] at hj
          exact hfirst.2 j hji hj
        by_contra hne
        set c := (l.take i).countP (fun s => decide (s.point ∈ start)) with hc
        have hcm : c < m := by omega
        obtain ⟨j, hj⟩ := exists_firstOf ((h.range c).mpr ⟨by omega, by omega⟩)
        have hji := h.order c m j i hj hfirst hcm
        have : (c : Int) ∈ labels.take i := by
          refine List.mem_iff_getElem?.mpr ⟨j, ?_⟩
          rw [List.getElem?_take_of_lt hji]
          exact hj.1
        have := (ih c).mp this
        omega
      rw [hge, if_pos (decide_eq_true hst)]
      omega
    · rw [if_neg (by simpa using hst)]
      have : (m : Int) ∈ labels.take i := by
        rcases hl.origin i _ hs with h1 | ⟨j, hj, t, ht, hb⟩
        · exact absurd h1 hst
        · refine List.mem_iff_getElem?.mpr ⟨j, ?_⟩
          rw [List.getElem?_take_of_lt hj, ← h.same hs ht hb, hm]
      have := (ih m).mp this
      omega

theorem StaticLabels.eq_labelsOf (h : StaticLabels start l d n labels) (hl : Lives start start l) : labels = labelsOf start l := by
  have key : ∀ (i : Nat) (s : Removal N), l[i]? = some s → labels[i]? = (labelsOf start l)[i]? := by
    intro i
    induction i using Nat.strong_induction_on with
    | _ i ih =>
      intro s hi
      rcases hl.origin i s hi with hs | ⟨j, hj, t, ht, hb⟩
      · unfold labelsOf
        rw [hl.initial (Finset.Subset.refl _) hi hs]
        unfold rankOf
        rw [takeWhile_point hl hi]
        obtain ⟨m, hm, hmn⟩ := h.label hi
        have hfirst := h.firstOf hl hi hs hm
        rw [hm]
        congr 2
        have hil := (List.getElem?_eq_some_iff.mp hi).1
        have h1 : ¬ m < (l.take i).countP (fun s => decide (s.point ∈ start)) := by
          rw [← h.used hl i hil.le m]
          intro hcon
          obtain ⟨j, hj⟩ := List.mem_iff_getElem?.mp hcon
          have hji : j < i := by have := (List.getElem?_eq_some_iff.mp hj).1; rw [List.length_take] at this; omega
          rw [List.getElem?_take_of_lt hji] at hj
          exact hfirst.2 j hji hj
        have h2 : m < (l.take (i + 1)).countP (fun s => decide (s.point ∈ start)) := by
          rw [← h.used hl (i + 1) (by omega) m]
          exact List.mem_iff_getElem?.mpr ⟨i, by rw [List.getElem?_take_of_lt (by omega), hm]⟩
        rw [List.take_succ_eq_append_getElem hil, List.countP_append, List.countP_singleton] at h2
        split_ifs at h2 <;> omega
      · have h1 := hl.passed (pass := fun (k : Int) _ => k) (f := fun b => (rankOf start l b : Int)) (Finset.Subset.refl _) hi ht hb
        change (labelsOf start l)[i]? = ((labelsOf start l)[j]?).map (fun k => k) at h1
        rw [h.same hi ht hb, ih j hj t ht, h1]
        simp
  apply List.ext_getElem?
  intro i
  by_cases hi : i < l.length
  · exact key i _ (List.getElem?_eq_getElem hi)
  · rw [List.getElem?_eq_none (by rw [h.len]; omega), List.getElem?_eq_none (by unfold labelsOf; rw [inherit_length]; omega)]

end

end
end Nestcheck
