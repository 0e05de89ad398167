import Mathlib.Data.List.Nodup
import Mathlib.Data.List.Range
import Verif.Model.Numpy

/-
Lemmas about the numpy layer.
-/

namespace Nestcheck

section whereIdx
variable {α : Type} {p : α → Bool} {xs : List α}

theorem mem_whereIdx {i : Nat} : i ∈ whereIdx p xs ↔ ∃ x, xs[i]? = some x ∧ p x = true := by
  unfold whereIdx
  rw [List.mem_filter, List.mem_range]
  constructor
  · rintro ⟨h, h2⟩
    rw [List.getElem?_eq_getElem h] at h2 ⊢
    exact ⟨_, rfl, by simpa using h2⟩
  · rintro ⟨x, h, h2⟩
    refine ⟨(List.getElem?_eq_some_iff.mp h).1, ?_⟩
    simp [h, h2]

theorem mem_whereIdx_eq [DecidableEq α] {i : Nat} {a : α} :
    i ∈ whereIdx (fun x => decide (x = a)) xs ↔ xs[i]? = some a := by
  rw [mem_whereIdx]; simp

theorem whereIdx_pairwise : (whereIdx p xs).Pairwise (· < ·) :=
  List.Pairwise.filter _ List.pairwise_lt_range

theorem whereIdx_nodup : (whereIdx p xs).Nodup :=
  whereIdx_pairwise.imp (fun h => Nat.ne_of_lt h)

theorem whereIdx_lt {i : Nat} (h : i ∈ whereIdx p xs) : i < xs.length := by
  obtain ⟨x, h, -⟩ := mem_whereIdx.mp h
  exact (List.getElem?_eq_some_iff.mp h).1

theorem whereIdx_head_le {i j : Nat} {l : List Nat} (h : whereIdx p xs = i :: l)
    (hj : j ∈ whereIdx p xs) : i ≤ j := by
  have hp := whereIdx_pairwise (p := p) (xs := xs)
  rw [h] at hp hj
  rcases List.mem_cons.mp hj with rfl | hj
  · exact le_rfl
  · exact Nat.le_of_lt (List.rel_of_pairwise_cons hp hj)

theorem pairwise_lt_le_getLast {l : List Nat} (hp : l.Pairwise (· < ·)) {m j : Nat}
    (h : l.getLast? = some m) (hj : j ∈ l) : j ≤ m := by
  obtain ⟨ys, rfl⟩ := List.getLast?_eq_some_iff.mp h
  rcases List.mem_append.mp hj with hj | hj
  · exact Nat.le_of_lt ((List.pairwise_append.mp hp).2.2 j hj m (by simp))
  · simp at hj; omega

theorem length_whereIdx : (whereIdx p xs).length = xs.countP p := by
  unfold whereIdx
  induction xs using List.reverseRecOn with
  | nil => rfl
  | append_singleton xs x ih =>
    rw [List.length_append, List.length_singleton, List.range_succ, List.filter_append,
      List.length_append, List.countP_append]
    congr 1
    · rw [← ih]; congr 1
      apply List.filter_congr
      intro i hi
      rw [List.getElem?_append_left (List.mem_range.mp hi)]
    · cases h : p x <;> simp [h]

end whereIdx

section unique
variable {α : Type} [LinearOrder α] {xs ys : List α}

theorem mem_unique {a : α} : a ∈ unique xs ↔ a ∈ xs := by
  simp [unique]

theorem unique_pairwise : (unique xs).Pairwise (· < ·) := by
  have h1 : (unique xs).Pairwise (· ≤ ·) :=
    List.Pairwise.sublist (List.dedup_sublist _) (List.pairwise_insertionSort _ _)
  have h2 : (unique xs).Nodup := List.nodup_dedup _
  exact (List.pairwise_and_iff.mpr ⟨h1, h2⟩).imp (fun h => lt_of_le_of_ne h.1 h.2)

theorem unique_nodup : (unique xs).Nodup := unique_pairwise.imp ne_of_lt

/-- Strictly ascending lists with the same members are equal. -/
theorem eq_of_pairwise_lt_of_mem_iff (hx : xs.Pairwise (· < ·)) (hy : ys.Pairwise (· < ·))
    (h : ∀ a, a ∈ xs ↔ a ∈ ys) : xs = ys := by
  have hp : xs.Perm ys :=
    (List.perm_ext_iff_of_nodup (hx.imp ne_of_lt) (hy.imp ne_of_lt)).mpr h
  exact hp.eq_of_pairwise (le := (· ≤ ·)) (fun a b _ _ h1 h2 => le_antisymm h1 h2)
    (hx.imp le_of_lt) (hy.imp le_of_lt)

theorem unique_eq_iff : unique xs = ys ↔ ys.Pairwise (· < ·) ∧ ∀ a, a ∈ ys ↔ a ∈ xs := by
  constructor
  · rintro rfl; exact ⟨unique_pairwise, fun a => mem_unique⟩
  · rintro ⟨h1, h2⟩
    exact eq_of_pairwise_lt_of_mem_iff unique_pairwise h1 (fun a => by rw [mem_unique, h2])

theorem unique_eq_range {xs : List Nat} {n : Nat} :
    unique xs = List.range n ↔ ∀ a, a ∈ xs ↔ a < n := by
  rw [unique_eq_iff]
  constructor
  · rintro ⟨-, h⟩ a; rw [← h, List.mem_range]
  · intro h; exact ⟨List.pairwise_lt_range, fun a => by rw [h, List.mem_range]⟩

theorem pairwise_ofNat_range (n : Nat) :
    ((List.range n).map Int.ofNat).Pairwise (· < ·) := by
  rw [List.pairwise_map]
  exact List.pairwise_lt_range.imp (fun h => by simpa using h)

theorem unique_eq_intRange {xs : List Int} {n : Nat} :
    unique xs = (List.range n).map Int.ofNat ↔ ∀ a, a ∈ xs ↔ 0 ≤ a ∧ a < n := by
  have hm : ∀ a : Int, a ∈ (List.range n).map Int.ofNat ↔ 0 ≤ a ∧ a < n := by
    intro a
    simp only [List.mem_map, List.mem_range]
    constructor
    · rintro ⟨k, hk, rfl⟩; simp; omega
    · rintro ⟨h1, h2⟩; exact ⟨a.toNat, by omega, by simp [h1]⟩
  rw [unique_eq_iff]
  constructor
  · rintro ⟨-, h⟩ a; rw [← h, hm]
  · intro h; exact ⟨pairwise_ofNat_range n, fun a => by rw [h, hm]⟩

/-- The number of repeats is zero exactly when a sorted list is strictly ascending. -/
theorem unique_length_eq_iff (h : xs.Pairwise (· ≤ ·)) :
    xs.length - (unique xs).length = 0 ↔ xs.Pairwise (· < ·) := by
  have hs : xs.insertionSort (· ≤ ·) = xs := h.insertionSort_eq
  constructor
  · intro h0
    have hl : xs.length ≤ (unique xs).length := by omega
    unfold unique at hl
    rw [hs] at hl
    have : xs.dedup = xs := (List.dedup_sublist xs).eq_of_length_le hl
    have hn : xs.Nodup := by rw [← this]; exact List.nodup_dedup _
    exact (List.pairwise_and_iff.mpr ⟨h, hn⟩).imp (fun h => lt_of_le_of_ne h.1 h.2)
  · intro h
    have hn : xs.Nodup := h.imp ne_of_lt
    unfold unique
    rw [hs, hn.dedup]; omega

end unique

section gather
variable {α β : Type}

theorem gather_range (xs : List α) : gather xs (List.range xs.length) = xs := by
  unfold gather
  induction xs using List.reverseRecOn with
  | nil => rfl
  | append_singleton xs x ih =>
    rw [List.length_append, List.length_singleton, List.range_succ, List.filterMap_append]
    congr 1
    · refine Eq.trans (List.filterMap_congr ?_) ih
      intro i hi
      rw [List.getElem?_append_left (List.mem_range.mp hi)]
    · simp

theorem gather_perm {xs : List α} {inds : List Nat} (h : inds.Perm (List.range xs.length)) :
    (gather xs inds).Perm xs := by
  have := h.filterMap (f := (xs[·]?))
  exact this.trans (by rw [show List.filterMap (xs[·]?) (List.range xs.length) = xs from
    gather_range xs])

theorem gather_map (f : α → β) (xs : List α) (inds : List Nat) :
    gather (xs.map f) inds = (gather xs inds).map f := by
  unfold gather
  rw [List.map_filterMap]
  apply List.filterMap_congr
  intro i _
  simp

theorem mem_of_mem_gather {xs : List α} {inds : List Nat} {x : α} (h : x ∈ gather xs inds) :
    x ∈ xs := by
  obtain ⟨i, -, hi⟩ := List.mem_filterMap.mp h
  exact List.mem_of_getElem? hi

theorem length_gather {xs : List α} {inds : List Nat} (h : ∀ i ∈ inds, i < xs.length) :
    (gather xs inds).length = inds.length := by
  induction inds with
  | nil => rfl
  | cons i is ih =>
    have hi := h i (by simp)
    have := ih (fun j hj => h j (by simp [hj]))
    unfold gather at this ⊢
    rw [List.filterMap_cons, List.getElem?_eq_getElem hi]
    simp [this]

theorem getElem?_gather {xs : List α} {inds : List Nat} (h : ∀ i ∈ inds, i < xs.length) {j i : Nat}
    (hj : inds[j]? = some i) : (gather xs inds)[j]? = xs[i]? := by
  induction inds generalizing j with
  | nil => simp at hj
  | cons k is ih =>
    have hk := h k (by simp)
    have e : gather xs (k :: is) = xs[k] :: gather xs is := by
      unfold gather
      rw [List.filterMap_cons, List.getElem?_eq_getElem hk]
    rw [e]
    cases j with
    | zero =>
      obtain rfl : k = i := by simpa using hj
      simp
    | succ j => simpa using ih (fun l hl => h l (by simp [hl])) (j := j) (by simpa using hj)

end gather

section sortBy
variable {K α : Type} [LinearOrder K] (A : Argsort K) (key : α → K) (rows : List α)

theorem sortBy_perm : (sortBy A key rows).Perm rows := by
  apply gather_perm
  have := A.perm (rows.map key)
  rwa [List.length_map] at this

theorem sortBy_sorted : (sortBy A key rows).Pairwise (fun a b => key a ≤ key b) := by
  have h := A.sorted (rows.map key)
  have : ((sortBy A key rows).map key).Pairwise (· ≤ ·) := by
    unfold sortBy
    rw [← gather_map]; exact h
  exact List.pairwise_map.mp this

/-- Sorting an already ascending array of keys changes nothing. -/
theorem sortBy_id_eq_iff {l : List K} : l = sortBy A id l ↔ l.Pairwise (· ≤ ·) := by
  constructor
  · intro h; rw [h]; simpa using sortBy_sorted A id l
  · intro h
    have h2 : (sortBy A id l).Pairwise (· ≤ ·) := by simpa using sortBy_sorted A id l
    exact (sortBy_perm A id l).symm.eq_of_pairwise (le := (· ≤ ·))
      (fun a b _ _ h1 h2 => le_antisymm h1 h2) h h2

variable {A key rows}
/-- With distinct keys the sorted order is unique: any ascending permutation is
the result of sorting, whatever the algorithm does with ties. -/
theorem sortBy_eq_of_perm {ys : List α} (hp : ys.Perm rows)
    (hs : ys.Pairwise (fun a b => key a < key b)) : sortBy A key rows = ys := by
  have h1 : (sortBy A key rows).Perm ys := (sortBy_perm A key rows).trans hp.symm
  have hinj : ∀ a ∈ ys, ∀ b ∈ ys, key a = key b → a = b := by
    intro a ha b hb hab
    have hn : (ys.map key).Nodup := List.pairwise_map.mpr (hs.imp (fun {a b} h => ne_of_lt h))
    exact List.inj_on_of_nodup_map hn ha hb hab
  refine h1.eq_of_pairwise (le := fun a b => key a ≤ key b) ?_ (sortBy_sorted A key rows)
    (hs.imp le_of_lt)
  intro a b ha hb h1' h2'
  exact hinj a (h1.mem_iff.mp ha) b hb (le_antisymm h1' h2')

theorem sortBy_strict (h : (rows.map key).Nodup) :
    (sortBy A key rows).Pairwise (fun a b => key a < key b) := by
  have h1 := sortBy_sorted A key rows
  have h2 : (sortBy A key rows).Pairwise (fun a b => key a ≠ key b) := by
    have : ((sortBy A key rows).map key).Nodup := ((sortBy_perm A key rows).map key).nodup_iff.mpr h
    exact List.pairwise_map.mp this
  exact (List.pairwise_and_iff.mpr ⟨h1, h2⟩).imp (fun h => lt_of_le_of_ne h.1 h.2)

/-- Sorting is independent of the order of the rows and of the algorithm. -/
theorem sortBy_congr {rows' : List α} (A' : Argsort K) (hp : rows.Perm rows')
    (h : (rows.map key).Nodup) : sortBy A key rows = sortBy A' key rows' := by
  apply sortBy_eq_of_perm ((sortBy_perm A' key rows').trans hp.symm)
  exact sortBy_strict ((hp.map key).nodup_iff.mp h)

end sortBy

section cumsum

theorem length_cumsumFrom {α : Type} [Add α] (a : α) (xs : List α) :
    (cumsumFrom a xs).length = xs.length := by
  induction xs generalizing a with
  | nil => rfl
  | cons x xs ih => simp [cumsumFrom, ih]

theorem getElem?_cumsumFrom {α : Type} [AddCommMonoid α] (a : α) (xs : List α) (i : Nat)
    (h : i < xs.length) : (cumsumFrom a xs)[i]? = some (a + (xs.take (i + 1)).sum) := by
  induction xs generalizing a i with
  | nil => simp at h
  | cons x xs ih =>
    cases i with
    | zero => simp [cumsumFrom]
    | succ i =>
      simp only [cumsumFrom, List.getElem?_cons_succ, List.take_succ_cons, List.sum_cons]
      rw [ih _ _ (by simpa using h), add_assoc]

theorem length_diff {α : Type} [Sub α] (xs : List α) : (diff xs).length = xs.length - 1 := by
  simp [diff]

end cumsum

section amin
variable {α : Type} [LinearOrder α]

theorem foldl_min_le (a : α) (xs : List α) : xs.foldl min a ≤ a ∧ ∀ x ∈ xs, xs.foldl min a ≤ x := by
  induction xs generalizing a with
  | nil => simp
  | cons y ys ih =>
    obtain ⟨h1, h2⟩ := ih (min a y)
    refine ⟨le_trans h1 (min_le_left _ _), ?_⟩
    intro x hx
    rcases List.mem_cons.mp hx with rfl | hx
    · exact le_trans h1 (min_le_right _ _)
    · exact h2 x hx

theorem foldl_min_mem (a : α) (xs : List α) : xs.foldl min a ∈ a :: xs := by
  induction xs generalizing a with
  | nil => simp
  | cons y ys ih =>
    have := ih (min a y)
    rcases min_choice a y with h | h <;> rw [h] at this <;>
      simp only [List.foldl_cons, h] <;>
      rcases List.mem_cons.mp this with h' | h' <;> simp [h']

theorem amin_eq_some {xs : List α} {m : α} : amin xs = some m ↔ m ∈ xs ∧ ∀ x ∈ xs, m ≤ x := by
  cases xs with
  | nil => simp [amin]
  | cons a xs =>
    simp only [amin, Option.some.injEq]
    have h1 := foldl_min_le a xs
    have h2 := foldl_min_mem a xs
    constructor
    · rintro rfl
      refine ⟨h2, ?_⟩
      intro x hx
      rcases List.mem_cons.mp hx with rfl | hx
      · exact h1.1
      · exact h1.2 x hx
    · rintro ⟨h3, h4⟩
      apply le_antisymm
      · rcases List.mem_cons.mp h3 with rfl | hx
        · exact h1.1
        · exact h1.2 _ hx
      · exact h4 _ h2

theorem amin_sorted {x : α} {xs : List α} (h : (x :: xs).Pairwise (· ≤ ·)) :
    amin (x :: xs) = some x := by
  rw [amin_eq_some]
  refine ⟨by simp, ?_⟩
  intro y hy
  rcases List.mem_cons.mp hy with rfl | hy
  · exact le_rfl
  · exact List.rel_of_pairwise_cons h hy

end amin

end Nestcheck
