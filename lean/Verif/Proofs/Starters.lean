import Mathlib.Data.List.Flatten
import Verif.Proofs.Label

/-
The points at which threads start.
-/

namespace Nestcheck

/-- The points with birth index `v`. -/
def bornOn (b : List Int) (v : Int) : List Nat := whereIdx (fun x => decide (x = v)) b

theorem mem_bornOn {b : List Int} {v : Int} {i : Nat} : i ∈ bornOn b v ↔ b[i]? = some v :=
  mem_whereIdx_eq

theorem length_bornOn (b : List Int) (v : Int) : (bornOn b v).length = b.count v := by
  unfold bornOn
  rw [length_whereIdx, List.count_eq_countP]
  apply List.countP_congr
  intro x _
  simp

theorem mem_drop_one {l : List Nat} (h : l.Pairwise (· < ·)) {i : Nat} :
    i ∈ l.drop 1 ↔ i ∈ l ∧ ∃ j ∈ l, j < i := by
  cases l with
  | nil => simp
  | cons a as =>
    obtain ⟨h1, h2⟩ := List.pairwise_cons.mp h
    simp only [List.drop_succ_cons, List.drop_zero, List.mem_cons]
    constructor
    · intro hi; exact ⟨.inr hi, a, .inl rfl, h1 i hi⟩
    · rintro ⟨rfl | hi, j, rfl | hj, hlt⟩
      · omega
      · have := h1 j hj; omega
      · exact hi
      · exact hi

theorem mem_bornOn_drop {b : List Int} {v : Int} {i : Nat} :
    i ∈ (bornOn b v).drop 1 ↔ b[i]? = some v ∧ ∃ j < i, b[j]? = some v := by
  rw [mem_drop_one (l := bornOn b v) whereIdx_pairwise, mem_bornOn]
  simp only [mem_bornOn, and_comm]

theorem starters_eq {b : List Int} {u : Int} {us : List Int} (h : unique b = u :: us) :
    starters b = bornOn b u ++
      ((us.filter (fun v => decide (1 < b.count v))).map (fun v => (bornOn b v).drop 1)).flatten := by
  unfold starters threadStartInds
  rw [h]
  simp only [List.take_succ_cons, List.take_zero, List.drop_succ_cons, List.drop_zero,
    List.singleton_append, List.zipIdx_cons, List.map_cons, List.flatten_cons, if_true]
  congr 2
  rw [List.map_congr_left (g := fun mi : Int × Nat => (bornOn b mi.1).drop 1)]
  · rw [show (fun mi : Int × Nat => (bornOn b mi.1).drop 1) =
      (fun v => (bornOn b v).drop 1) ∘ Prod.fst from rfl, ← List.map_map, List.zipIdx_map_fst]
  · rintro ⟨v, k⟩ hk
    have := List.mem_zipIdx hk
    rw [if_neg (by omega)]
    rfl

theorem starters_nil : starters [] = [] := by decide

theorem unique_eq_nil {α : Type} [LinearOrder α] {xs : List α} : unique xs = [] ↔ xs = [] := by
  constructor
  · intro h
    cases xs with
    | nil => rfl
    | cons a as =>
      have : a ∈ unique (a :: as) := mem_unique.mpr (by simp)
      rw [h] at this; simp at this
  · rintro rfl; rfl

theorem unique_head_le {α : Type} [LinearOrder α] {xs us : List α} {u : α} (h : unique xs = u :: us)
    {x : α} (hx : x ∈ xs) : u ≤ x := by
  have hp := unique_pairwise (xs := xs)
  rw [h] at hp
  have : x ∈ u :: us := by rw [← h]; exact mem_unique.mpr hx
  rcases List.mem_cons.mp this with rfl | h2
  · exact le_rfl
  · exact le_of_lt (List.rel_of_pairwise_cons hp h2)

theorem count_gt_one_of_two {b : List Int} {v : Int} {i j : Nat} (h : j < i) (hi : b[i]? = some v)
    (hj : b[j]? = some v) : 1 < b.count v := by
  rw [← length_bornOn]
  have hi' := mem_bornOn.mpr hi
  have hj' := mem_bornOn.mpr hj
  by_contra hc
  rcases hl : bornOn b v with _ | ⟨a, as⟩
  · rw [hl] at hi'; simp at hi'
  · rw [hl] at hc hi' hj'
    have : as = [] := by simpa using hc
    subst this
    simp at hi' hj'; omega

/-- A thread starts at each point with the lowest birth index and at each point
which is not the first one with its birth index. -/
theorem mem_starters {b : List Int} {i : Nat} :
    i ∈ starters b ↔ ∃ v, b[i]? = some v ∧ ((∀ x ∈ b, v ≤ x) ∨ ∃ j < i, b[j]? = some v) := by
  cases hu : unique b with
  | nil =>
    have := unique_eq_nil.mp hu
    subst this
    simp [starters_nil]
  | cons u us =>
    rw [starters_eq hu, List.mem_append, mem_bornOn, List.mem_flatten]
    simp only [List.mem_map, List.mem_filter, decide_eq_true_eq]
    have hub : u ∈ b := mem_unique.mp (by rw [hu]; simp)
    constructor
    · rintro (h | ⟨l, ⟨v, ⟨hv, hc⟩, rfl⟩, hi⟩)
      · exact ⟨u, h, .inl (fun x hx => unique_head_le hu hx)⟩
      · obtain ⟨h1, h2⟩ := mem_bornOn_drop.mp hi
        exact ⟨v, h1, .inr h2⟩
    · rintro ⟨v, hv, h⟩
      have hvb : v ∈ b := List.mem_of_getElem? hv
      by_cases hvu : v = u
      · subst hvu; exact .inl hv
      · right
        rcases h with h | ⟨j, hji, hj⟩
        · exact absurd (le_antisymm (h u hub) (unique_head_le hu hvb)) hvu
        · refine ⟨_, ⟨v, ⟨?_, count_gt_one_of_two hji hv hj⟩, rfl⟩,
            mem_bornOn_drop.mpr ⟨hv, j, hji, hj⟩⟩
          have : v ∈ u :: us := by rw [← hu]; exact mem_unique.mpr hvb
          rcases List.mem_cons.mp this with h | h
          · exact absurd h hvu
          · exact h

theorem starters_nodup (b : List Int) : (starters b).Nodup := by
  cases hu : unique b with
  | nil =>
    have := unique_eq_nil.mp hu
    subst this
    simp [starters_nil]
  | cons u us =>
    rw [starters_eq hu]
    have hn : (u :: us).Nodup := by rw [← hu]; exact unique_nodup
    rw [List.nodup_append]
    refine ⟨whereIdx_nodup, ?_, ?_⟩
    · rw [List.nodup_flatten]
      constructor
      · intro l hl
        obtain ⟨v, -, rfl⟩ := List.mem_map.mp hl
        exact (whereIdx_nodup).sublist (List.drop_sublist _ _)
      · rw [List.pairwise_map]
        refine ((List.nodup_cons.mp hn).2.filter _).imp ?_
        intro v v' hne i hi hi'
        have h1 := (mem_bornOn_drop.mp hi).1
        have h2 := (mem_bornOn_drop.mp hi').1
        rw [h1] at h2; simp at h2; exact hne h2
    · intro i hi j hj hij
      subst hij
      obtain ⟨l, hl, hi2⟩ := List.mem_flatten.mp hj
      obtain ⟨v, hv, rfl⟩ := List.mem_map.mp hl
      have h1 := mem_bornOn.mp hi
      have h2 := (mem_bornOn_drop.mp hi2).1
      rw [h1] at h2
      simp at h2
      have : v ∈ us := (List.mem_filter.mp hv).1
      rw [← h2] at this
      exact (List.nodup_cons.mp hn).1 this

theorem starters_lt {b : List Int} {i : Nat} (h : i ∈ starters b) : i < b.length := by
  obtain ⟨v, hv, -⟩ := mem_starters.mp h
  exact (List.getElem?_eq_some_iff.mp hv).1

theorem threadStartTotal_eq (b : List Int) : threadStartTotal b = (starters b).length := by
  cases hu : unique b with
  | nil =>
    have := unique_eq_nil.mp hu
    subst this
    rfl
  | cons u us =>
    rw [starters_eq hu, List.length_append, List.length_flatten, length_bornOn]
    unfold threadStartTotal
    rw [hu]
    simp only [List.take_succ_cons, List.take_zero, List.drop_succ_cons, List.drop_zero,
      List.map_cons, List.map_nil, List.singleton_append, List.sum_cons]
    congr 2
    rw [List.filter_map, List.map_map, List.map_map]
    apply List.map_congr_left
    intro v _
    simp [length_bornOn]

end Nestcheck
