import Mathlib.Algebra.BigOperators.Group.Finset.Basic
import Mathlib.Algebra.BigOperators.Ring.Finset
import Mathlib.Algebra.Order.BigOperators.Group.Finset
import Verif.Proofs.Threads

/-
Live point counts: telescoping over threads.
-/

set_option linter.unusedSectionVars false

namespace Nestcheck
open Finset

/-- The birth index of point `j`. -/
def bAt (b : List Int) (j : Nat) : Int := b[j]?.getD 0

theorem bAt_eq {b : List Int} {j : Nat} {v : Int} (h : b[j]? = some v) : bAt b j = v := by
  simp [bAt, h]

theorem getElem?_bAt {b : List Int} {j : Nat} (h : j < b.length) : b[j]? = some (bAt b j) := by
  simp [bAt, h]

/-- Points which are heirs correspond one to one to the points they replace. -/
theorem sum_nonstarter {b : List Int} (hb : BirthsValid b) (i : Nat) :
    (∑ j ∈ (range b.length).filter (fun j => j ∉ starters b), if bAt b j < i then (1 : Int) else 0) =
    ∑ c ∈ (range b.length).filter (fun c => heir b c ≠ none), if c < i then (1 : Int) else 0 := by
  refine Finset.sum_nbij' (fun j => (bAt b j).toNat) (fun c => (heir b c).getD 0) ?_ ?_ ?_ ?_ ?_
  · intro j hj
    simp only [mem_filter, mem_range] at hj ⊢
    obtain ⟨hj1, hj2⟩ := hj
    rw [hb.mem_starters_iff hj1] at hj2
    push Not at hj2
    obtain ⟨c, hc⟩ := hj2
    have := hb.heir_gt hc
    rw [bAt_eq (heir_birth hc)]
    simp only [Int.toNat_natCast, hc]
    exact ⟨by omega, by simp⟩
  · intro c hc
    simp only [mem_filter, mem_range] at hc ⊢
    obtain ⟨h1, h2⟩ := hc
    cases hh : heir b c with
    | none => exact absurd hh h2
    | some j =>
      simp only [Option.getD_some]
      refine ⟨heir_lt hh, ?_⟩
      rw [hb.mem_starters_iff (heir_lt hh)]
      push Not
      exact ⟨c, hh⟩
  · intro j hj
    simp only [mem_filter, mem_range] at hj
    obtain ⟨hj1, hj2⟩ := hj
    rw [hb.mem_starters_iff hj1] at hj2
    push Not at hj2
    obtain ⟨c, hc⟩ := hj2
    rw [bAt_eq (heir_birth hc)]
    simp [hc]
  · intro c hc
    simp only [mem_filter, mem_range] at hc
    cases hh : heir b c with
    | none => exact absurd hh hc.2
    | some j => simp [bAt_eq (heir_birth hh)]
  · intro j hj
    simp only [mem_filter, mem_range] at hj
    obtain ⟨hj1, hj2⟩ := hj
    rw [hb.mem_starters_iff hj1] at hj2
    push Not at hj2
    obtain ⟨c, hc⟩ := hj2
    rw [bAt_eq (heir_birth hc)]
    simp

/-- `e` is the last point of thread `k`. -/
def EndsAt (labels : List Nat) (k e : Nat) : Prop :=
  labels[e]? = some k ∧ ∀ j > e, labels[j]? ≠ some k

section
variable {b : List Int} {labels : List Nat}

theorem IsThreads.lt_of_label (h : IsThreads b labels) {i k : Nat} (hi : labels[i]? = some k) :
    k < (starters b).length := by
  obtain ⟨s, hs, -⟩ := (h.2 i k).mp hi
  exact (List.getElem?_eq_some_iff.mp hs).1

theorem IsThreads.start_label (h : IsThreads b labels) {s k : Nat} (hs : (starters b)[k]? = some s) :
    labels[s]? = some k := (h.2 s k).mpr ⟨s, hs, .refl⟩

/-- In the same thread, an heir has the label of the point it replaces. -/
theorem IsThreads.heir_label (h : IsThreads b labels) {c j k : Nat} (hc : labels[c]? = some k)
    (hj : heir b c = some j) : labels[j]? = some k := by
  obtain ⟨s, hs, hch⟩ := (h.2 c k).mp hc
  exact (h.2 j k).mpr ⟨s, hs, hch.step hj⟩

theorem IsThreads.exists_label (h : IsThreads b labels) {i : Nat} (hi : i < b.length) :
    ∃ k, labels[i]? = some k := by
  rw [← h.1] at hi
  exact ⟨_, List.getElem?_eq_getElem hi⟩

/-- A point is the last of its thread exactly if nothing replaced it. -/
theorem IsThreads.ends_iff (hb : BirthsValid b) (h : IsThreads b labels) {e k : Nat}
    (hk : labels[e]? = some k) : EndsAt labels k e ↔ heir b e = none := by
  constructor
  · rintro ⟨-, h2⟩
    cases hh : heir b e with
    | none => rfl
    | some j => exact absurd (h.heir_label hk hh) (h2 j (hb.heir_gt hh))
  · intro hn
    refine ⟨hk, ?_⟩
    intro j hj hjk
    -- the thread is a chain from its start; two points of it are comparable
    obtain ⟨s, hs, hch⟩ := (h.2 e k).mp hk
    obtain ⟨s', hs', hch'⟩ := (h.2 j k).mp hjk
    rw [hs] at hs'; cases hs'
    have hcmp : ∀ {x y}, Chain b s x → Chain b s y → Chain b x y ∨ Chain b y x := by
      intro x y hx hy
      clear hch hch'
      induction hx with
      | refl => exact .inl hy
      | @step c x' hc hj ih =>
        rcases ih with ih | ih
        · rcases chain_iff.mp ih with rfl | ⟨j', hj', hc'⟩
          · exact .inr ((Chain.refl).step hj)
          · rw [hj] at hj'; cases hj'; exact .inl hc'
        · exact .inr (ih.step hj)
    rcases hcmp hch hch' with hc | hc
    · rcases chain_iff.mp hc with rfl | ⟨j', hj', -⟩
      · omega
      · rw [hn] at hj'; simp at hj'
    · have := chain_le (fun c j h => hb.heir_gt h) hc
      omega

/-- The first point of a thread is its start. -/
theorem IsThreads.start_le (hb : BirthsValid b) (h : IsThreads b labels) {i k s : Nat}
    (hs : (starters b)[k]? = some s) (hi : labels[i]? = some k) : s ≤ i := by
  obtain ⟨s', hs', hch⟩ := (h.2 i k).mp hi
  rw [hs] at hs'; cases hs'
  exact chain_le (fun c j h => hb.heir_gt h) hch

theorem EndsAt.eq {k e e' : Nat} (h : EndsAt labels k e) (h' : EndsAt labels k e') : e = e' := by
  rcases Nat.lt_trichotomy e e' with hlt | rfl | hlt
  · exact absurd h'.1 (h.2 _ hlt)
  · rfl
  · exact absurd h.1 (h'.2 _ hlt)

theorem exists_endsAt {i k : Nat} (hi : labels[i]? = some k) : ∃ e, EndsAt labels k e := by
  have hm : i ∈ whereIdx (fun x => decide (x = k)) labels := mem_whereIdx_eq.mpr hi
  cases hw : (whereIdx (fun x => decide (x = k)) labels).getLast? with
  | none => rw [List.getLast?_eq_none_iff] at hw; rw [hw] at hm; simp at hm
  | some a =>
    refine ⟨a, mem_whereIdx_eq.mp (List.mem_of_getLast? hw), ?_⟩
    intro j hj hc
    have := pairwise_lt_le_getLast whereIdx_pairwise hw (mem_whereIdx_eq.mpr hc)
    omega

/-- Telescoping: threads started before step `i` minus threads ended before step
`i` are the points born before step `i` and dying at or after it. -/
theorem nlive_telescope (hb : BirthsValid b) (h : IsThreads b labels) (st en : Nat → Nat)
    (hst : ∀ k < (starters b).length, (starters b)[k]? = some (st k))
    (hen : ∀ k < (starters b).length, EndsAt labels k (en k)) (i : Nat) :
    (∑ k ∈ range (starters b).length,
      ((if bAt b (st k) < i then (1 : Int) else 0) - if en k < i then (1 : Int) else 0)) =
    ((range b.length).filter (fun j => bAt b j < i ∧ i ≤ j)).card := by
  rw [Finset.sum_sub_distrib]
  have hS : (∑ k ∈ range (starters b).length, if bAt b (st k) < i then (1 : Int) else 0) =
      ∑ j ∈ (range b.length).filter (fun j => j ∈ starters b), if bAt b j < i then (1 : Int) else 0 := by
    refine Finset.sum_nbij st ?_ ?_ ?_ ?_
    · intro k hk
      have := List.mem_of_getElem? (hst k (mem_range.mp hk))
      simp only [mem_filter, mem_range]
      exact ⟨starters_lt this, this⟩
    · intro k hk k' hk' hkk
      have h1 := hst k (by simpa using hk)
      have h2 := hst k' (by simpa using hk')
      rw [← show st k = st k' from hkk] at h2
      have l1 := h.start_label h1
      have l2 := h.start_label h2
      rw [l1] at l2; simpa using l2
    · intro j hj
      simp only [coe_filter, mem_range, Set.mem_ofPred_eq] at hj
      obtain ⟨k, hk⟩ := List.mem_iff_getElem?.mp hj.2
      have hlt := (List.getElem?_eq_some_iff.mp hk).1
      refine ⟨k, by simpa using hlt, ?_⟩
      have := hst k hlt
      rw [hk] at this; simpa using this.symm
    · intro k hk; rfl
  have hE : (∑ k ∈ range (starters b).length, if en k < i then (1 : Int) else 0) =
      ∑ e ∈ (range b.length).filter (fun e => ¬ (heir b e ≠ none)), if e < i then (1 : Int) else 0 := by
    refine Finset.sum_nbij en ?_ ?_ ?_ ?_
    · intro k hk
      have := hen k (mem_range.mp hk)
      simp only [mem_filter, mem_range, not_not]
      refine ⟨?_, (h.ends_iff hb this.1).mp this⟩
      rw [← h.1]; exact (List.getElem?_eq_some_iff.mp this.1).1
    · intro k hk k' hk' hkk
      have h1 := (hen k (by simpa using hk)).1
      have h2 := (hen k' (by simpa using hk')).1
      rw [← show en k = en k' from hkk, h1] at h2
      simpa using h2
    · intro e he
      simp only [coe_filter, mem_range, Set.mem_ofPred_eq, not_not] at he
      obtain ⟨k, hk⟩ := h.exists_label he.1
      have hlt := h.lt_of_label hk
      exact ⟨k, by simpa using hlt, (hen k hlt).eq ((h.ends_iff hb hk).mpr he.2)⟩
    · intro k hk; rfl
  have hA := Finset.sum_filter_add_sum_filter_not (range b.length) (fun j => j ∈ starters b)
    (fun j => if bAt b j < i then (1 : Int) else 0)
  have hB := Finset.sum_filter_add_sum_filter_not (range b.length) (fun c => heir b c ≠ none)
    (fun c => if c < i then (1 : Int) else 0)
  have hN := sum_nonstarter hb i
  have hT : (∑ j ∈ range b.length, if bAt b j < i then (1 : Int) else 0) -
      (∑ j ∈ range b.length, if j < i then (1 : Int) else 0) =
      ((range b.length).filter (fun j => bAt b j < i ∧ i ≤ j)).card := by
    rw [← Finset.sum_sub_distrib, Finset.card_filter, Nat.cast_sum]
    apply Finset.sum_congr rfl
    intro j hj
    have hv := (hb j _ (getElem?_bAt (mem_range.mp hj))).2
    by_cases h1 : bAt b j < i <;> by_cases h2 : j < i
    · simp [h1, h2, Nat.not_le.mpr h2]
    · simp [h1, h2, Nat.not_lt.mp h2]
    · omega
    · simp [h1, h2]
  rw [hS, hE, ← hT]
  omega

end
end Nestcheck
