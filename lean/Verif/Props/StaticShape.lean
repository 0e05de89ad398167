import Verif.Spec.Static
import Verif.Props.Adaptive

/-! C102: the removals of an ideal sampler with a constant number of live points. -/

namespace Nestcheck
open Spec MeasureTheory ENNReal
variable {N : Nat}

noncomputable section

theorem iterate_stopped {rule : Rule N} (hstop : ∀ p hist, hist ≠ [] → rule hist = ∅ → rule (p :: hist) = ∅) :
    ∀ (k : Nat) {hist : List (Fin N × ℝ)} {A : Finset (Fin N)} {x : Fin N → ℝ}, hist ≠ [] → rule hist = ∅ → A.card ≤ k →
      (iterate rule k hist A x).length = A.card ∧
      ∀ (i : Nat) s, (iterate rule k hist A x)[i]? = some s → s.born = ∅ ∧ s.alive = A.card - i
  | 0, hist, A, x, _, _, hk => by
    have : A.card = 0 := by omega
    refine ⟨by rw [this]; rfl, ?_⟩
    intro i s hs
    simp [iterate] at hs
  | k + 1, hist, A, x, hne, hr, hk => by
    by_cases hA : A.Nonempty
    swap
    · rw [iterate_empty (tops_empty hA)]
      rw [Finset.not_nonempty_iff_eq_empty] at hA
      subst hA
      simp
    have ht := tops_nonempty hA x
    have ha : (tops A x).min' ht ∈ A := min'_mem_of_tops ht
    rw [iterate_succ rfl ht]
    set a := (tops A x).min' ht with ha'
    have hr' : rule ((a, x a) :: hist) = ∅ := hstop _ _ hne hr
    have hc : (A.erase a ∪ rule ((a, x a) :: hist)).card = A.card - 1 := by
      rw [hr', Finset.union_empty, Finset.card_erase_of_mem ha]
    have hpos := Finset.card_pos.mpr hA
    obtain ⟨h1, h2⟩ := iterate_stopped hstop k (hist := (a, x a) :: hist) (A := A.erase a ∪ rule ((a, x a) :: hist))
      (x := fun b => if b ∈ rule ((a, x a) :: hist) then x a * x b else x b) (by simp) hr' (by omega)
    refine ⟨by rw [List.length_cons, h1]; omega, ?_⟩
    intro i s hs
    cases i with
    | zero =>
      rw [List.getElem?_cons_zero, Option.some.injEq] at hs
      subst hs
      exact ⟨hr', rfl⟩
    | succ i =>
      rw [List.getElem?_cons_succ] at hs
      obtain ⟨g1, g2⟩ := h2 i s hs
      exact ⟨g1, by omega⟩

theorem iterate_static {rule : Rule N} (hsingle : ∀ hist, (rule hist).card ≤ 1)
    (hstop : ∀ p hist, hist ≠ [] → rule hist = ∅ → rule (p :: hist) = ∅) :
    ∀ (k : Nat) {hist : List (Fin N × ℝ)} {A D : Finset (Fin N)} {x : Fin N → ℝ}, A ⊆ D → A.Nonempty → Fresh rule k hist A D →
      A.card + Dᶜ.card ≤ k →
      ∃ d, (iterate rule k hist A x).length = d + A.card ∧
      ∀ (i : Nat) s, (iterate rule k hist A x)[i]? = some s →
        (i < d → s.born.card = 1 ∧ s.alive = A.card) ∧ (d ≤ i → s.born = ∅ ∧ s.alive = d + A.card - i)
  | 0, hist, A, D, x, _, hA, _, hk => by
    have := Finset.card_pos.mpr hA
    omega
  | k + 1, hist, A, D, x, hAD, hA, hf, hk => by
    have ht := tops_nonempty hA x
    have ha : (tops A x).min' ht ∈ A := min'_mem_of_tops ht
    have hpos := Finset.card_pos.mpr hA
    rw [iterate_succ rfl ht]
    set a := (tops A x).min' ht with ha'
    obtain ⟨hd, hf⟩ := hf a ha (x a)
    set S := rule ((a, x a) :: hist) with hS
    by_cases hS0 : S = ∅
    · have hc : (A.erase a ∪ S).card = A.card - 1 := by
        rw [hS0, Finset.union_empty, Finset.card_erase_of_mem ha]
      obtain ⟨h1, h2⟩ := iterate_stopped hstop k (hist := (a, x a) :: hist) (A := A.erase a ∪ S)
        (x := fun b => if b ∈ S then x a * x b else x b) (by simp) (hS ▸ hS0) (by omega)
      refine ⟨0, by rw [List.length_cons, h1]; omega, ?_⟩
      intro i s hs
      refine ⟨by omega, fun _ => ?_⟩
      cases i with
      | zero =>
        rw [List.getElem?_cons_zero, Option.some.injEq] at hs
        subst hs
        exact ⟨hS0, by simp⟩
      | succ i =>
        rw [List.getElem?_cons_succ] at hs
        obtain ⟨g1, g2⟩ := h2 i s hs
        exact ⟨g1, by omega⟩
    · have hS1 : S.card = 1 := by
        have h1 := hsingle ((a, x a) :: hist)
        have h2 := Finset.card_pos.mpr (Finset.nonempty_iff_ne_empty.mpr hS0)
        rw [← hS] at h1
        omega
      have hSA : Disjoint (A.erase a) S := Finset.disjoint_left.mpr fun b hb hbS =>
        Finset.disjoint_left.mp hd hbS (hAD (Finset.mem_of_mem_erase hb))
      have hc : (A.erase a ∪ S).card = A.card := by
        rw [Finset.card_union_of_disjoint hSA, Finset.card_erase_of_mem ha]
        omega
      have hDc : ((D ∪ S)ᶜ).card + 1 = Dᶜ.card := by
        rw [Finset.card_compl, Finset.card_compl, Finset.card_union_of_disjoint hd.symm, hS1]
        have := Finset.card_le_univ (D ∪ S)
        rw [Finset.card_union_of_disjoint hd.symm, hS1] at this
        omega
      obtain ⟨d, h1, h2⟩ := iterate_static hsingle hstop k (hist := (a, x a) :: hist) (A := A.erase a ∪ S) (D := D ∪ S)
        (x := fun b => if b ∈ S then x a * x b else x b)
        (Finset.union_subset_union ((Finset.erase_subset _ _).trans hAD) (Finset.Subset.refl _))
        (Finset.card_pos.mp (by omega)) hf (by omega)
      rw [hc] at h1 h2
      refine ⟨d + 1, by rw [List.length_cons, h1]; omega, ?_⟩
      intro i s hs
      cases i with
      | zero =>
        rw [List.getElem?_cons_zero, Option.some.injEq] at hs
        subst hs
        exact ⟨fun _ => ⟨hS1, rfl⟩, by omega⟩
      | succ i =>
        rw [List.getElem?_cons_succ] at hs
        obtain ⟨g1, g2⟩ := h2 i s hs
        refine ⟨fun hi => g1 (by omega), fun hi => ?_⟩
        obtain ⟨g3, g4⟩ := g2 (by omega)
        exact ⟨g3, by omega⟩

/-- A sampler with `n` live points: the first `d` points are replaced, the last `n` are not. -/
theorem removals_static {rule : Rule N} {start : Finset (Fin N)} (hs : StaticSchedule rule start) (u : Fin N → ℝ) :
    ∃ d, (removals rule start u).length = d + start.card ∧
      ∀ (i : Nat) s, (removals rule start u)[i]? = some s →
        (i < d → s.born.card = 1 ∧ s.alive = start.card) ∧ (d ≤ i → s.born = ∅ ∧ s.alive = d + start.card - i) := by
  refine iterate_static hs.single hs.stops N (Finset.Subset.refl _) hs.nonempty hs.fresh ?_
  rw [Finset.card_compl, Fintype.card_fin]
  have := Finset.card_le_univ start
  rw [Fintype.card_fin] at this
  omega

/-! ### Which point is born where -/

/-- Every point is removed at most once, and was drawn either at the beginning or, in one earlier iteration, as a replacement. -/
structure Lives (A D : Finset (Fin N)) (l : List (Removal N)) : Prop where
  once : ∀ (i j : Nat) (s t : Removal N), l[i]? = some s → l[j]? = some t → s.point = t.point → i = j
  from_new : ∀ s ∈ l, s.point ∈ A ∨ s.point ∉ D
  origin : ∀ (i : Nat) (s : Removal N), l[i]? = some s → s.point ∈ A ∨ ∃ j < i, ∃ t : Removal N, l[j]? = some t ∧ s.point ∈ t.born
  fresh : ∀ s ∈ l, Disjoint s.born D
  parent : ∀ (i j : Nat) (s t : Removal N), l[i]? = some s → l[j]? = some t → ¬ Disjoint s.born t.born → i = j

theorem iterate_lives {rule : Rule N} : ∀ (k : Nat) {hist : List (Fin N × ℝ)} {A D : Finset (Fin N)} {x : Fin N → ℝ}, A ⊆ D →
    Fresh rule k hist A D → Lives A D (iterate rule k hist A x)
  | 0, hist, A, D, x, _, _ => by
    constructor <;> simp [iterate]
  | k + 1, hist, A, D, x, hAD, hf => by
    by_cases hA : A.Nonempty
    swap
    · rw [iterate_empty (tops_empty hA)]
      constructor <;> simp
    have ht := tops_nonempty hA x
    have ha : (tops A x).min' ht ∈ A := min'_mem_of_tops ht
    rw [iterate_succ rfl ht]
    set a := (tops A x).min' ht with ha'
    obtain ⟨hd, hf⟩ := hf a ha (x a)
    set S := rule ((a, x a) :: hist) with hS
    have ih := iterate_lives k (x := fun b => if b ∈ S then x a * x b else x b)
      (Finset.union_subset_union ((Finset.erase_subset _ _).trans hAD) (Finset.Subset.refl _)) hf
    set l := iterate rule k ((a, x a) :: hist) (A.erase a ∪ S) (fun b => if b ∈ S then x a * x b else x b) with hl
    have hSD : ∀ b ∈ S, b ∉ D := fun b hb => Finset.disjoint_left.mp hd hb
    have hnew : ∀ s ∈ l, s.point ≠ a := by
      intro s hs e
      rcases ih.from_new s hs with h | h
      · rw [e] at h
        rcases Finset.mem_union.mp h with h | h
        · exact Finset.notMem_erase a A h
        · exact hSD a h (hAD ha)
      · rw [e] at h
        exact h (Finset.mem_union_left _ (hAD ha))
    have hdis : ∀ s ∈ l, Disjoint s.born S ∧ Disjoint s.born D := fun s hs =>
      ⟨Finset.disjoint_of_subset_right Finset.subset_union_right (ih.fresh s hs),
        Finset.disjoint_of_subset_right Finset.subset_union_left (ih.fresh s hs)⟩
    constructor
    · intro i j s t hi hj e
      cases i with
      | zero =>
        rw [List.getElem?_cons_zero, Option.some.injEq] at hi
        cases j with
        | zero => rfl
        | succ j =>
          rw [List.getElem?_cons_succ] at hj
          subst hi
          exact absurd e.symm (hnew t (List.mem_of_getElem? hj))
      | succ i =>
        rw [List.getElem?_cons_succ] at hi
        cases j with
        | zero =>
          rw [List.getElem?_cons_zero, Option.some.injEq] at hj
          subst hj
          exact absurd e (hnew s (List.mem_of_getElem? hi))
        | succ j =>
          rw [List.getElem?_cons_succ] at hj
          rw [ih.once i j s t hi hj e]
    · intro s hs
      rcases List.mem_cons.mp hs with rfl | hs
      · exact .inl ha
      · rcases ih.from_new s hs with h | h
        · rcases Finset.mem_union.mp h with h | h
          · exact .inl (Finset.mem_of_mem_erase h)
          · exact .inr (hSD _ h)
        · exact .inr fun hD => h (Finset.mem_union_left _ hD)
    · intro i s hi
      cases i with
      | zero =>
        rw [List.getElem?_cons_zero, Option.some.injEq] at hi
        subst hi
        exact .inl ha
      | succ i =>
        rw [List.getElem?_cons_succ] at hi
        rcases ih.origin i s hi with h | ⟨j, hj, t, h1, h2⟩
        · rcases Finset.mem_union.mp h with h | h
          · exact .inl (Finset.mem_of_mem_erase h)
          · exact .inr ⟨0, by omega, _, List.getElem?_cons_zero, h⟩
        · exact .inr ⟨j + 1, by omega, t, by rw [List.getElem?_cons_succ]; exact h1, h2⟩
    · intro s hs
      rcases List.mem_cons.mp hs with rfl | hs
      · exact hd
      · exact (hdis s hs).2
    · intro i j s t hi hj e
      cases i with
      | zero =>
        rw [List.getElem?_cons_zero, Option.some.injEq] at hi
        cases j with
        | zero => rfl
        | succ j =>
          rw [List.getElem?_cons_succ] at hj
          subst hi
          exact absurd (hdis t (List.mem_of_getElem? hj)).1.symm e
      | succ i =>
        rw [List.getElem?_cons_succ] at hi
        cases j with
        | zero =>
          rw [List.getElem?_cons_zero, Option.some.injEq] at hj
          subst hj
          exact absurd (hdis s (List.mem_of_getElem? hi)).1 e
        | succ j =>
          rw [List.getElem?_cons_succ] at hj
          rw [ih.parent i j s t hi hj e]

/-! ### The birth contours -/

/-- Something that is known of the points drawn at the beginning and passed on, in a changed form, by each removed point to the points
which replace it: what is known of the points removed. -/
def inherit {α : Type*} (pass : α → Removal N → α) : (Fin N → α) → List (Removal N) → List α
  | _, [] => []
  | f, s :: l => f s.point :: inherit pass (fun b => if b ∈ s.born then pass (f s.point) s else f b) l

theorem inherit_length {α : Type*} (pass : α → Removal N → α) : ∀ (f : Fin N → α) (l : List (Removal N)),
    (inherit pass f l).length = l.length
  | _, [] => rfl
  | f, s :: l => by rw [inherit, List.length_cons, List.length_cons, inherit_length pass]

theorem inherit_initial {α : Type*} (pass : α → Removal N → α) : ∀ {f : Fin N → α} {l : List (Removal N)} {i : Nat} {s : Removal N},
    l[i]? = some s → (∀ (j : Nat) (t : Removal N), j < i → l[j]? = some t → s.point ∉ t.born) →
    (inherit pass f l)[i]? = some (f s.point)
  | f, [], i, s, h, _ => by simp at h
  | f, t :: l, 0, s, h, _ => by
    rw [List.getElem?_cons_zero, Option.some.injEq] at h
    subst h
    rfl
  | f, t :: l, i + 1, s, h, hn => by
    rw [List.getElem?_cons_succ] at h
    rw [inherit, List.getElem?_cons_succ, inherit_initial pass h fun j t hj ht => hn (j + 1) t (by omega) ht,
      if_neg (hn 0 t (by omega) rfl)]

theorem inherit_born {α : Type*} (pass : α → Removal N → α) : ∀ {f : Fin N → α} {l : List (Removal N)} {i j : Nat} {s t : Removal N},
    l[i]? = some s → l[j]? = some t → j < i → s.point ∈ t.born →
    (∀ (m : Nat) (t : Removal N), j < m → m < i → l[m]? = some t → s.point ∉ t.born) →
    (inherit pass f l)[i]? = ((inherit pass f l)[j]?).map (pass · t)
  | f, [], i, j, s, t, h, _, _, _, _ => by simp at h
  | f, q :: l, 0, j, s, t, _, _, hj, _, _ => by omega
  | f, q :: l, i + 1, 0, s, t, h, ht, _, hb, hn => by
    rw [List.getElem?_cons_succ] at h
    rw [List.getElem?_cons_zero, Option.some.injEq] at ht
    subst ht
    rw [inherit, List.getElem?_cons_succ, List.getElem?_cons_zero,
      inherit_initial pass h fun m t hm ht => hn (m + 1) t (by omega) (by omega) ht, if_pos hb]
    rfl
  | f, q :: l, i + 1, j + 1, s, t, h, ht, hji, hb, hn => by
    rw [List.getElem?_cons_succ] at h ht
    rw [inherit, List.getElem?_cons_succ, List.getElem?_cons_succ]
    exact inherit_born pass h ht (by omega) hb fun m t h1 h2 h3 => hn (m + 1) t (by omega) (by omega) h3

theorem Lives.initial {α : Type*} {pass : α → Removal N → α} {A D : Finset (Fin N)} {l : List (Removal N)} (h : Lives A D l) (hAD : A ⊆ D)
    {f : Fin N → α} {i : Nat} {s : Removal N} (hi : l[i]? = some s) (hs : s.point ∈ A) : (inherit pass f l)[i]? = some (f s.point) :=
  inherit_initial pass hi fun j t _ ht hb => Finset.disjoint_left.mp (h.fresh t (List.mem_of_getElem? ht)) hb (hAD hs)

theorem Lives.lt {A D : Finset (Fin N)} {l : List (Removal N)} (h : Lives A D l) (hAD : A ⊆ D) {i j : Nat} {s t : Removal N}
    (hi : l[i]? = some s) (hj : l[j]? = some t) (hb : s.point ∈ t.born) : j < i := by
  rcases h.origin i s hi with ha | ⟨m, hm, q, hq, hqb⟩
  · exact absurd (hAD ha) (Finset.disjoint_left.mp (h.fresh t (List.mem_of_getElem? hj)) hb)
  · rw [h.parent j m t q hj hq (Finset.not_disjoint_iff.mpr ⟨_, hb, hqb⟩)]
    exact hm

theorem Lives.passed {α : Type*} {pass : α → Removal N → α} {A D : Finset (Fin N)} {l : List (Removal N)} (h : Lives A D l) (hAD : A ⊆ D)
    {f : Fin N → α} {i j : Nat} {s t : Removal N} (hi : l[i]? = some s) (hj : l[j]? = some t) (hb : s.point ∈ t.born) :
    (inherit pass f l)[i]? = ((inherit pass f l)[j]?).map (pass · t) :=
  inherit_born pass hi hj (h.lt hAD hi hj hb) hb fun m q h1 _ hq hbq => by
    have := h.parent j m t q hj hq (Finset.not_disjoint_iff.mpr ⟨_, hb, hbq⟩)
    omega

end
end Nestcheck
