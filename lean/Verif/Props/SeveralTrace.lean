import Verif.Spec.Several
import Verif.Props.PosteriorRun

/-! C108: several adaptive samplers are one adaptive sampler. -/

namespace Nestcheck
open Spec MeasureTheory
variable {m : Nat} {n : Fin m → Nat} {N : Nat} {E : Type}

noncomputable section

/-! ### The points of the samplers -/

/-- The number of the point `b` of sampler `i` among the points of all samplers. -/
def idx (i : Fin m) (b : Fin (n i)) : Fin (∑ i, n i) := finSigmaFinEquiv ⟨i, b⟩

/-- The sampler to which a point belongs. -/
def ownerOf (j : Fin (∑ i, n i)) : Fin m := (finSigmaFinEquiv.symm j).1

theorem ownerOf_idx (i : Fin m) (b : Fin (n i)) : ownerOf (idx i b) = i := by simp [ownerOf, idx]

theorem exists_idx (j : Fin (∑ i, n i)) : ∃ (i : Fin m) (b : Fin (n i)), idx i b = j :=
  ⟨(finSigmaFinEquiv.symm j).1, (finSigmaFinEquiv.symm j).2, by simp [idx]⟩

theorem idx_injective (i : Fin m) : Function.Injective (idx (n := n) i) := by
  intro a b h
  have := finSigmaFinEquiv.injective h
  simpa using this

theorem idx_le_iff (i : Fin m) (a b : Fin (n i)) : idx i a ≤ idx i b ↔ a ≤ b := by
  rw [Fin.le_def, Fin.le_def]
  unfold idx
  rw [finSigmaFinEquiv_apply, finSigmaFinEquiv_apply]
  simp

theorem together_idx {α : Type} (f : ∀ i, Fin (n i) → α) (i : Fin m) (b : Fin (n i)) : together f (idx i b) = f i b := by
  unfold together idx
  rw [Equiv.symm_apply_apply]

open Classical in
/-- The point of sampler `i` with this number, if there is one. -/
def own (i : Fin m) (j : Fin (∑ i, n i)) : Option (Fin (n i)) := if h : ∃ b, idx i b = j then some h.choose else none

theorem own_idx (i : Fin m) (b : Fin (n i)) : own i (idx i b) = some b := by
  unfold own
  have h : ∃ c, idx i c = idx i b := ⟨b, rfl⟩
  rw [dif_pos h, idx_injective i h.choose_spec]

theorem own_none {i : Fin m} {j : Fin (∑ i, n i)} (h : ownerOf j ≠ i) : own i j = none := by
  unfold own
  rw [dif_neg]
  rintro ⟨b, rfl⟩
  exact h (ownerOf_idx i b)

theorem own_some {i : Fin m} {j : Fin (∑ i, n i)} {b : Fin (n i)} (h : own i j = some b) : idx i b = j := by
  unfold own at h
  split_ifs at h with h1
  rw [← Option.some.inj h]
  exact h1.choose_spec

/-- The part of a history which belongs to sampler `i`. -/
def ownHist (i : Fin m) (hist : List (Fin (∑ i, n i) × ℝ)) : List (Fin (n i) × ℝ) :=
  hist.filterMap (fun p => (own i p.1).map (fun b => (b, p.2)))

/-- The points of sampler `i` in a set. -/
def ownSet (i : Fin m) (A : Finset (Fin (∑ i, n i))) : Finset (Fin (n i)) := Finset.univ.filter (fun b => idx i b ∈ A)

/-- The samplers side by side: the sampler whose point is removed decides which points are drawn. -/
def sideBySide (rule : ∀ i, Rule (n i)) : Rule (∑ i, n i)
  | [] => ∅
  | p :: hist => (rule (ownerOf p.1) (ownHist (ownerOf p.1) (p :: hist))).image (idx (ownerOf p.1))

/-- The starting points of all samplers. -/
def startOfAll (start : ∀ i, Finset (Fin (n i))) : Finset (Fin (∑ i, n i)) :=
  Finset.univ.filter (fun j => (finSigmaFinEquiv.symm j).2 ∈ start (finSigmaFinEquiv.symm j).1)

theorem mem_ownSet {i : Fin m} {A : Finset (Fin (∑ i, n i))} {b : Fin (n i)} : b ∈ ownSet i A ↔ idx i b ∈ A := by simp [ownSet]

theorem ownSet_start (start : ∀ i, Finset (Fin (n i))) (i : Fin m) : ownSet i (startOfAll start) = start i := by
  ext b
  rw [mem_ownSet, startOfAll, Finset.mem_filter, idx, Equiv.symm_apply_apply]
  simp

theorem ownHist_own (i : Fin m) (a : Fin (n i)) (t : ℝ) (hist : List (Fin (∑ i, n i) × ℝ)) :
    ownHist i ((idx i a, t) :: hist) = (a, t) :: ownHist i hist := by
  unfold ownHist
  rw [List.filterMap_cons, own_idx]
  rfl

theorem ownHist_other {i j : Fin m} (h : i ≠ j) (a : Fin (n i)) (t : ℝ) (hist : List (Fin (∑ i, n i) × ℝ)) :
    ownHist j ((idx i a, t) :: hist) = ownHist j hist := by
  unfold ownHist
  rw [List.filterMap_cons, own_none (by rwa [ownerOf_idx])]
  rfl

theorem sideBySide_cons (rule : ∀ i, Rule (n i)) (i : Fin m) (a : Fin (n i)) (t : ℝ) (hist : List (Fin (∑ i, n i) × ℝ)) :
    sideBySide rule ((idx i a, t) :: hist) = (rule i ((a, t) :: ownHist i hist)).image (idx i) := by
  have h : ∀ o, o = i → (rule o (ownHist o ((idx i a, t) :: hist))).image (idx o) = (rule i ((a, t) :: ownHist i hist)).image (idx i) := by
    rintro _ rfl
    rw [ownHist_own]
  exact h _ (ownerOf_idx i a)

theorem ownSet_image (i : Fin m) (S : Finset (Fin (n i))) : ownSet i (S.image (idx i)) = S := by
  ext b
  rw [mem_ownSet, Finset.mem_image]
  constructor
  · rintro ⟨c, hc, h⟩
    rwa [← idx_injective i h]
  · exact fun h => ⟨b, h, rfl⟩

theorem idx_ne {i j : Fin m} (h : i ≠ j) (a : Fin (n i)) (b : Fin (n j)) : idx i a ≠ idx j b := fun e => by
  have := congrArg ownerOf e
  rw [ownerOf_idx, ownerOf_idx] at this
  exact h this

theorem ownSet_image_other {i j : Fin m} (h : i ≠ j) (S : Finset (Fin (n i))) : ownSet j (S.image (idx i)) = ∅ := by
  refine Finset.eq_empty_of_forall_notMem fun b hb => ?_
  rw [mem_ownSet, Finset.mem_image] at hb
  obtain ⟨c, _, e⟩ := hb
  exact idx_ne h c b e

theorem ownSet_union (i : Fin m) (A B : Finset (Fin (∑ i, n i))) : ownSet i (A ∪ B) = ownSet i A ∪ ownSet i B := by
  ext b
  simp [mem_ownSet]

theorem ownSet_erase (i : Fin m) (A : Finset (Fin (∑ i, n i))) (a : Fin (n i)) : ownSet i (A.erase (idx i a)) = (ownSet i A).erase a := by
  ext b
  simp only [mem_ownSet, Finset.mem_erase, ne_eq]
  rw [(idx_injective i).eq_iff]

theorem ownSet_erase_other {i j : Fin m} (h : i ≠ j) (A : Finset (Fin (∑ i, n i))) (a : Fin (n i)) :
    ownSet j (A.erase (idx i a)) = ownSet j A := by
  ext b
  simp only [mem_ownSet, Finset.mem_erase, ne_eq]
  exact ⟨fun h => h.2, fun hb => ⟨fun e => idx_ne h a b e.symm, hb⟩⟩

theorem ownSet_compl (i : Fin m) (A : Finset (Fin (∑ i, n i))) : ownSet i Aᶜ = (ownSet i A)ᶜ := by
  ext b
  simp [mem_ownSet]

theorem disjoint_own {i : Fin m} {S : Finset (Fin (n i))} {D : Finset (Fin (∑ i, n i))} (h : Disjoint S (ownSet i D)) :
    Disjoint (S.image (idx i)) D := by
  rw [Finset.disjoint_left]
  intro b hb hD
  obtain ⟨c, hc, rfl⟩ := Finset.mem_image.mp hb
  exact Finset.disjoint_left.mp h hc (mem_ownSet.mpr hD)

theorem card_step {A D S : Finset (Fin N)} {a : Fin N} (ha : a ∈ A) (hd : Disjoint S D) {k : Nat} (hk : A.card + Dᶜ.card ≤ k + 1) :
    (A.erase a ∪ S).card + (D ∪ S)ᶜ.card ≤ k := by
  have h1 := Finset.card_union_le (A.erase a) S
  rw [Finset.card_erase_of_mem ha] at h1
  have h2 : (D ∪ S).card = D.card + S.card := Finset.card_union_of_disjoint hd.symm
  have h3 := Finset.card_pos.mpr ⟨a, ha⟩
  rw [Finset.card_compl] at hk ⊢
  have h4 := Finset.card_le_univ (D ∪ S)
  simp only [Fintype.card_fin] at hk h4 ⊢
  omega

/-- None of the samplers draws a point twice. -/
theorem sideBySide_fresh {rule : ∀ i, Rule (n i)} : ∀ (k : Nat) {hist : List (Fin (∑ i, n i) × ℝ)} {A D : Finset (Fin (∑ i, n i))} {ks : Fin m → Nat},
    (∀ i, Fresh (rule i) (ks i) (ownHist i hist) (ownSet i A) (ownSet i D)) → (∀ i, (ownSet i A).card + (ownSet i D)ᶜ.card ≤ ks i) →
    Fresh (sideBySide rule) k hist A D
  | 0, _, _, _, _, _, _ => trivial
  | k + 1, hist, A, D, ks, hf, hk => by
    intro a ha t
    obtain ⟨i, b, rfl⟩ := exists_idx a
    have hbA := mem_ownSet.mpr ha
    have hpos : 0 < ks i := lt_of_lt_of_le (by have := Finset.card_pos.mpr ⟨b, hbA⟩; omega) (hk i)
    obtain ⟨k', hk'⟩ := Nat.exists_eq_succ_of_ne_zero hpos.ne'
    have hfi := hf i
    rw [hk'] at hfi
    obtain ⟨h1, h2⟩ := hfi b hbA t
    rw [sideBySide_cons]
    refine ⟨disjoint_own h1, sideBySide_fresh k (ks := Function.update ks i k') (fun j => ?_) (fun j => ?_)⟩
    · by_cases hj : i = j
      · subst hj
        rw [Function.update_self, ownHist_own, ownSet_union, ownSet_union, ownSet_image, ownSet_erase]
        exact h2
      · rw [Function.update_of_ne (Ne.symm hj), ownHist_other hj, ownSet_union, ownSet_union, ownSet_image_other hj, ownSet_erase_other hj,
          Finset.union_empty, Finset.union_empty]
        exact hf j
    · by_cases hj : i = j
      · subst hj
        rw [Function.update_self, ownSet_union, ownSet_union, ownSet_image, ownSet_erase]
        exact card_step hbA h1 (by rw [← Nat.succ_eq_add_one, ← hk']; exact hk i)
      · rw [Function.update_of_ne (Ne.symm hj), ownSet_union, ownSet_union, ownSet_image_other hj, ownSet_erase_other hj,
          Finset.union_empty, Finset.union_empty]
        exact hk j

/-! ### Measurability -/

theorem exists_select (i : Fin m) : ∀ points : List (Fin (∑ i, n i)), ∃ (pts : List (Fin (n i))) (sel : Fin pts.length → Fin points.length),
    ∀ v : Fin points.length → ℝ, ownHist i (points.zip (List.ofFn v)) = pts.zip (List.ofFn (v ∘ sel))
  | [] => ⟨[], fun p => p.elim0, fun v => by simp [ownHist]⟩
  | p :: points => by
    obtain ⟨pts, sel, h⟩ := exists_select i points
    cases ho : own i p with
    | none =>
      refine ⟨pts, fun s => (sel s).succ, fun v => ?_⟩
      have h1 := h (fun s => v s.succ)
      change ownHist i ((p :: points).zip (List.ofFn (n := points.length + 1) v)) = _
      rw [List.ofFn_succ, List.zip_cons_cons]
      unfold ownHist at h1 ⊢
      rw [List.filterMap_cons, ho]
      exact h1
    | some b =>
      refine ⟨b :: pts, Fin.cons (α := fun _ => Fin (points.length + 1)) 0 (fun s => (sel s).succ), fun v => ?_⟩
      have h1 := h (fun s => v s.succ)
      change ownHist i ((p :: points).zip (List.ofFn (n := points.length + 1) v)) = (b :: pts).zip (List.ofFn (n := pts.length + 1) _)
      rw [List.ofFn_succ, List.ofFn_succ, List.zip_cons_cons, List.zip_cons_cons]
      unfold ownHist at h1 ⊢
      rw [List.filterMap_cons, ho]
      simp only [Option.map_some]
      rw [h1]
      congr 1

theorem sideBySide_measurable {rule : ∀ i, Rule (n i)} (h : ∀ i, MeasurableRule (rule i)) : MeasurableRule (sideBySide rule) := by
  intro points S
  cases points with
  | nil =>
    by_cases hS : (∅ : Finset (Fin (∑ i, n i))) = S
    · simp [sideBySide, hS]
    · simp [sideBySide, hS]
  | cons p points =>
    obtain ⟨pts, sel, hsel⟩ := exists_select (ownerOf p) (p :: points)
    have e : {v : Fin (p :: points).length → ℝ | sideBySide rule ((p :: points).zip (List.ofFn v)) = S} =
        ⋃ T ∈ {T : Finset (Fin (n (ownerOf p))) | T.image (idx (ownerOf p)) = S},
          (fun v : Fin (p :: points).length → ℝ => v ∘ sel) ⁻¹' {v | rule (ownerOf p) (pts.zip (List.ofFn v)) = T} := by
      ext v
      have h1 : sideBySide rule ((p :: points).zip (List.ofFn v)) =
          (rule (ownerOf p) (ownHist (ownerOf p) ((p :: points).zip (List.ofFn v)))).image (idx (ownerOf p)) := by
        change sideBySide rule ((p :: points).zip (List.ofFn (n := points.length + 1) v)) = (rule (ownerOf p) (ownHist (ownerOf p) ((p :: points).zip (List.ofFn (n := points.length + 1) v)))).image (idx (ownerOf p))
        rw [List.ofFn_succ, List.zip_cons_cons]
        rfl
      simp only [Set.mem_ofPred_eq, h1, hsel, Set.mem_iUnion, Set.mem_preimage, exists_prop]
      exact ⟨fun h => ⟨_, h, rfl⟩, fun ⟨T, hT, e⟩ => by rw [e]; exact hT⟩
    rw [e]
    refine MeasurableSet.biUnion (Set.to_countable _) fun T _ => ?_
    refine measurableSet_preimage ?_ (h (ownerOf p) pts T)
    exact measurable_pi_lambda _ fun s => measurable_pi_apply (sel s)

theorem sideBySide_stopping [NeZero m] {rule : ∀ i, Rule (n i)} {start : ∀ i, Finset (Fin (n i))} (hs : ∀ i, StoppingSchedule (rule i) (start i)) :
    StoppingSchedule (sideBySide rule) (startOfAll start) where
  nonempty := by
    obtain ⟨b, hb⟩ := (hs 0).nonempty
    exact ⟨idx 0 b, mem_ownSet.mp (by rwa [ownSet_start])⟩
  measurable := sideBySide_measurable fun i => (hs i).measurable
  fresh := by
    refine sideBySide_fresh _ (ks := n) (fun i => ?_) (fun i => ?_)
    · rw [ownSet_start]
      exact (hs i).fresh
    · rw [ownSet_start, Finset.card_add_card_compl, Fintype.card_fin]

end

end Nestcheck
