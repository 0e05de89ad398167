import Verif.Props.Blind
import Verif.Spec.Combined

/-! Several samplers side by side, as one sampler whose decisions depend on the order of the removals only. -/

namespace Nestcheck
open Spec
variable {N : Nat}

noncomputable section

theorem liveCounts_getD : ∀ (adds : List Nat) (n d : Nat), (∀ m ∈ liveCounts n adds, 0 < m) → d < adds.length →
    (liveCounts n adds).getD d 0 + d = n + (adds.take d).sum
  | [], _, _, _, h => by simp at h
  | k :: ks, n, 0, _, _ => by simp [liveCounts]
  | k :: ks, n, d + 1, hp, h => by
    have hn : 0 < n := hp n (by simp [liveCounts])
    have ih := liveCounts_getD ks (n - 1 + k) d (fun m hm => hp m (by simp [liveCounts, hm])) (by simpa using h)
    simp only [liveCounts, List.getD_cons_succ, List.take_succ_cons, List.sum_cons]
    omega

theorem liveCounts_lt {adds : List Nat} {n d : Nat} (hp : ∀ m ∈ liveCounts n adds, 0 < m) (hd : d < adds.length) :
    d < n + (adds.take d).sum := by
  have h := liveCounts_getD adds n d hp hd
  have hl : d < (liveCounts n adds).length := by rw [liveCounts_length]; exact hd
  have := hp _ (List.getElem_mem hl)
  rw [List.getD_eq_getElem?_getD, List.getElem?_eq_getElem hl, Option.getD_some] at h
  omega

/-- `m` samplers which share the points `Fin N`: sampler `i` starts with `n i` points, adds `adds i` points, and draws the points `idx i`
one after the other. -/
structure Layout (N m : Nat) (n : Nat → Nat) (adds : Nat → List Nat) (idx : Nat → List (Fin N)) (owner : Fin N → Nat) : Prop where
  some_sampler : 0 < m
  schedule : ∀ i < m, VolumeSchedule (n i) (adds i)
  length : ∀ i < m, (idx i).length = n i + (adds i).sum
  nodup : ∀ i < m, (idx i).Nodup
  own : ∀ i < m, ∀ p ∈ idx i, owner p = i
  lt : ∀ p, owner p < m
  mem : ∀ p, p ∈ idx (owner p)

/-- How many points sampler `i` has drawn after `d` of its iterations. -/
def drawn (n : Nat → Nat) (adds : Nat → List Nat) (i d : Nat) : Nat := n i + ((adds i).take d).sum

/-- The points sampler `i` draws in its iteration number `d`. -/
def batch (n : Nat → Nat) (adds : Nat → List Nat) (idx : Nat → List (Fin N)) (i d : Nat) : List (Fin N) :=
  ((idx i).drop (drawn n adds i d)).take ((adds i).getD d 0)

/-- The joint rule: the sampler whose point has been removed draws its next points. -/
def joint (n : Nat → Nat) (adds : Nat → List Nat) (idx : Nat → List (Fin N)) (owner : Fin N → Nat) : List (Fin N) → Finset (Fin N)
  | [] => ∅
  | a :: rest => (batch n adds idx (owner a) (rest.countP (fun p => decide (owner p = owner a)))).toFinset

/-- The points with which the samplers start. -/
def jointStart (n : Nat → Nat) (idx : Nat → List (Fin N)) (owner : Fin N → Nat) : Finset (Fin N) :=
  Finset.univ.filter (fun p => p ∈ (idx (owner p)).take (n (owner p)))

/-- How often sampler `i` has removed a point. -/
def removed (owner : Fin N → Nat) (is : List (Fin N)) (i : Nat) : Nat := is.countP (fun p => decide (owner p = i))

section
variable {m : Nat} {n : Nat → Nat} {adds : Nat → List Nat} {idx : Nat → List (Fin N)} {owner : Fin N → Nat}

theorem drawn_succ {i d : Nat} (hd : d < (adds i).length) : drawn n adds i (d + 1) = drawn n adds i d + (adds i).getD d 0 := by
  unfold drawn
  rw [List.take_add_one, List.getElem?_eq_getElem hd, List.sum_append, List.getD_eq_getElem?_getD, List.getElem?_eq_getElem hd]
  simp
  omega

theorem drawn_le {i : Nat} (d : Nat) : drawn n adds i d ≤ n i + (adds i).sum := by
  unfold drawn
  have := List.sum_take_add_sum_drop (adds i) d
  omega

/-- The state of the samplers after the removals `is`. -/
structure Joint (m : Nat) (n : Nat → Nat) (adds : Nat → List Nat) (idx : Nat → List (Fin N)) (owner : Fin N → Nat) (is : List (Fin N))
    (A D : Finset (Fin N)) : Prop where
  drawn : ∀ p, p ∈ D ↔ p ∈ (idx (owner p)).take (drawn n adds (owner p) (removed owner is (owner p)))
  sub : A ⊆ D
  card : ∀ i < m, (A.filter (fun p => owner p = i)).card + removed owner is i = Nestcheck.drawn n adds i (removed owner is i)

variable (L : Layout N m n adds idx owner)
include L

theorem Layout.fiber {i : Nat} (hi : i < m) : Finset.univ.filter (fun p => owner p = i) = (idx i).toFinset := by
  ext p
  simp only [Finset.mem_filter, Finset.mem_univ, true_and, List.mem_toFinset]
  exact ⟨fun h => h ▸ L.mem p, L.own i hi p⟩

theorem Layout.total : ∑ i ∈ Finset.range m, (n i + (adds i).sum) = N := by
  have h := Finset.card_eq_sum_card_fiberwise (s := (Finset.univ : Finset (Fin N))) (t := Finset.range m) (f := owner)
    (fun p _ => by simpa using L.lt p)
  rw [Finset.card_univ, Fintype.card_fin] at h
  rw [h]
  refine Finset.sum_congr rfl fun i hi => ?_
  have hi := Finset.mem_range.mp hi
  rw [L.fiber hi, List.toFinset_card_of_nodup (L.nodup i hi), L.length i hi]

theorem Layout.sum_removed (is : List (Fin N)) : ∑ i ∈ Finset.range m, removed owner is i = is.length := by
  induction is with
  | nil => simp [removed]
  | cons a is ih =>
    have : ∀ i, removed owner (a :: is) i = removed owner is i + if owner a = i then 1 else 0 := by
      intro i
      unfold removed
      rw [List.countP_cons]
      simp
    simp only [this, Finset.sum_add_distrib, ih, Finset.sum_ite_eq, Finset.mem_range, L.lt a, if_true, List.length_cons]

theorem Layout.start : Joint m n adds idx owner [] (jointStart n idx owner) (jointStart n idx owner) := by
  refine ⟨fun p => by simp [jointStart, removed, Nestcheck.drawn], Finset.Subset.refl _, fun i hi => ?_⟩
  have : (jointStart n idx owner).filter (fun p => owner p = i) = ((idx i).take (n i)).toFinset := by
    ext p
    simp only [jointStart, Finset.mem_filter, Finset.mem_univ, true_and, List.mem_toFinset]
    constructor
    · rintro ⟨h, rfl⟩; exact h
    · intro h
      have := L.own i hi p (List.mem_of_mem_take h)
      exact ⟨by rw [this]; exact h, this⟩
  rw [this, List.toFinset_card_of_nodup ((L.nodup i hi).sublist (List.take_sublist _ _)), List.length_take, L.length i hi]
  simp [removed, Nestcheck.drawn]

theorem Layout.removed_lt {is : List (Fin N)} {A D : Finset (Fin N)} (J : Joint m n adds idx owner is A D) {a : Fin N} (ha : a ∈ A) :
    removed owner is (owner a) < (adds (owner a)).length := by
  have h := J.card (owner a) (L.lt a)
  have hp : 0 < (A.filter (fun p => owner p = owner a)).card := Finset.card_pos.mpr ⟨a, by simp [ha]⟩
  have h2 := drawn_le (n := n) (adds := adds) (i := owner a) (removed owner is (owner a))
  have h3 := (L.schedule _ (L.lt a)).finish
  omega

omit L in
theorem removed_cons (a : Fin N) (is : List (Fin N)) (i : Nat) : removed owner (a :: is) i = removed owner is i + if owner a = i then 1 else 0 := by
  unfold removed
  rw [List.countP_cons]
  simp

theorem Layout.batch_mem {i d : Nat} (hi : i < m) {p : Fin N} (hp : p ∈ batch n adds idx i d) : owner p = i :=
  L.own i hi p (List.mem_of_mem_drop (List.mem_of_mem_take hp))

theorem Layout.batch_disjoint {i d : Nat} (hi : i < m) {p : Fin N} (hp : p ∈ batch n adds idx i d) :
    p ∉ (idx i).take (Nestcheck.drawn n adds i d) := by
  intro h
  have hn := L.nodup i hi
  rw [← List.take_append_drop (Nestcheck.drawn n adds i d) (idx i)] at hn
  exact (List.nodup_append.mp hn).2.2 p h p (List.mem_of_mem_take hp) rfl

theorem Layout.batch_length {i d : Nat} (hi : i < m) (hd : d < (adds i).length) :
    (batch n adds idx i d).length = (adds i).getD d 0 := by
  unfold batch
  rw [List.length_take, List.length_drop, L.length i hi]
  have := drawn_succ (n := n) hd
  have := drawn_le (n := n) (adds := adds) (i := i) (d + 1)
  omega

theorem Layout.batch_nodup {i d : Nat} (hi : i < m) : (batch n adds idx i d).Nodup :=
  (L.nodup i hi).sublist ((List.take_sublist _ _).trans (List.drop_sublist _ _))

theorem Layout.step {is : List (Fin N)} {A D : Finset (Fin N)} (J : Joint m n adds idx owner is A D) {a : Fin N} (ha : a ∈ A) :
    Disjoint (joint n adds idx owner (a :: is)) D ∧
      Joint m n adds idx owner (a :: is) (A.erase a ∪ joint n adds idx owner (a :: is)) (D ∪ joint n adds idx owner (a :: is)) := by
  have hi := L.lt a
  have hd := L.removed_lt J ha
  set i := owner a with hia
  set d := removed owner is i with hdd
  have hS : joint n adds idx owner (a :: is) = (batch n adds idx i d).toFinset := rfl
  have hdis : Disjoint (joint n adds idx owner (a :: is)) D := by
    rw [hS, Finset.disjoint_left]
    intro p hp hD
    have hp := List.mem_toFinset.mp hp
    have ho := L.batch_mem hi hp
    have := (J.drawn p).mp hD
    rw [ho] at this
    exact L.batch_disjoint hi hp this
  refine ⟨hdis, ?_, ?_, ?_⟩
  · intro p
    rw [Finset.mem_union, J.drawn p, hS, List.mem_toFinset, removed_cons]
    by_cases hp : owner p = i
    · rw [hp, ← hia, if_pos rfl, ← hdd, drawn_succ hd, List.take_add, List.mem_append]
      rfl
    · rw [if_neg (fun h => hp (by rw [hia]; exact h.symm)), Nat.add_zero, or_iff_left]
      exact fun h => hp (L.batch_mem hi h)
  · exact Finset.union_subset_union ((Finset.erase_subset _ _).trans J.sub) (Finset.Subset.refl _)
  · intro j hj
    rw [Finset.filter_union, removed_cons]
    have hdA : Disjoint (A.erase a) (joint n adds idx owner (a :: is)) :=
      (Finset.disjoint_left.mpr fun p hp hS' => Finset.disjoint_left.mp hdis hS' (J.sub (Finset.mem_of_mem_erase hp)))
    rw [Finset.card_union_of_disjoint (Finset.disjoint_filter_filter hdA)]
    have h := J.card j hj
    by_cases hj' : j = i
    · subst hj'
      rw [← hdd] at h
      rw [if_pos rfl, ← hdd, drawn_succ hd]
      have e1 : ((A.erase a).filter (fun p => owner p = i)).card + 1 = (A.filter (fun p => owner p = i)).card := by
        rw [Finset.filter_erase, Finset.card_erase_add_one]
        simp [ha, hia]
      have e2 : ((joint n adds idx owner (a :: is)).filter (fun p => owner p = i)).card = (adds i).getD d 0 := by
        rw [Finset.filter_true_of_mem, hS, List.toFinset_card_of_nodup (L.batch_nodup hi), L.batch_length hi hd]
        intro p hp
        rw [hS] at hp
        exact L.batch_mem hi (List.mem_toFinset.mp hp)
      omega
    · rw [if_neg (fun h => hj' (by rw [hia]; exact h.symm)), Nat.add_zero]
      have e1 : (A.erase a).filter (fun p => owner p = j) = A.filter (fun p => owner p = j) := by
        rw [Finset.filter_erase, Finset.erase_eq_of_notMem]
        simp only [Finset.mem_filter, not_and]
        exact fun _ h => hj' (by rw [hia]; exact h.symm)
      have e2 : (joint n adds idx owner (a :: is)).filter (fun p => owner p = j) = ∅ := by
        rw [Finset.filter_eq_empty_iff]
        intro p hp h
        rw [hS] at hp
        exact hj' (h ▸ L.batch_mem hi (List.mem_toFinset.mp hp))
      rw [e1, e2, Finset.card_empty]
      exact h

theorem Layout.nonempty {is : List (Fin N)} {A D : Finset (Fin N)} (J : Joint m n adds idx owner is A D) (h : is.length < N) :
    A.Nonempty := by
  by_contra hA
  rw [Finset.not_nonempty_iff_eq_empty] at hA
  have : N ≤ is.length := by
    refine L.total.ge.trans ((Finset.sum_le_sum fun i hi => ?_).trans (L.sum_removed is).le)
    have hi := Finset.mem_range.mp hi
    have h1 := J.card i hi
    rw [hA, Finset.filter_empty, Finset.card_empty, Nat.zero_add] at h1
    rw [← (L.schedule i hi).finish]
    by_contra hlt
    have := liveCounts_lt (L.schedule i hi).alive (not_le.mp hlt)
    unfold Nestcheck.drawn at h1
    omega
  omega

theorem Layout.feasible : ∀ (k : Nat) {hist : List (Fin N × ℝ)} {A D : Finset (Fin N)},
    Joint m n adds idx owner (hist.map Prod.fst) A D → hist.length + k ≤ N → Feasible (byOrder (joint n adds idx owner)) k hist A D
  | 0, _, _, _, _, _ => trivial
  | k + 1, hist, A, D, J, h => by
    refine ⟨L.nonempty J (by simp; omega), fun a ha t => ?_⟩
    obtain ⟨h1, h2⟩ := L.step J ha
    exact ⟨h1, Layout.feasible k (hist := (a, t) :: hist) h2 (by simp; omega)⟩

theorem Layout.adaptive : AdaptiveSchedule (byOrder (joint n adds idx owner)) (jointStart n idx owner) where
  nonempty := by
    rw [← L.total]
    refine Finset.sum_pos (fun i hi => ?_) ⟨0, by simpa using L.some_sampler⟩
    have := (L.schedule i (Finset.mem_range.mp hi)).start
    omega
  measurable := byOrder_measurable _
  feasible := L.feasible N L.start (by simp)

/-! ### Each sampler behaves as if it were alone -/

omit L in
theorem takeMax_of_perm {live l' : List ℝ} {y : ℝ} (h : live.Perm (y :: l')) (hy : ∀ z ∈ l', z ≤ y) :
    (takeMax live).1 = y ∧ (takeMax live).2.Perm l' := by
  have hne : live ≠ [] := by
    rintro rfl
    simpa using h.length_eq
  obtain ⟨a, b, h1, h2, h3⟩ := takeMax_spec live hne
  have hp := (takeMax_perm hne).symm.trans h
  have e : (takeMax live).1 = y := by
    refine le_antisymm ?_ (h3 y (h.mem_iff.mpr (by simp)))
    rcases List.mem_cons.mp (hp.subset (List.mem_cons_self)) with e | e
    · exact e.le
    · exact hy _ e
  rw [e] at hp
  exact ⟨e, hp.cons_inv⟩

variable {u : Fin N → ℝ}

theorem Layout.removed_le {is : List (Fin N)} {A D : Finset (Fin N)} (J : Joint m n adds idx owner is A D) {i : Nat} (hi : i < m) :
    removed owner is i ≤ (adds i).length := by
  have h := J.card i hi
  have h2 := drawn_le (n := n) (adds := adds) (i := i) (removed owner is i)
  have h3 := (L.schedule _ hi).finish
  omega

theorem Layout.simulate : ∀ (k : Nat) {hist : List (Fin N × ℝ)} {A D : Finset (Fin N)} {x : Fin N → ℝ},
    Joint m n adds idx owner (hist.map Prod.fst) A D → hist.length + k = N → (∀ b, b ∉ D → x b = u b) → ∀ i < m, ∀ live : List ℝ,
    live.Perm ((A.filter (fun p => owner p = i)).toList.map x) →
    ((iterate (byOrder (joint n adds idx owner)) k hist A x).filter (fun s => decide (owner s.point = i))).map (·.volume) =
      vols ((adds i).drop (removed owner (hist.map Prod.fst) i)) live
        (((idx i).drop (Nestcheck.drawn n adds i (removed owner (hist.map Prod.fst) i))).map u)
  | 0, hist, A, D, x, J, hk, hx, i, hi, live, hl => by
    have hle : ∀ j ∈ Finset.range m, removed owner (hist.map Prod.fst) j ≤ n j + (adds j).sum := fun j hj => by
      rw [← (L.schedule j (Finset.mem_range.mp hj)).finish]
      exact L.removed_le J (Finset.mem_range.mp hj)
    have hs := (L.sum_removed (hist.map Prod.fst)).trans ((by simpa using hk : (hist.map Prod.fst).length = N).trans L.total.symm)
    have := (Finset.sum_eq_sum_iff_of_le hle).mp hs i (Finset.mem_range.mpr hi)
    rw [← (L.schedule i hi).finish] at this
    rw [List.drop_eq_nil_of_le this.ge]
    rfl
  | k + 1, hist, A, D, x, J, hk, hx, i, hi, live, hl => by
    have hA := L.nonempty J (by simp; omega)
    have hne := tops_nonempty hA x
    rw [iterate_succ rfl hne]
    set a := (tops A x).min' hne with ha'
    have ha : a ∈ A := min'_mem_of_tops hne
    have hmax : ∀ b ∈ A, x b ≤ x a := le_of_tops hne
    obtain ⟨hdis, J'⟩ := L.step J ha
    have hd := L.removed_lt J ha
    have hbo : byOrder (joint n adds idx owner) ((a, x a) :: hist) = joint n adds idx owner (a :: hist.map Prod.fst) := rfl
    rw [hbo]
    set S := joint n adds idx owner (a :: hist.map Prod.fst) with hS
    have hSb : S = (batch n adds idx (owner a) (removed owner (hist.map Prod.fst) (owner a))).toFinset := rfl
    have hSD : ∀ b ∈ S, b ∉ D := fun b hb => Finset.disjoint_left.mp hdis hb
    have hx' : ∀ b, b ∉ D ∪ S → (if b ∈ S then x a * x b else x b) = u b := by
      intro b hb
      rw [Finset.mem_union, not_or] at hb
      rw [if_neg hb.2, hx b hb.1]
    have ih := Layout.simulate k (hist := (a, x a) :: hist) (x := fun b => if b ∈ S then x a * x b else x b) J'
      (by simp; omega) hx' i hi
    simp only [List.map_cons, removed_cons] at ih
    by_cases hi' : owner a = i
    · subst hi'
      set d := removed owner (hist.map Prod.fst) (owner a) with hdd
      rw [if_pos rfl, drawn_succ hd] at ih
      rw [List.filter_cons_of_pos (by simp), List.map_cons, List.drop_eq_getElem_cons hd, vols_cons]
      have hF : ((A.filter (fun p => owner p = owner a)).toList.map x).Perm
          (x a :: (((A.erase a).filter (fun p => owner p = owner a)).toList.map x)) := by
        rw [← List.map_cons]
        refine List.Perm.map x ?_
        rw [Finset.filter_erase]
        have hmem : a ∈ (A.filter (fun p => owner p = owner a)).toList := Finset.mem_toList.mpr (Finset.mem_filter.mpr ⟨ha, rfl⟩)
        refine (List.perm_cons_erase hmem).trans (List.Perm.cons a ?_)
        refine (List.perm_ext_iff_of_nodup ((Finset.nodup_toList _).erase a) (Finset.nodup_toList _)).mpr fun b => ?_
        rw [(Finset.nodup_toList _).mem_erase_iff]
        simp [Finset.mem_erase]
      obtain ⟨t1, t2⟩ := takeMax_of_perm (hl.trans hF) (fun z hz => by
        obtain ⟨b, hb, rfl⟩ := List.mem_map.mp hz
        exact hmax b (Finset.mem_of_mem_erase (Finset.mem_filter.mp (Finset.mem_toList.mp hb)).1))
      rw [t1]
      congr 1
      have hk2 : (adds (owner a))[d] = (adds (owner a)).getD d 0 := by
        rw [List.getD_eq_getElem?_getD, List.getElem?_eq_getElem hd]; rfl
      rw [hk2, ← List.map_take, ← List.map_drop, List.drop_drop]
      refine ih _ ?_
      have hb2 : (((idx (owner a)).drop (Nestcheck.drawn n adds (owner a) d)).take ((adds (owner a)).getD d 0)) = batch n adds idx (owner a) d := rfl
      rw [hb2]
      have hnd := L.batch_nodup (d := d) (L.lt a)
      have hEq : ((A.erase a ∪ S).filter (fun p => owner p = owner a)).toList.Perm
          (((A.erase a).filter (fun p => owner p = owner a)).toList ++ batch n adds idx (owner a) d) := by
        refine (List.perm_ext_iff_of_nodup (Finset.nodup_toList _) ?_).mpr fun b => ?_
        · refine List.nodup_append.mpr ⟨Finset.nodup_toList _, hnd, fun b hb c hc e => ?_⟩
          subst e
          have hbA := Finset.mem_of_mem_erase (Finset.mem_filter.mp (Finset.mem_toList.mp hb)).1
          exact hSD b (by rw [hSb]; exact List.mem_toFinset.mpr hc) (J.sub hbA)
        · have hbS : b ∈ S ↔ b ∈ batch n adds idx (owner a) d := by rw [hSb, List.mem_toFinset]
          simp only [Finset.mem_toList, Finset.mem_filter, Finset.mem_union, List.mem_append, hbS]
          constructor
          · rintro ⟨h | h, h2⟩
            · exact .inl ⟨h, h2⟩
            · exact .inr h
          · rintro (⟨h, h2⟩ | h)
            · exact ⟨.inl h, h2⟩
            · exact ⟨.inr h, L.batch_mem (L.lt a) h⟩
      refine List.Perm.trans ?_ (hEq.map _).symm
      rw [List.map_append]
      refine List.Perm.append (t2.trans (List.Perm.of_eq (List.map_congr_left fun b hb => ?_)))
        (List.Perm.of_eq ?_)
      · have hbA := Finset.mem_of_mem_erase (Finset.mem_filter.mp (Finset.mem_toList.mp hb)).1
        rw [if_neg (fun h => hSD b h (J.sub hbA))]
      · rw [List.map_map]
        refine List.map_congr_left fun b hb => ?_
        have hbS : b ∈ S := by rw [hSb]; exact List.mem_toFinset.mpr hb
        simp only [Function.comp, if_pos hbS, hx b (hSD b hbS)]
    · rw [if_neg hi', Nat.add_zero] at ih
      rw [List.filter_cons_of_neg (by simpa using hi')]
      refine ih live (hl.trans (List.Perm.of_eq ?_))
      have e : (A.erase a ∪ S).filter (fun p => owner p = i) = A.filter (fun p => owner p = i) := by
        ext b
        simp only [Finset.mem_filter, Finset.mem_union, Finset.mem_erase]
        constructor
        · rintro ⟨⟨-, h⟩ | h, h2⟩
          · exact ⟨h, h2⟩
          · rw [hSb, List.mem_toFinset] at h
            exact absurd ((L.batch_mem (L.lt a) h).symm.trans h2) hi'
        · rintro ⟨h, h2⟩
          exact ⟨.inl ⟨fun e => hi' (e ▸ h2), h⟩, h2⟩
      rw [e]
      refine List.map_congr_left fun b hb => ?_
      have hbA := (Finset.mem_filter.mp (Finset.mem_toList.mp hb)).1
      rw [if_neg (fun h => hSD b h (J.sub hbA))]

/-- The volumes of the points of sampler `i` are those which it would find on its own. -/
theorem Layout.alone {i : Nat} (hi : i < m) :
    ((removals (byOrder (joint n adds idx owner)) (jointStart n idx owner) u).filter (fun s => decide (owner s.point = i))).map (·.volume) =
      deadVolumes (n i) (adds i) ((idx i).map u) := by
  have h := L.simulate (u := u) N (hist := []) (x := u) L.start (by simp) (fun _ _ => rfl) i hi (((idx i).take (n i)).map u) (by
    refine List.Perm.map u ((List.perm_ext_iff_of_nodup ((L.nodup i hi).sublist (List.take_sublist _ _)) (Finset.nodup_toList _)).mpr
      fun b => ?_)
    simp only [Finset.mem_toList, Finset.mem_filter, jointStart, Finset.mem_univ, true_and]
    constructor
    · intro h
      have := L.own i hi b (List.mem_of_mem_take h)
      exact ⟨by rw [this]; exact h, this⟩
    · rintro ⟨h, rfl⟩
      exact h)
  simp only [List.map_nil, removed, List.countP_nil, List.drop_zero, Nestcheck.drawn, List.take_zero, List.sum_nil, Nat.add_zero] at h
  unfold removals
  rw [h, deadVolumes, List.map_take, List.map_drop]
  rfl

/-- The number of live points before an iteration is the sum of those of the samplers. -/
theorem Layout.alive_at : ∀ (k : Nat) {hist : List (Fin N × ℝ)} {A D : Finset (Fin N)} {x : Fin N → ℝ},
    Joint m n adds idx owner (hist.map Prod.fst) A D → hist.length + k ≤ N → ∀ (pre : List (Removal N)) (s : Removal N)
    (post : List (Removal N)), iterate (byOrder (joint n adds idx owner)) k hist A x = pre ++ s :: post →
    s.alive = ∑ i ∈ Finset.range m,
      (Nestcheck.drawn n adds i (removed owner (hist.map Prod.fst) i + pre.countP (fun s => decide (owner s.point = i))) -
        (removed owner (hist.map Prod.fst) i + pre.countP (fun s => decide (owner s.point = i))))
  | 0, hist, A, D, x, J, hk, pre, s, post, h => by simp [iterate] at h
  | k + 1, hist, A, D, x, J, hk, pre, s, post, h => by
    have hA := L.nonempty J (by simp; omega)
    have hne := tops_nonempty hA x
    rw [iterate_succ rfl hne] at h
    set a := (tops A x).min' hne with ha'
    have ha : a ∈ A := min'_mem_of_tops hne
    cases pre with
    | nil =>
      simp only [List.nil_append, List.cons.injEq] at h
      rw [← h.1]
      have hc := Finset.card_eq_sum_card_fiberwise (s := A) (t := Finset.range m) (f := owner) (fun p _ => by simpa using L.lt p)
      refine hc.trans (Finset.sum_congr rfl fun i hi => ?_)
      have := J.card i (Finset.mem_range.mp hi)
      simp only [List.countP_nil, Nat.add_zero]
      omega
    | cons s0 pre =>
      simp only [List.cons_append, List.cons.injEq] at h
      have := Layout.alive_at k (hist := (a, x a) :: hist) (L.step J ha).2 (by simp; omega) pre s post h.2
      refine this.trans (Finset.sum_congr rfl fun i _ => ?_)
      have e : removed owner (((a, x a) :: hist).map Prod.fst) i + pre.countP (fun s => decide (owner s.point = i)) =
          removed owner (hist.map Prod.fst) i + (s0 :: pre).countP (fun s => decide (owner s.point = i)) := by
        rw [List.map_cons, removed_cons, List.countP_cons, ← h.1]
        simp
        omega
      rw [e]

end

end

end Nestcheck
