import Verif.Props.SeveralTrace
import Verif.Props.CombinedLaw

/-! C108: the samples of several adaptive samplers. -/

namespace Nestcheck
open Spec MeasureTheory
variable {m : Nat} {n : Fin m → Nat} {N : Nat} {E σ : Type}

noncomputable section

/-- The iterations as in `iterate`: the point removed, its volume and the loglikelihood at its birth. -/
def trace (loglike : ℝ → ℝ) (rule : Rule N) : Nat → List (Fin N × ℝ) → Finset (Fin N) → (Fin N → ℝ) → (Fin N → ℝ) → List (Fin N × ℝ × ℝ)
  | 0, _, _, _, _ => []
  | k + 1, hist, A, x, β =>
    if h : (tops A x).Nonempty then
      let a := (tops A x).min' h
      let born := rule ((a, x a) :: hist)
      (a, x a, β a) :: trace loglike rule k ((a, x a) :: hist) (A.erase a ∪ born) (fun b => if b ∈ born then x a * x b else x b)
        (fun b => if b ∈ born then loglike (x a) else β b)
    else []

theorem trace_succ {loglike : ℝ → ℝ} {rule : Rule N} {k : Nat} {hist : List (Fin N × ℝ)} {A : Finset (Fin N)} {x β : Fin N → ℝ}
    (h : (tops A x).Nonempty) {a : Fin N} (ha : (tops A x).min' h = a) :
    trace loglike rule (k + 1) hist A x β = (a, x a, β a) :: trace loglike rule k ((a, x a) :: hist) (A.erase a ∪ rule ((a, x a) :: hist))
      (fun b => if b ∈ rule ((a, x a) :: hist) then x a * x b else x b) (fun b => if b ∈ rule ((a, x a) :: hist) then loglike (x a) else β b) := by
  subst ha
  rw [trace, dif_pos h]

theorem trace_empty {loglike : ℝ → ℝ} {rule : Rule N} {k : Nat} {hist : List (Fin N × ℝ)} {x β : Fin N → ℝ} :
    trace loglike rule k hist ∅ x β = [] := by
  cases k with
  | zero => rfl
  | succ k => rw [trace, dif_neg]; simp [tops]

theorem trace_iterate {loglike : ℝ → ℝ} {rule : Rule N} : ∀ (k : Nat) {hist : List (Fin N × ℝ)} {A : Finset (Fin N)} {x β : Fin N → ℝ},
    (trace loglike rule k hist A x β).map (fun p => (p.1, p.2.1)) = (iterate rule k hist A x).map (fun s => (s.point, s.volume))
  | 0, _, _, _, _ => rfl
  | k + 1, hist, A, x, β => by
    by_cases h : (tops A x).Nonempty
    · rw [trace_succ h rfl, iterate_succ rfl h, List.map_cons, List.map_cons, trace_iterate k]
    · rw [trace, dif_neg h, iterate, dif_neg h]; rfl

/-- The whole samples, with the contour at which they were born. -/
theorem Spec.Sampling.dead_trace {loglike : ℝ → ℝ} (hanti : StrictAntiOn loglike (Set.Ioo 0 1)) {place : ℝ → Fin N → List ℝ} {rule : Rule N}
    {u : Fin N → ℝ} (hu : ∀ b, u b ∈ Set.Ioo (0 : ℝ) 1) {live final : List (Sample ℝ)} {its : List (Iteration ℝ)}
    (h : Sampling live its final) :
    ∀ {k : Nat} {hist : List (Fin N × ℝ)} {A D : Finset (Fin N)} {x β : Fin N → ℝ}, A ⊆ D → Fresh rule k hist A D →
    (∀ b ∈ A, x b ∈ Set.Ioo (0 : ℝ) 1) → (∀ b, b ∉ D → x b = u b) →
    live.Perm (A.toList.map (fun b => ⟨place (x b) b, loglike (x b), β b⟩)) →
    List.Forall₂ (fun it (s : Removal N) => (it.born.map (fun p => (p.logl, p.theta))).Perm
      (s.born.toList.map (fun b => (loglike (s.volume * u b), place (s.volume * u b) b)))) its (iterate rule k hist A x) →
    its.map (·.dead) = (trace loglike rule k hist A x β).map (fun p => ⟨place p.2.1 p.1, loglike p.2.1, p.2.2⟩) := by
  induction h with
  | stop live =>
    intro k hist A D x β _ hf _ _ _ hfa
    have h1 := congrArg List.length (trace_iterate (loglike := loglike) (rule := rule) k (hist := hist) (A := A) (x := x) (β := β))
    cases hfa' : iterate rule k hist A x with
    | nil =>
      rw [hfa'] at h1
      simp only [List.length_map, List.map_nil, List.length_nil] at h1
      rw [List.eq_nil_of_length_eq_zero h1]
      rfl
    | cons s l => rw [hfa'] at hfa; cases hfa
  | @step live rest born final p its h1 h2 h3 h4 ih =>
    intro k hist A D x β hAD hf hx hxu hperm hfa
    cases k with
    | zero => simp [iterate] at hfa
    | succ k =>
      have hA : A.Nonempty := by
        by_contra hA
        rw [iterate_empty (tops_empty hA)] at hfa
        cases hfa
      have hne := tops_nonempty hA x
      rw [iterate_succ rfl hne] at hfa
      rw [trace_succ hne rfl]
      set a := (tops A x).min' hne with ha'
      have ha : a ∈ A := min'_mem_of_tops hne
      have hmax : ∀ b ∈ A, x b ≤ x a := le_of_tops hne
      obtain ⟨hd, hf⟩ := hf a ha (x a)
      set S := rule ((a, x a) :: hist) with hS
      simp only [List.forall₂_cons] at hfa
      obtain ⟨hb, hfa⟩ := hfa
      have hAp : A.toList.Perm (a :: (A.toList.erase a)) := List.perm_cons_erase (Finset.mem_toList.mpr ha)
      have hmem : ∀ b, b ∈ A.toList.erase a → b ∈ A := fun b hb => Finset.mem_toList.mp (List.mem_of_mem_erase hb)
      set g : Fin N → Sample ℝ := fun b => ⟨place (x b) b, loglike (x b), β b⟩ with hg
      have hpp : (p :: rest).Perm (g a :: (A.toList.erase a).map g) := by
        have := (h1.symm.trans hperm).trans (hAp.map _)
        simpa using this
      have hlow : loglike (x a) ≤ p.logl := by
        have hp : p ∈ g a :: (A.toList.erase a).map g := hpp.subset (by simp)
        rcases List.mem_cons.mp hp with h | h
        · rw [h]
        · obtain ⟨b, hb', e⟩ := List.mem_map.mp h
          rw [← e]
          exact hanti.antitoneOn (hx b (hmem b hb')) (hx a ha) (hmax b (hmem b hb'))
      have hdead : p = g a := by
        have hp : g a ∈ p :: rest := hpp.symm.subset (by simp)
        rcases List.mem_cons.mp hp with h | h
        · exact h.symm
        · have h5 := h2 _ h
          have h6 : (g a).logl = loglike (x a) := rfl
          rw [h6] at h5
          linarith
      have hrest : rest.Perm ((A.toList.erase a).map g) := by
        rw [hdead] at hpp
        exact hpp.cons_inv
      have hSD : ∀ b ∈ S, b ∉ D := fun b hb => Finset.disjoint_left.mp hd hb
      have hSA : Disjoint S A := Finset.disjoint_left.mpr fun b hb hbA => hSD b hb (hAD hbA)
      have hborn : born.Perm (S.toList.map (fun b => ⟨place (x a * u b) b, loglike (x a * u b), loglike (x a)⟩)) := by
        have e1 : born = (born.map (fun q => (q.logl, q.theta))).map (fun y => (⟨y.2, y.1, loglike (x a)⟩ : Sample ℝ)) := by
          rw [List.map_map]
          conv_lhs => rw [← List.map_id born]
          refine List.map_congr_left fun q hq => ?_
          have := (h3 q hq).1
          rw [hdead] at this
          have h7 : q.birth = loglike (x a) := this
          simp only [id, Function.comp]
          rw [← h7]
        rw [e1]
        refine (hb.map _).trans (List.Perm.of_eq ?_)
        rw [List.map_map]
        rfl
      have := ih (k := k) (hist := (a, x a) :: hist) (A := A.erase a ∪ S) (D := D ∪ S)
        (x := fun b => if b ∈ S then x a * x b else x b) (β := fun b => if b ∈ S then loglike (x a) else β b)
        (Finset.union_subset_union ((Finset.erase_subset _ _).trans hAD) (Finset.Subset.refl _)) hf
        (fun b hb => by
          by_cases hbS : b ∈ S
          · simp only [hbS, if_true]
            rw [hxu b (hSD b hbS)]
            exact ⟨mul_pos (hx a ha).1 (hu b).1, mul_lt_one_of_nonneg_of_lt_one_left (hx a ha).1.le (hx a ha).2 (hu b).2.le⟩
          · simp only [hbS, if_false]
            rcases Finset.mem_union.mp hb with hb | hb
            · exact hx b (Finset.mem_of_mem_erase hb)
            · exact absurd hb hbS)
        (fun b hb => by
          rw [Finset.mem_union, not_or] at hb
          simp only [hb.2, if_false]
          exact hxu b hb.1)
        (by
          refine (hrest.append hborn).trans ?_
          refine List.Perm.trans ?_ ((perm_erase_union (List.Perm.refl A.toList) (a := a) hSA).map _)
          rw [List.map_append]
          refine List.Perm.of_eq ?_
          congr 1
          · refine List.map_congr_left fun b hb => ?_
            have hbS : b ∉ S := fun hbS => Finset.disjoint_left.mp hSA hbS (hmem b hb)
            simp only [hbS, if_false, hg]
          · refine List.map_congr_left fun b hb => ?_
            have hbS := Finset.mem_toList.mp hb
            simp only [hbS, if_true]
            rw [hxu b (hSD b hbS)])
        hfa
      rw [List.map_cons, List.map_cons, this]
      congr 1

theorem Spec.PosteriorExecution.trace {loglike : ℝ → ℝ} (hanti : StrictAntiOn loglike (Set.Ioo 0 1)) {place : ℝ → E → List ℝ} {rule : Rule N}
    {start : Finset (Fin N)} (hs : StoppingSchedule rule start) {u : Fin N → ℝ} (hu : ∀ b, u b ∈ Set.Ioo (0 : ℝ) 1) {e : Fin N → E} {init : ℝ}
    {live : List (Sample ℝ)} {its : List (Iteration ℝ)} (h : PosteriorExecution loglike place rule start u e init live its) :
    its.map (·.dead) = (Nestcheck.trace loglike rule N [] start u (fun _ => init)).map (fun p => ⟨place p.2.1 (e p.1), loglike p.2.1, p.2.2⟩) := by
  refine h.run.dead_trace hanti (place := fun x b => place x (e b)) hu (Finset.Subset.refl _) hs.fresh (fun b _ => hu b) (fun _ _ => rfl) ?_ h.added
  have e1 : live = (live.map (fun q => (q.logl, q.theta))).map (fun y => (⟨y.2, y.1, init⟩ : Sample ℝ)) := by
    rw [List.map_map]
    conv_lhs => rw [← List.map_id live]
    refine List.map_congr_left fun q hq => ?_
    have h7 := h.prior.birth q hq
    simp only [id, Function.comp]
    rw [← h7]
  rw [e1]
  refine (h.initial.map _).trans (List.Perm.of_eq ?_)
  rw [List.map_map]
  rfl

/-! ### The iterations of each of the samplers -/

theorem tops_own {i : Fin m} {A : Finset (Fin (∑ i, n i))} {x : Fin (∑ i, n i) → ℝ} (h : (tops A x).Nonempty) {b : Fin (n i)}
    (hb : (tops A x).min' h = idx i b) :
    ∃ h' : (tops (ownSet i A) (x ∘ idx i)).Nonempty, (tops (ownSet i A) (x ∘ idx i)).min' h' = b := by
  have hm := Finset.min'_mem _ h
  rw [hb] at hm
  have hA := (Finset.mem_filter.mp hm).1
  have hmax := (Finset.mem_filter.mp hm).2
  have hbt : b ∈ tops (ownSet i A) (x ∘ idx i) := by
    refine Finset.mem_filter.mpr ⟨mem_ownSet.mpr hA, fun c hc => hmax _ (mem_ownSet.mp hc)⟩
  refine ⟨⟨b, hbt⟩, le_antisymm (Finset.min'_le _ _ hbt) ?_⟩
  refine Finset.le_min' _ _ _ fun c hc => ?_
  have hc' : idx i c ∈ tops A x := by
    refine Finset.mem_filter.mpr ⟨mem_ownSet.mp (Finset.mem_filter.mp hc).1, fun d hd => (hmax d hd).trans ?_⟩
    exact (Finset.mem_filter.mp hc).2 b (mem_ownSet.mpr hA)
  rw [← idx_le_iff, ← hb]
  exact Finset.min'_le _ _ hc'

theorem trace_own {loglike : ℝ → ℝ} {rule : ∀ i, Rule (n i)} : ∀ (k : Nat) {hist : List (Fin (∑ i, n i) × ℝ)} {A D : Finset (Fin (∑ i, n i))}
    {x β : Fin (∑ i, n i) → ℝ} {ks : Fin m → Nat}, Fresh (sideBySide rule) k hist A D → A.card + Dᶜ.card ≤ k →
    (∀ i, (ownSet i A).card + (ownSet i D)ᶜ.card ≤ ks i) → ∀ i,
    (trace loglike (sideBySide rule) k hist A x β).filterMap (fun p => (own i p.1).map (fun b => (b, p.2))) =
      trace loglike (rule i) (ks i) (ownHist i hist) (ownSet i A) (x ∘ idx i) (β ∘ idx i)
  | 0, hist, A, D, x, β, ks, _, hk, _, i => by
    have hA : A = ∅ := Finset.card_eq_zero.mp (by omega)
    subst hA
    rw [show ownSet i (∅ : Finset (Fin (∑ i, n i))) = ∅ by ext b; simp [mem_ownSet], trace_empty, trace_empty]
    rfl
  | k + 1, hist, A, D, x, β, ks, hf, hk, hks, i => by
    by_cases hA : A.Nonempty
    · have hne := tops_nonempty hA x
      obtain ⟨j, a, ha⟩ := exists_idx ((tops A x).min' hne)
      rw [trace_succ hne ha.symm]
      have haA : idx j a ∈ A := ha ▸ min'_mem_of_tops hne
      obtain ⟨hd, hf⟩ := hf _ haA (x (idx j a))
      rw [sideBySide_cons] at hd hf ⊢
      set S := rule j ((a, x (idx j a)) :: ownHist j hist) with hS
      have hdS : Disjoint S (ownSet j D) := by
        rw [Finset.disjoint_left]
        intro b hb hbD
        exact Finset.disjoint_left.mp hd (Finset.mem_image_of_mem _ hb) (mem_ownSet.mp hbD)
      have haO := mem_ownSet.mpr haA
      have hpos : 0 < ks j := lt_of_lt_of_le (by have := Finset.card_pos.mpr ⟨a, haO⟩; omega) (hks j)
      obtain ⟨k', hk'⟩ := Nat.exists_eq_succ_of_ne_zero hpos.ne'
      have hmemS : ∀ b, idx j b ∈ S.image (idx j) ↔ b ∈ S := fun b => by
        rw [Finset.mem_image]
        exact ⟨fun ⟨c, hc, e⟩ => idx_injective j e ▸ hc, fun h => ⟨b, h, rfl⟩⟩
      have ih := trace_own k (loglike := loglike) (x := fun b => if b ∈ S.image (idx j) then x (idx j a) * x b else x b)
        (β := fun b => if b ∈ S.image (idx j) then loglike (x (idx j a)) else β b) (ks := Function.update ks j k') hf (card_step haA hd hk)
        (fun l => by
          by_cases hj : j = l
          · subst hj
            rw [Function.update_self, ownSet_union, ownSet_union, ownSet_image, ownSet_erase]
            exact card_step haO hdS (by rw [← Nat.succ_eq_add_one, ← hk']; exact hks j)
          · rw [Function.update_of_ne (Ne.symm hj), ownSet_union, ownSet_union, ownSet_image_other hj, ownSet_erase_other hj,
              Finset.union_empty, Finset.union_empty]
            exact hks l) i
      rw [List.filterMap_cons]
      by_cases hj : j = i
      · subst hj
        rw [own_idx]
        simp only [Option.map_some]
        obtain ⟨h', hb⟩ := tops_own hne ha.symm
        rw [hk', Nat.succ_eq_add_one, trace_succ h' hb, ih, Function.update_self, ownHist_own, ownSet_union, ownSet_image, ownSet_erase]
        congr 2
        · funext b
          simp only [Function.comp, hmemS]
          rfl
        · funext b
          simp only [Function.comp, hmemS]
          rfl
      · rw [own_none (by rwa [ownerOf_idx])]
        simp only [Option.map_none]
        have hno : ∀ b, idx i b ∉ S.image (idx j) := fun b hb => by
          obtain ⟨c, _, e⟩ := Finset.mem_image.mp hb
          exact idx_ne hj c b e
        rw [ih, Function.update_of_ne (Ne.symm hj), ownHist_other hj, ownSet_union, ownSet_image_other hj, ownSet_erase_other hj, Finset.union_empty]
        congr 1
        · funext b
          simp only [Function.comp, hno, if_false]
        · funext b
          simp only [Function.comp, hno, if_false]
    · have hA : A = ∅ := Finset.not_nonempty_iff_eq_empty.mp hA
      subst hA
      rw [show ownSet i (∅ : Finset (Fin (∑ i, n i))) = ∅ by ext b; simp [mem_ownSet], trace_empty, trace_empty]
      rfl

theorem filter_own {γ : Type} (i : Fin m) : ∀ l : List (Fin (∑ i, n i) × γ),
    (l.filterMap (fun p => (own i p.1).map (fun b => (b, p.2)))).map (fun q => (idx i q.1, q.2)) = l.filter (fun p => decide ((ownerOf p.1 : Nat) = i))
  | [] => rfl
  | p :: l => by
    rw [List.filterMap_cons, List.filter_cons]
    by_cases h : ownerOf p.1 = i
    · rw [if_pos (by simp [h])]
      obtain ⟨i', b, e⟩ := exists_idx p.1
      rw [← e, ownerOf_idx] at h
      subst h
      rw [← e, own_idx]
      simp only [Option.map_some, List.map_cons]
      rw [filter_own]
      congr 1
      exact Prod.ext e rfl
    · rw [if_neg (by simpa [Fin.ext_iff] using h), own_none h]
      simp only [Option.map_none]
      exact filter_own i l

theorem perm_own {γ : Type} (l : List (Fin (∑ i, n i) × γ)) :
    ((List.ofFn (fun i : Fin m => (l.filterMap (fun p => (own i p.1).map (fun b => (b, p.2)))).map (fun q => (idx i q.1, q.2)))).flatten).Perm l := by
  have h := perm_fibers (fun p : Fin (∑ i, n i) × γ => (ownerOf p.1 : Nat)) m l
  rw [List.filter_eq_self.mpr (fun p _ => by simp)] at h
  refine List.Perm.trans (List.Perm.of_eq ?_) h.symm
  rw [← List.map_coe_finRange_eq_range, List.flatMap, List.map_map, List.ofFn_eq_map]
  congr 1
  refine List.map_congr_left fun i _ => ?_
  exact filter_own i l

end

end Nestcheck
