import Verif.Props.StaticShape

/-! C102: the birth contours of the samples of an ideal sampler. -/

namespace Nestcheck
open Spec MeasureTheory ENNReal
variable {N : Nat}

noncomputable section

theorem Spec.Sampling.births {loglike : ℝ → ℝ} (hanti : StrictAntiOn loglike (Set.Ioo 0 1)) {rule : Rule N} {u : Fin N → ℝ}
    (hu : ∀ b, u b ∈ Set.Ioo (0 : ℝ) 1) {live final : List (Sample ℝ)} {its : List (Iteration ℝ)} (h : Sampling live its final) :
    ∀ {k : Nat} {hist : List (Fin N × ℝ)} {A D : Finset (Fin N)} {x bt : Fin N → ℝ}, A ⊆ D → Fresh rule k hist A D →
    (∀ b ∈ A, x b ∈ Set.Ioo (0 : ℝ) 1) → (∀ b, b ∉ D → x b = u b) →
    (live.map (fun q => (q.logl, q.birth))).Perm (A.toList.map (fun b => (loglike (x b), bt b))) →
    List.Forall₂ (fun it (s : Removal N) => (it.born.map (·.logl)).Perm (s.born.toList.map (fun b => loglike (s.volume * u b)))) its
      (iterate rule k hist A x) →
    its.map (·.dead.birth) = inherit (fun _ s => loglike s.volume) bt (iterate rule k hist A x) := by
  induction h with
  | stop live =>
    intro k hist A D x bt _ hf _ _ _ hfa
    cases hfa' : iterate rule k hist A x with
    | nil => rfl
    | cons s l => rw [hfa'] at hfa; cases hfa
  | @step live rest born final p its h1 h2 h3 h4 ih =>
    intro k hist A D x bt hAD hf hx hxu hperm hfa
    cases k with
    | zero => simp [iterate] at hfa
    | succ k =>
      have hA : A.Nonempty := by
        by_contra hA
        rw [iterate_empty (tops_empty hA)] at hfa
        cases hfa
      have hne := tops_nonempty hA x
      rw [iterate_succ rfl hne] at hfa ⊢
      set a := (tops A x).min' hne with ha'
      have ha : a ∈ A := min'_mem_of_tops hne
      have hmax : ∀ b ∈ A, x b ≤ x a := le_of_tops hne
      obtain ⟨hd, hf⟩ := hf a ha (x a)
      set S := rule ((a, x a) :: hist) with hS
      simp only [List.forall₂_cons] at hfa
      obtain ⟨hb, hfa⟩ := hfa
      have hAp : A.toList.Perm (a :: (A.toList.erase a)) := List.perm_cons_erase (Finset.mem_toList.mpr ha)
      have hmem : ∀ b, b ∈ A.toList.erase a → b ∈ A := fun b hb => Finset.mem_toList.mp (List.mem_of_mem_erase hb)
      have hpp : ((p.logl, p.birth) :: rest.map (fun q => (q.logl, q.birth))).Perm
          ((loglike (x a), bt a) :: (A.toList.erase a).map (fun b => (loglike (x b), bt b))) := by
        have := ((h1.map (fun q => (q.logl, q.birth))).symm.trans hperm).trans (hAp.map _)
        simpa using this
      have hdead : p.logl = loglike (x a) ∧ p.birth = bt a := by
        have hm : (loglike (x a), bt a) ∈ (p.logl, p.birth) :: rest.map (fun q => (q.logl, q.birth)) :=
          hpp.mem_iff.mpr List.mem_cons_self
        rcases List.mem_cons.mp hm with hm | hm
        · simp only [Prod.mk.injEq] at hm
          exact ⟨hm.1.symm, hm.2.symm⟩
        · obtain ⟨q, hq, e⟩ := List.mem_map.mp hm
          simp only [Prod.mk.injEq] at e
          have hlt := h2 q hq
          have hpm : (p.logl, p.birth) ∈ A.toList.map (fun b => (loglike (x b), bt b)) :=
            (hpp.trans (hAp.map (fun b => (loglike (x b), bt b))).symm).mem_iff.mp List.mem_cons_self
          obtain ⟨b, hb, e'⟩ := List.mem_map.mp hpm
          simp only [Prod.mk.injEq] at e'
          have hbA := Finset.mem_toList.mp hb
          have := hanti.antitoneOn (hx b hbA) (hx a ha) (hmax b hbA)
          rw [e.1, ← e'.1] at hlt
          exact absurd hlt this.not_gt
      have hrest : (rest.map (fun q => (q.logl, q.birth))).Perm ((A.toList.erase a).map (fun b => (loglike (x b), bt b))) := by
        rw [hdead.1, hdead.2] at hpp
        exact hpp.cons_inv
      have hSD : ∀ b ∈ S, b ∉ D := fun b hb => Finset.disjoint_left.mp hd hb
      have hSA : Disjoint S A := Finset.disjoint_left.mpr fun b hb hbA => hSD b hb (hAD hbA)
      have := ih (k := k) (hist := (a, x a) :: hist) (A := A.erase a ∪ S) (D := D ∪ S)
        (x := fun b => if b ∈ S then x a * x b else x b) (bt := fun b => if b ∈ S then loglike (x a) else bt b)
        (Finset.union_subset_union ((Finset.erase_subset _ _).trans hAD) (Finset.Subset.refl _)) hf
        (fun b hb => by
          by_cases hbS : b ∈ S
          · simp only [hbS, if_true]
            rw [hxu b (hSD b hbS)]
            exact ⟨mul_pos (hx a ha).1 (hu b).1, mul_lt_one_of_nonneg_of_lt_one_left (hx a ha).1.le (hx a ha).2 (hu b).2.le⟩
          · simp only [hbS, if_false]
            rcases Finset.mem_union.mp hb with hb | hb
            · exact hx b (Finset.mem_of_mem_erase hb)
            · exact absurd hb hbS)
        (fun b hb => by
          rw [Finset.mem_union, not_or] at hb
          simp only [hb.2, if_false]
          exact hxu b hb.1)
        (by
          rw [List.map_append]
          have hbb : (born.map (fun q => (q.logl, q.birth))).Perm (S.toList.map (fun b => (loglike (x a * u b), loglike (x a)))) := by
            have e1 : born.map (fun q => (q.logl, q.birth)) = (born.map (·.logl)).map (fun l => (l, loglike (x a))) := by
              rw [List.map_map]
              refine List.map_congr_left fun q hq => ?_
              simp only [Function.comp, (h3 q hq).1, hdead.1]
            have e2 := hb.map (fun l => (l, loglike (x a)))
            rw [← e1, List.map_map] at e2
            exact e2
          refine (hrest.append hbb).trans ?_
          refine List.Perm.trans ?_ ((perm_erase_union (List.Perm.refl A.toList) (a := a) hSA).map _)
          rw [List.map_append]
          refine List.Perm.of_eq ?_
          congr 1
          · refine List.map_congr_left fun b hb => ?_
            have := fun hbS => Finset.disjoint_left.mp hSA hbS (hmem b hb)
            rw [if_neg this, if_neg this]
          · refine List.map_congr_left fun b hb => ?_
            have hbS := Finset.mem_toList.mp hb
            rw [if_pos hbS, if_pos hbS, hxu b (hSD b hbS)])
        hfa
      rw [List.map_cons, this, inherit, hdead.2]

/-- The samples of an execution: the loglikelihoods, and which contour each was drawn from. -/
theorem Spec.AdaptiveExecution.origin {loglike : ℝ → ℝ} (hanti : StrictAntiOn loglike (Set.Ioo 0 1)) {rule : Rule N}
    {start : Finset (Fin N)} (hs : StoppingSchedule rule start) {u : Fin N → ℝ} (hu : ∀ b, u b ∈ Set.Ioo (0 : ℝ) 1) {init : ℝ}
    {live : List (Sample ℝ)} {its : List (Iteration ℝ)} (h : AdaptiveExecution loglike rule start u init live its) :
    its.map (·.dead.logl) = (removals rule start u).map (fun s => loglike s.volume) ∧
    its.map (·.dead.birth) = inherit (fun _ s => loglike s.volume) (fun _ => init) (removals rule start u) := by
  refine ⟨(h.run.dead_removals hanti hu (Finset.Subset.refl _) hs.fresh (fun b _ => hu b) (fun _ _ => rfl) h.initial h.added).1, ?_⟩
  refine h.run.births hanti hu (Finset.Subset.refl _) hs.fresh (fun b _ => hu b) (fun _ _ => rfl) ?_ h.added
  have e1 : live.map (fun q => (q.logl, q.birth)) = (live.map (·.logl)).map (fun l => (l, init)) := by
    rw [List.map_map]
    refine List.map_congr_left fun q hq => ?_
    simp only [Function.comp, h.prior.birth q hq]
  have e2 := h.initial.map (fun l => (l, init))
  rw [← e1, List.map_map] at e2
  exact e2

end
end Nestcheck
