import Verif.Props.StaticEnergy

/-! C102: the evidence of a replication as a function of the draws of the sampler and of the draws of the threads. -/

namespace Nestcheck
open Spec MeasureTheory ENNReal
variable {σ : Type} {N : Nat}

noncomputable section

/-! ### Labels are determined by the decisions -/

theorem inherit_decisions {α : Type*} {pass : α → Removal N → α} (hp : ∀ a s t, decision s = decision t → pass a s = pass a t) :
    ∀ (f : Fin N → α) (l l' : List (Removal N)), l.map decision = l'.map decision → inherit pass f l = inherit pass f l'
  | f, [], [], _ => rfl
  | f, [], t :: l', h => by simp at h
  | f, s :: l, [], h => by simp at h
  | f, s :: l, t :: l', h => by
    simp only [List.map_cons, List.cons.injEq] at h
    obtain ⟨h1, h2⟩ := h
    have h3 := h1
    unfold decision at h3
    simp only [Prod.mk.injEq] at h3
    rw [inherit, inherit, h3.1, h3.2.2, hp _ s t h1, inherit_decisions hp _ l l' h2]

theorem rankOf_decisions (start : Finset (Fin N)) (b : Fin N) : ∀ (l l' : List (Removal N)), l.map decision = l'.map decision →
    rankOf start l b = rankOf start l' b
  | [], [], _ => rfl
  | [], t :: l', h => by simp at h
  | s :: l, [], h => by simp at h
  | s :: l, t :: l', h => by
    simp only [List.map_cons, List.cons.injEq] at h
    obtain ⟨h1, h2⟩ := h
    unfold decision at h1
    simp only [Prod.mk.injEq] at h1
    have ih := rankOf_decisions start b l l' h2
    unfold rankOf at ih ⊢
    rw [List.takeWhile_cons, List.takeWhile_cons, h1.1]
    split_ifs
    · rw [List.countP_cons, List.countP_cons, ih, h1.1]
    · rfl

theorem labelsOf_decisions (start : Finset (Fin N)) {l l' : List (Removal N)} (h : l.map decision = l'.map decision) :
    labelsOf start l = labelsOf start l' := by
  unfold labelsOf
  rw [funext fun b => congrArg (fun m : Nat => (m : Int)) (rankOf_decisions start b l l' h)]
  exact inherit_decisions (fun _ _ _ _ => rfl) _ l l' h

/-! ### Measurability -/

theorem measurable_countP_list {α : Type} [MeasurableSpace α] : ∀ (Y : List (α → ℝ)), (∀ y ∈ Y, Measurable y) →
    Measurable (fun p : α × ℝ => (Y.map (fun y => y p.1)).countP (fun x => decide (Real.exp x ≤ p.2)))
  | [], _ => measurable_const
  | y :: Y, h => by
    simp only [List.map_cons, List.countP_cons, decide_eq_true_eq]
    refine (measurable_countP_list Y fun z hz => h z (by simp [hz])).add ?_
    refine Measurable.ite ?_ measurable_const measurable_const
    exact measurableSet_le (Real.measurable_exp.comp ((h y (by simp)).comp measurable_fst)) measurable_snd

theorem measurable_levelIntegral {α : Type} [MeasurableSpace α] (n : Nat) (M : ℝ) {Y : List (α → ℝ)} (hY : ∀ y ∈ Y, Measurable y) :
    Measurable (fun a => ∫ t in Set.Ioo 0 M, level n (Y.map (fun y => y a)) t) := by
  have h1 : Measurable (fun p : α × ℝ => level n (Y.map (fun y => y p.1)) p.2) := by
    unfold level
    simp only [List.length_map]
    exact (Measurable.of_discrete (f := cut (flatCounts n Y.length))).comp (measurable_countP_list Y hY)
  have h2 := h1.stronglyMeasurable
  exact (StronglyMeasurable.integral_prod_right (f := fun a t => level n (Y.map (fun y => y a)) t) (ν := volume.restrict (Set.Ioo 0 M)) h2).measurable

theorem drawnLogl_map {α : Type} (labels : List Int) (Y : List (α → ℝ)) (inds : List Nat) (a : α) :
    drawnLogl labels (Y.map (fun y => y a)) inds = (inds.flatMap (fun k : Nat => pick labels k Y)).map (fun y => y a) := by
  unfold drawnLogl
  rw [List.map_flatMap]
  simp only [pick_map]

theorem mem_of_mem_pick {α : Type} {labels : List Int} {k : Int} {xs : List α} {x : α} (h : x ∈ pick labels k xs) : x ∈ xs := by
  unfold pick at h
  obtain ⟨p, hp, rfl⟩ := List.mem_map.mp h
  exact (List.of_mem_zip (List.mem_filter.mp hp).1).2

/-- The evidence of a replication, from the removals and the draws of the threads. -/
def replica (start : Finset (Fin N)) (h : ℝ → ℝ) (n : Nat) (b : ℝ) (l : List (Removal N)) (v : Fin n → Nat) : ℝ :=
  drawnEvidence (labelsOf start l) (l.map (fun s => h s.volume)) n b v

/-- The evidence of the run, from the removals. -/
def original (h : ℝ → ℝ) (n : Nat) (b : ℝ) (l : List (Removal N)) : ℝ :=
  ∫ t in Set.Ioo 0 (Real.exp b), level n (l.map (fun s => h s.volume)) t

theorem map_withVolumes {α : Type} (ds : List (Fin N × Nat × Finset (Fin N))) (h : ℝ → ℝ) (q : α × (Fin ds.length → ℝ)) :
    (withVolumes ds (List.ofFn q.2)).map (fun s => h s.volume) =
      (List.ofFn (fun (i : Fin ds.length) (q : α × (Fin ds.length → ℝ)) => h (q.2 i))).map (fun y => y q) := by
  have h1 := (withVolumes_alive ds (List.ofFn q.2) (by simp)).2
  have h2 : (withVolumes ds (List.ofFn q.2)).map (fun s => h s.volume) = ((withVolumes ds (List.ofFn q.2)).map (·.volume)).map h := by
    rw [List.map_map]; rfl
  rw [h2, h1, List.map_ofFn, List.map_ofFn]
  rfl

theorem original_measurable {rule : Rule N} {start : Finset (Fin N)} (hr : MeasurableRule rule) {h : ℝ → ℝ} (hh : Measurable h) (n : Nat)
    (b : ℝ) : Measurable (fun u : Fin N → ℝ => original h n b (removals rule start u)) := by
  refine removals_measurable hr (Φ := original h n b) fun ds => ?_
  unfold original
  simp only [map_withVolumes]
  refine measurable_levelIntegral n _ fun y hy => ?_
  obtain ⟨i, rfl⟩ := List.mem_ofFn.mp hy
  exact hh.comp ((measurable_pi_apply i).comp measurable_snd)

theorem replica_measurable {rule : Rule N} {start : Finset (Fin N)} (hr : MeasurableRule rule) {h : ℝ → ℝ} (hh : Measurable h) (n : Nat)
    (b : ℝ) : Measurable (fun p : (Fin N → ℝ) × (Fin n → Nat) => replica start h n b (removals rule start p.1) p.2) := by
  refine iterate_measurable hr N [] start (τ := fun _ => []) (x := fun p : (Fin N → ℝ) × (Fin n → Nat) => p.1)
    (Φ := fun p l => replica start h n b l p.2) MList.nil measurable_fst fun ds => ?_
  refine measurable_select (g := fun q : ((Fin N → ℝ) × (Fin n → Nat)) × (Fin ds.length → ℝ) => q.1.2)
    (f := fun c q => replica start h n b (withVolumes ds (List.ofFn q.2)) c) (fun c => ?_) fun c => ?_
  · exact (measurable_snd.comp measurable_fst) (measurableSet_singleton c)
  · have hlab : ∀ q : ((Fin N → ℝ) × (Fin n → Nat)) × (Fin ds.length → ℝ), labelsOf start (withVolumes ds (List.ofFn q.2)) =
        labelsOf start (withVolumes ds (List.ofFn (fun _ : Fin ds.length => (0 : ℝ)))) := fun q =>
      labelsOf_decisions start (by rw [withVolumes_decision ds _ (by simp), withVolumes_decision ds _ (by simp)])
    unfold replica drawnEvidence
    simp only [hlab, map_withVolumes, drawnLogl_map]
    refine measurable_levelIntegral n _ fun y hy => ?_
    obtain ⟨k, -, hk⟩ := List.mem_flatMap.mp hy
    obtain ⟨i, rfl⟩ := List.mem_ofFn.mp (mem_of_mem_pick hk)
    exact hh.comp ((measurable_pi_apply i).comp measurable_snd)

end
end Nestcheck
