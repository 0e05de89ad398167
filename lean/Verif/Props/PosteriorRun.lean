import Verif.Spec.Posterior
import Verif.Props.AdaptiveEvidence

/-! C96: the parameters of the samples of an ideal run. -/

namespace Nestcheck
open Spec MeasureTheory ENNReal Filter Topology
variable {σ E : Type} {N : Nat}

noncomputable section

theorem Spec.PosteriorExecution.adaptive {loglike : ℝ → ℝ} {place : ℝ → E → List ℝ} {rule : Rule N} {start : Finset (Fin N)} {u : Fin N → ℝ}
    {e : Fin N → E} {init : ℝ} {live : List (Sample ℝ)} {its : List (Iteration ℝ)}
    (h : PosteriorExecution loglike place rule start u e init live its) : AdaptiveExecution loglike rule start u init live its where
  prior := h.prior
  run := h.run
  initial := by
    have := h.initial.map Prod.fst
    rwa [List.map_map, List.map_map] at this
  added := h.added.imp fun _ _ h => by
    have := h.map Prod.fst
    rwa [List.map_map, List.map_map] at this

/-- The parameters of the points which are removed. -/
theorem Spec.Sampling.dead_places {loglike : ℝ → ℝ} (hanti : StrictAntiOn loglike (Set.Ioo 0 1)) {place : ℝ → Fin N → List ℝ} {rule : Rule N}
    {u : Fin N → ℝ} (hu : ∀ b, u b ∈ Set.Ioo (0 : ℝ) 1) {live final : List (Sample ℝ)} {its : List (Iteration ℝ)}
    (h : Sampling live its final) :
    ∀ {k : Nat} {hist : List (Fin N × ℝ)} {A D : Finset (Fin N)} {x : Fin N → ℝ}, A ⊆ D → Fresh rule k hist A D →
    (∀ b ∈ A, x b ∈ Set.Ioo (0 : ℝ) 1) → (∀ b, b ∉ D → x b = u b) →
    (live.map (fun p => (p.logl, p.theta))).Perm (A.toList.map (fun b => (loglike (x b), place (x b) b))) →
    List.Forall₂ (fun it (s : Removal N) => (it.born.map (fun p => (p.logl, p.theta))).Perm
      (s.born.toList.map (fun b => (loglike (s.volume * u b), place (s.volume * u b) b)))) its (iterate rule k hist A x) →
    its.map (·.dead.theta) = (iterate rule k hist A x).map (fun s => place s.volume s.point) := by
  induction h with
  | stop live =>
    intro k hist A D x _ hf _ _ _ hfa
    cases hfa' : iterate rule k hist A x with
    | nil => rfl
    | cons s l => rw [hfa'] at hfa; cases hfa
  | @step live rest born final p its h1 h2 h3 h4 ih =>
    intro k hist A D x hAD hf hx hxu hperm hfa
    cases k with
    | zero => simp [iterate] at hfa
    | succ k =>
      have hA : A.Nonempty := by
        by_contra hA
        rw [iterate_empty (tops_empty hA)] at hfa
        cases hfa
      have hne := tops_nonempty hA x
      rw [iterate_succ rfl hne] at hfa ⊢
      set a := (tops A x).min' hne with ha'
      have ha : a ∈ A := min'_mem_of_tops hne
      have hmax : ∀ b ∈ A, x b ≤ x a := le_of_tops hne
      obtain ⟨hd, hf⟩ := hf a ha (x a)
      set S := rule ((a, x a) :: hist) with hS
      simp only [List.forall₂_cons] at hfa
      obtain ⟨hb, hfa⟩ := hfa
      have hAp : A.toList.Perm (a :: (A.toList.erase a)) := List.perm_cons_erase (Finset.mem_toList.mpr ha)
      have hmem : ∀ b, b ∈ A.toList.erase a → b ∈ A := fun b hb => Finset.mem_toList.mp (List.mem_of_mem_erase hb)
      have hpp : ((p.logl, p.theta) :: rest.map (fun p => (p.logl, p.theta))).Perm
          ((loglike (x a), place (x a) a) :: (A.toList.erase a).map (fun b => (loglike (x b), place (x b) b))) := by
        have := ((h1.map (fun p => (p.logl, p.theta))).symm.trans hperm).trans (hAp.map _)
        simpa using this
      have hlow : loglike (x a) ≤ p.logl := by
        have hp : (p.logl, p.theta) ∈ (loglike (x a), place (x a) a) :: (A.toList.erase a).map (fun b => (loglike (x b), place (x b) b)) :=
          hpp.subset (by simp)
        rcases List.mem_cons.mp hp with h | h
        · exact (congrArg Prod.fst h).ge
        · obtain ⟨b, hb', e⟩ := List.mem_map.mp h
          have h7 : loglike (x b) = p.logl := congrArg Prod.fst e
          rw [← h7]
          exact hanti.antitoneOn (hx b (hmem b hb')) (hx a ha) (hmax b (hmem b hb'))
      have hdead : (p.logl, p.theta) = (loglike (x a), place (x a) a) := by
        have hp : (loglike (x a), place (x a) a) ∈ (p.logl, p.theta) :: rest.map (fun p => (p.logl, p.theta)) :=
          hpp.symm.subset (by simp)
        rcases List.mem_cons.mp hp with h | h
        · exact h.symm
        · obtain ⟨q, hq, e⟩ := List.mem_map.mp h
          have h5 := h2 q hq
          have h6 : q.logl = loglike (x a) := congrArg Prod.fst e
          linarith
      have hrest : (rest.map (fun p => (p.logl, p.theta))).Perm ((A.toList.erase a).map (fun b => (loglike (x b), place (x b) b))) := by
        rw [hdead] at hpp
        exact hpp.cons_inv
      have hSD : ∀ b ∈ S, b ∉ D := fun b hb => Finset.disjoint_left.mp hd hb
      have hSA : Disjoint S A := Finset.disjoint_left.mpr fun b hb hbA => hSD b hb (hAD hbA)
      have := ih (k := k) (hist := (a, x a) :: hist) (A := A.erase a ∪ S) (D := D ∪ S)
        (x := fun b => if b ∈ S then x a * x b else x b)
        (Finset.union_subset_union ((Finset.erase_subset _ _).trans hAD) (Finset.Subset.refl _)) hf
        (fun b hb => by
          by_cases hbS : b ∈ S
          · simp only [hbS, if_true]
            rw [hxu b (hSD b hbS)]
            exact ⟨mul_pos (hx a ha).1 (hu b).1, mul_lt_one_of_nonneg_of_lt_one_left (hx a ha).1.le (hx a ha).2 (hu b).2.le⟩
          · simp only [hbS, if_false]
            rcases Finset.mem_union.mp hb with hb | hb
            · exact hx b (Finset.mem_of_mem_erase hb)
            · exact absurd hb hbS)
        (fun b hb => by
          rw [Finset.mem_union, not_or] at hb
          simp only [hb.2, if_false]
          exact hxu b hb.1)
        (by
          rw [List.map_append]
          refine (hrest.append hb).trans ?_
          refine List.Perm.trans ?_ ((perm_erase_union (List.Perm.refl A.toList) (a := a) hSA).map _)
          rw [List.map_append]
          refine List.Perm.of_eq ?_
          congr 1
          · refine List.map_congr_left fun b hb => ?_
            rw [if_neg (fun hbS => Finset.disjoint_left.mp hSA hbS (hmem b hb))]
          · refine List.map_congr_left fun b hb => ?_
            have hbS := Finset.mem_toList.mp hb
            rw [if_pos hbS, hxu b (hSD b hbS)])
        hfa
      rw [List.map_cons, List.map_cons, this]
      congr 1
      exact congrArg Prod.snd hdead

section

variable {Ω : Type} [MeasurableSpace Ω] {P : Measure Ω} [MeasurableSpace E] {ν : Measure E} {draws : Ω → Fin N → ℝ} {spots : Ω → Fin N → E}

theorem Spec.IidPoints.aemeasurable [IsProbabilityMeasure ν] (h : IidPoints P ν draws spots) : AEMeasurable (fun ω => (draws ω, spots ω)) P := by
  refine aemeasurable_of_map_neZero ⟨fun h0 => ?_⟩
  rw [IidPoints] at h
  rw [h] at h0
  have := congrArg (fun m => m Set.univ) h0
  change ((unifPow N).prod (Measure.pi fun _ : Fin N => ν)) Set.univ = 0 at this
  rw [measure_univ] at this
  exact one_ne_zero this

theorem Spec.IidPoints.uniform [IsProbabilityMeasure ν] (h : IidPoints P ν draws spots) : IidUniform P N (fun ω => List.ofFn (draws ω)) := by
  have e : ∀ ω, (fun i : Fin N => (List.ofFn (draws ω)).getD i 0) = draws ω := fun ω => by
    funext i
    simp [List.getD_eq_getElem?_getD]
  change P.map (fun ω => fun i : Fin N => (List.ofFn (draws ω)).getD i 0) = unifPow N
  rw [funext e]
  have h1 : P.map draws = (P.map (fun ω => (draws ω, spots ω))).map Prod.fst := by
    rw [AEMeasurable.map_map_of_aemeasurable measurable_fst.aemeasurable h.aemeasurable]
    rfl
  rw [h1, h]
  change ((unifPow N).prod (Measure.pi fun _ : Fin N => ν)).map Prod.fst = unifPow N
  rw [Measure.map_fst_prod, measure_univ, one_smul]

/-- C96.  With probability one such executions exist, and from every one, in whatever order its points are written,
`process_samples_array` returns a run without error: its samples are the points in the order of removal, with their loglikelihoods and
their parameters. -/
theorem C96_run [IsProbabilityMeasure ν] {R : Rng σ ℝ} {rule : Rule N} {start : Finset (Fin N)} (hs : StoppingSchedule rule start)
    (hu : IidPoints P ν draws spots) {loglike : ℝ → ℝ} (hanti : StrictAntiOn loglike (Set.Ioo 0 1)) {init : ℝ}
    (hinit : ∀ x ∈ Set.Ioo (0 : ℝ) 1, init < loglike x) (place : ℝ → E → List ℝ) :
    ∀ᵐ ω ∂P, (∃ live its, PosteriorExecution loglike place rule start (draws ω) (spots ω) init live its) ∧
      ∀ live its, PosteriorExecution loglike place rule start (draws ω) (spots ω) init live its →
        ∀ samples, samples.Perm (its.map (·.dead)) → ∀ (A : Argsort ℝ) (da dw : Bool),
          ∃ r : Run ℝ, (∀ w : World σ, processSamples A R samples da dw w = (.ok r, w)) ∧
            r.logl = (removals rule start (draws ω)).map (fun s => loglike s.volume) ∧
            r.theta = (removals rule start (draws ω)).map (fun s => place s.volume (spots ω s.point)) ∧
            r.nlive = (removals rule start (draws ω)).map (fun s => (s.alive : Int)) := by
  have hne := hs.nonempty
  filter_upwards [adaptive_ae hs hu.uniform] with ω ⟨h1, h2, h3⟩
  have e : (fun i : Fin N => (List.ofFn (draws ω)).getD i 0) = draws ω := by
    funext i
    simp [List.getD_eq_getElem?_getD]
  have h1 : ∀ b, draws ω b ∈ Set.Ioo (0 : ℝ) 1 := fun b => by
    have := h1 b
    rwa [show (List.ofFn (draws ω)).getD b 0 = draws ω b from congrFun e b] at this
  rw [e] at h2 h3
  set u : Fin N → ℝ := draws ω with hu'
  constructor
  · set smp : Fin N → Sample ℝ := fun b => ⟨place (u b) (spots ω b), loglike (u b), init⟩ with hsmp
    have hch : List.IsChain (· > ·) ((iterate rule N [] start u).map (·.volume)) :=
      (chain_of_shrinkages _ one_pos h2 (fun v hv => (h3 v hv).2)).tail
    obtain ⟨its, e1, e2⟩ := exists_sampling_removals hanti h1 (fun x b => place x (spots ω b)) N (x := u) (la := start.toList) (smp := smp)
      (Finset.Subset.refl _) hs.fresh (by rw [Finset.card_compl, Fintype.card_fin]; have := Finset.card_le_univ start; simp at this; omega)
      (fun b _ => h1 b) (fun _ _ => rfl) (List.Perm.refl _) (fun _ _ => ⟨rfl, rfl⟩) hch
    refine ⟨start.toList.map smp, its, ⟨?_, ?_, ?_⟩, e1, ?_, e2⟩
    · obtain ⟨b, hb⟩ := hne
      exact List.ne_nil_of_mem (List.mem_map_of_mem (Finset.mem_toList.mpr hb))
    · intro q hq
      obtain ⟨b, _, rfl⟩ := List.mem_map.mp hq
      rfl
    · intro q hq
      obtain ⟨b, _, rfl⟩ := List.mem_map.mp hq
      exact hinit _ (h1 b)
    · rw [List.map_map]
      exact List.Perm.refl _
  · intro live its hex samples hperm A da dw
    obtain ⟨r, e1, e2, e3, e4⟩ := C87_replay (R := R) (σ := σ) hex.prior hex.run hperm A da dw
    obtain ⟨d1, d2⟩ := hex.run.dead_removals hanti h1 (Finset.Subset.refl _) hs.fresh (fun b _ => h1 b) (fun _ _ => rfl) hex.adaptive.initial
      hex.adaptive.added
    have d3 := hex.run.dead_places hanti (place := fun x b => place x (spots ω b)) h1 (Finset.Subset.refl _) hs.fresh (fun b _ => h1 b)
      (fun _ _ => rfl) hex.initial hex.added
    refine ⟨r, e1, e2.trans d1, e3.trans d3, ?_⟩
    have := congrArg (List.map (fun m : Nat => (m : Int))) d2
    rw [List.map_map, List.map_map] at this
    exact e4.trans this

end

end

end Nestcheck
