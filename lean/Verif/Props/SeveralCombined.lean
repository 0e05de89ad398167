import Verif.Props.SeveralRun
import Verif.Props.PosteriorEstimates

/-! C108: posterior estimates from the combined runs of several adaptive samplers. -/

namespace Nestcheck
open Spec MeasureTheory ENNReal Filter Topology
variable {m : Nat} {n : Fin m → Nat} {E σ : Type}

noncomputable section

theorem own_trace {loglike : ℝ → ℝ} {rule : ∀ i, Rule (n i)} {start : ∀ i, Finset (Fin (n i))} (hf : Fresh (sideBySide rule) (∑ i, n i) [] (startOfAll start) (startOfAll start))
    (u : ∀ i, Fin (n i) → ℝ) (init : ℝ) (i : Fin m) :
    (trace loglike (sideBySide rule) (∑ i, n i) [] (startOfAll start) (together u) (fun _ => init)).filterMap
        (fun p => (own i p.1).map (fun b => (b, p.2))) =
      trace loglike (rule i) (n i) [] (start i) (u i) (fun _ => init) := by
  have h := trace_own (loglike := loglike) (∑ i, n i) (x := together u) (β := fun _ => init) (ks := n) hf
    (by rw [Finset.card_add_card_compl, Fintype.card_fin]) (fun i => by rw [Finset.card_add_card_compl, Fintype.card_fin]) i
  rw [h, ownSet_start]
  have e : together u ∘ idx i = u i := by
    funext b
    exact together_idx u i b
  rw [e]
  rfl

/-- The samples of all samplers are those of the samplers side by side. -/
theorem several_samples {loglike : ℝ → ℝ} (hanti : StrictAntiOn loglike (Set.Ioo 0 1)) {place : ℝ → E → List ℝ} {rule : ∀ i, Rule (n i)}
    {start : ∀ i, Finset (Fin (n i))} (hs : ∀ i, StoppingSchedule (rule i) (start i)) (hS : StoppingSchedule (sideBySide rule) (startOfAll start))
    {u : ∀ i, Fin (n i) → ℝ} (hu : ∀ j, together u j ∈ Set.Ioo (0 : ℝ) 1)
    {e : ∀ i, Fin (n i) → E} {init : ℝ} {live : Fin m → List (Sample ℝ)} {its : Fin m → List (Iteration ℝ)}
    (h : SeveralExecutions loglike place rule start u e init live its) {samples : Fin m → List (Sample ℝ)}
    (hsam : ∀ i, (samples i).Perm ((its i).map (·.dead))) :
    (List.ofFn samples).flatten.Perm ((trace loglike (sideBySide rule) (∑ i, n i) [] (startOfAll start) (together u) (fun _ => init)).map
      (fun p => ⟨place p.2.1 (together e p.1), loglike p.2.1, p.2.2⟩)) := by
  set T := trace loglike (sideBySide rule) (∑ i, n i) [] (startOfAll start) (together u) (fun _ => init) with hT
  refine List.Perm.trans ?_ ((perm_own T).map _)
  rw [List.map_flatten]
  refine List.Perm.flatten_congr ?_
  rw [List.map_ofFn, List.forall₂_iff_get]
  refine ⟨by simp, fun j h1 h2 => ?_⟩
  simp only [List.get_eq_getElem, List.getElem_ofFn, Function.comp]
  set i : Fin m := ⟨j, by simpa using h1⟩
  have hui : ∀ b, u i b ∈ Set.Ioo (0 : ℝ) 1 := fun b => by
    have := hu (idx i b)
    rwa [together_idx] at this
  refine (hsam i).trans (List.Perm.of_eq ?_)
  rw [(h i).trace hanti (hs i) hui, List.map_map, hT, own_trace hS.fresh]
  refine List.map_congr_left fun p _ => ?_
  simp only [Function.comp, together_idx]

/-- What was used of the starting points: at most one is added to each sampler when its first point is removed. -/
theorem lowest_birth {init : ℝ} {live : Fin m → List (Sample ℝ)} {its : Fin m → List (Iteration ℝ)} {samples : Fin m → List (Sample ℝ)}
    (hprior : ∀ i, FromPrior (live i) init) (hrun : ∀ i, Sampling (live i) (its i) []) (hsam : ∀ i, (samples i).Perm ((its i).map (·.dead)))
    (hone : ∀ i it, (its i).head? = some it → it.born.length ≤ 1) (hind : Independent (List.ofFn samples) init) :
    ∀ u ∈ (List.ofFn samples).flatten, (∀ v ∈ (List.ofFn samples).flatten, u.logl ≤ v.logl) →
      ∀ s ∈ (List.ofFn samples).flatten, ∀ t ∈ (List.ofFn samples).flatten, s.birth = u.logl → t.birth = u.logl → s.logl = t.logl := by
  intro u hu hmin
  obtain ⟨g, hg, hug⟩ := List.mem_flatten.mp hu
  obtain ⟨i, rfl⟩ := List.mem_ofFn.mp hg
  have hgi := hg
  have hbelow := (hind.consistent _ hgi).below u hug
  have key : ∀ s ∈ (List.ofFn samples).flatten, s.birth = u.logl → ∃ it, (its i).head? = some it ∧ s ∈ it.born := by
    intro s hs hb
    obtain ⟨g', hg', hsg⟩ := List.mem_flatten.mp hs
    have hsi : s ∈ samples i := by
      rcases (hind.consistent g' hg').births s hsg with e | ⟨t, ht, e, -⟩
      · rw [e] at hb
        exact absurd hb (ne_of_lt hbelow)
      · have htu : t = u := hind.eq_of_logl (List.mem_flatten.mpr ⟨g', hg', ht⟩) hu (e.symm.trans hb)
        rw [htu] at ht
        rw [hind.eq_group hg' hgi ht hug] at hsg
        exact hsg
    have hsd : s ∈ (its i).map (·.dead) ++ [] := by simpa using (hsam i).mem_iff.mp hsi
    rcases (hrun i).origin hsd with h | ⟨it, hit, h⟩
    · rw [(hprior i).birth s h] at hb
      exact absurd hb (ne_of_lt hbelow)
    · have hd := ((hrun i).born it hit s h).1
      have hasc := (hrun i).ascending
      obtain ⟨it0, tl, e0⟩ : ∃ it0 tl, its i = it0 :: tl := by
        cases hit' : its i with
        | nil => rw [hit'] at hit; simp at hit
        | cons a b => exact ⟨a, b, rfl⟩
      refine ⟨it0, by rw [e0]; rfl, ?_⟩
      rw [e0, List.map_cons, List.pairwise_cons] at hasc
      rw [e0] at hit
      rcases List.mem_cons.mp hit with rfl | hit
      · exact h
      · have h1 := hasc.1 _ (List.mem_map_of_mem hit)
        have h2 : it0.dead ∈ (List.ofFn samples).flatten := by
          refine List.mem_flatten.mpr ⟨_, hgi, (hsam i).mem_iff.mpr ?_⟩
          rw [e0]
          simp
        have h3 := hmin _ h2
        rw [← hb, hd] at h3
        exact absurd h1 h3.not_gt
  intro s hs t ht hbs hbt
  obtain ⟨it, e1, m1⟩ := key s hs hbs
  obtain ⟨it', e2, m2⟩ := key t ht hbt
  obtain rfl : it' = it := by rw [e1] at e2; exact (Option.some.inj e2).symm
  have hle := hone i _ e1
  match hb : it'.born with
  | [] => rw [hb] at m1; simp at m1
  | [x] =>
    rw [hb] at m1 m2
    rw [List.mem_singleton.mp m1, List.mem_singleton.mp m2]
  | x :: y :: l => rw [hb] at hle; simp at hle

theorem slow_head {loglike : ℝ → ℝ} {place : ℝ → E → List ℝ} {N : Nat} {rule : Rule N} {start : Finset (Fin N)} (h1 : SlowStart rule start)
    {u : Fin N → ℝ} {e : Fin N → E} {init : ℝ} {live : List (Sample ℝ)} {its : List (Iteration ℝ)}
    (h : PosteriorExecution loglike place rule start u e init live its) (it : Iteration ℝ) (hit : its.head? = some it) : it.born.length ≤ 1 := by
  have hfa := h.added
  cases its with
  | nil => simp at hit
  | cons it0 its =>
    simp only [List.head?_cons, Option.some.injEq] at hit
    subst hit
    cases N with
    | zero => simp [removals, iterate] at hfa
    | succ N =>
      unfold removals at hfa
      have hA : start.Nonempty := by
        by_contra hA
        rw [iterate_empty (tops_empty hA)] at hfa
        cases hfa
      have hne := tops_nonempty hA u
      rw [iterate_succ rfl hne] at hfa
      simp only [List.forall₂_cons] at hfa
      have := hfa.1.length_eq
      rw [List.length_map, List.length_map, Finset.length_toList] at this
      rw [this]
      exact h1 _ (min'_mem_of_tops hne) _

/-- The execution of the samplers side by side. -/
theorem exists_sideBySide {loglike : ℝ → ℝ} (hanti : StrictAntiOn loglike (Set.Ioo 0 1)) {N : Nat} {rule : Rule N} {start : Finset (Fin N)}
    (hs : StoppingSchedule rule start) {u : Fin N → ℝ} (h1 : ∀ b, u b ∈ Set.Ioo (0 : ℝ) 1)
    (hch : List.IsChain (· > ·) ((removals rule start u).map (·.volume))) {init : ℝ} (hinit : ∀ x ∈ Set.Ioo (0 : ℝ) 1, init < loglike x)
    (place : ℝ → E → List ℝ) (e : Fin N → E) : ∃ live its, PosteriorExecution loglike place rule start u e init live its := by
  set smp : Fin N → Sample ℝ := fun b => ⟨place (u b) (e b), loglike (u b), init⟩ with hsmp
  obtain ⟨its, e1, e2⟩ := exists_sampling_removals hanti h1 (fun x b => place x (e b)) N (x := u) (la := start.toList) (smp := smp)
    (Finset.Subset.refl _) hs.fresh (by rw [Finset.card_add_card_compl, Fintype.card_fin])
    (fun b _ => h1 b) (fun _ _ => rfl) (List.Perm.refl _) (fun _ _ => ⟨rfl, rfl⟩) hch
  refine ⟨start.toList.map smp, its, ⟨?_, ?_, ?_⟩, e1, ?_, e2⟩
  · obtain ⟨b, hb⟩ := hs.nonempty
    exact List.ne_nil_of_mem (List.mem_map_of_mem (Finset.mem_toList.mpr hb))
  · intro q hq
    obtain ⟨b, _, rfl⟩ := List.mem_map.mp hq
    rfl
  · intro q hq
    obtain ⟨b, _, rfl⟩ := List.mem_map.mp hq
    exact hinit _ (h1 b)
  · rw [List.map_map]
    exact List.Perm.refl _

/-- Some family of runs with these draws is not processed, or not combined, or the combined run is not `good`. -/
def CombinedMisses (R : Rng σ ℝ) (loglike : ℝ → ℝ) (place : ℝ → E → List ℝ) (rule : ∀ i, Rule (n i)) (start : ∀ i, Finset (Fin (n i)))
    (u : ∀ i, Fin (n i) → ℝ) (e : ∀ i, Fin (n i) → E) (init : ℝ) (good : Argsort ℝ → Run ℝ → World σ → Prop) : Prop :=
  ∃ (live : Fin m → List (Sample ℝ)) (its : Fin m → List (Iteration ℝ)) (samples : Fin m → List (Sample ℝ)),
    SeveralExecutions loglike place rule start u e init live its ∧ (∀ i, (samples i).Perm ((its i).map (·.dead))) ∧
    ∃ (A : Argsort ℝ) (da dw da' dw' : Bool) (w : World σ), ¬ ∃ (r : Fin m → Run ℝ) (c : Run ℝ),
      (∀ i, processSamples A R (samples i) da dw w = (.ok (r i), w)) ∧ combineRuns A (List.ofFn r) da' dw' w = (.ok c, w) ∧ good A c w

section

variable {Ω : Type} [MeasurableSpace Ω] {P : Measure Ω} [MeasurableSpace E] {ν : Measure E} [IsProbabilityMeasure ν]
  {draws : Ω → ∀ i, Fin (n i) → ℝ} {spots : Ω → ∀ i, Fin (n i) → E}

theorem sideBySide_ae {rule : ∀ i, Rule (n i)} {start : ∀ i, Finset (Fin (n i))} (hS : StoppingSchedule (sideBySide rule) (startOfAll start))
    (hu : IidPoints P ν (fun ω => together (draws ω)) (fun ω => together (spots ω))) :
    ∀ᵐ ω ∂P, (∀ j, together (draws ω) j ∈ Set.Ioo (0 : ℝ) 1) ∧
      ((removals (sideBySide rule) (startOfAll start) (together (draws ω))).map (·.volume)).Pairwise (· > ·) ∧
      ∀ v ∈ (removals (sideBySide rule) (startOfAll start) (together (draws ω))).map (·.volume), v ∈ Set.Ioo (0 : ℝ) 1 := by
  filter_upwards [adaptive_ae hS hu.uniform] with ω ⟨h1, h2, h3⟩
  have e : (fun i : Fin (∑ i, n i) => (List.ofFn (together (draws ω))).getD i 0) = together (draws ω) := by
    funext i
    simp [List.getD_eq_getElem?_getD]
  have h1 : ∀ b, together (draws ω) b ∈ Set.Ioo (0 : ℝ) 1 := fun b => by
    have := h1 b
    rwa [show (List.ofFn (together (draws ω))).getD b 0 = together (draws ω) b from congrFun e b] at this
  rw [e] at h2 h3
  have hp := (chain_of_shrinkages _ one_pos h2 (fun v hv => (h3 v hv).2)).pairwise
  rw [List.pairwise_cons] at hp
  refine ⟨h1, hp.2, fun v hv => ⟨?_, hp.1 v hv⟩⟩
  obtain ⟨s, hs, rfl⟩ := List.mem_map.mp hv
  exact (h2 s hs).1

theorem volumes_trace {loglike : ℝ → ℝ} {N : Nat} {rule : Rule N} {start : Finset (Fin N)} {u : Fin N → ℝ} {β : Fin N → ℝ} :
    (removals rule start u).map (·.volume) = (trace loglike rule N [] start u β).map (fun p => p.2.1) := by
  have h := congrArg (List.map Prod.snd) (trace_iterate (loglike := loglike) (rule := rule) N (hist := []) (A := start) (x := u) (β := β))
  rw [List.map_map, List.map_map] at h
  exact h.symm

variable [NeZero m]

/-- C108: executions of the samplers exist. -/
theorem C108_exists {rule : ∀ i, Rule (n i)} {start : ∀ i, Finset (Fin (n i))} (hs : ∀ i, StoppingSchedule (rule i) (start i))
    (hu : IidPoints P ν (fun ω => together (draws ω)) (fun ω => together (spots ω))) {loglike : ℝ → ℝ} (hanti : StrictAntiOn loglike (Set.Ioo 0 1))
    {init : ℝ} (hinit : ∀ x ∈ Set.Ioo (0 : ℝ) 1, init < loglike x) (place : ℝ → E → List ℝ) :
    ∀ᵐ ω ∂P, ∃ live its, SeveralExecutions loglike place rule start (draws ω) (spots ω) init live its := by
  have hS := sideBySide_stopping hs
  filter_upwards [sideBySide_ae hS hu] with ω ⟨h1, h2, _⟩
  have h : ∀ i, ∃ live its, PosteriorExecution loglike place (rule i) (start i) (draws ω i) (spots ω i) init live its := fun i => by
    refine exists_sideBySide hanti (hs i) (fun b => ?_) ?_ hinit place _
    · have := h1 (idx i b)
      rwa [together_idx] at this
    · rw [volumes_trace (loglike := loglike) (β := fun _ => init), ← own_trace hS.fresh (draws ω) init i, List.map_filterMap]
      rw [volumes_trace (loglike := loglike) (β := fun _ => init), List.pairwise_map] at h2
      refine List.Pairwise.isChain ?_
      refine List.Pairwise.filterMap _ ?_ h2
      intro p q hpq v hv v' hv'
      rw [Option.map_map] at hv hv'
      simp only [Option.map_eq_some_iff] at hv hv'
      obtain ⟨_, _, rfl⟩ := hv
      obtain ⟨_, _, rfl⟩ := hv'
      exact hpq
  choose live its h using h
  exact ⟨live, its, h⟩

/-- C108: almost surely, combining the runs of the samplers succeeds, and the combined run has the points and the numbers of live points of
one run of one adaptive sampler, the samplers side by side. -/
theorem C108_run {R : Rng σ ℝ} {rule : ∀ i, Rule (n i)} {start : ∀ i, Finset (Fin (n i))} (hs : ∀ i, StoppingSchedule (rule i) (start i))
    (hslow : ∀ i, SlowStart (rule i) (start i)) (hu : IidPoints P ν (fun ω => together (draws ω)) (fun ω => together (spots ω)))
    {loglike : ℝ → ℝ} (hanti : StrictAntiOn loglike (Set.Ioo 0 1)) {init : ℝ} (hinit : ∀ x ∈ Set.Ioo (0 : ℝ) 1, init < loglike x)
    {place : ℝ → E → List ℝ} (hd : ∀ x e x' e', (place x e).length = (place x' e').length) :
    ∀ᵐ ω ∂P, ∀ (live : Fin m → List (Sample ℝ)) (its : Fin m → List (Iteration ℝ)) (samples : Fin m → List (Sample ℝ)),
      SeveralExecutions loglike place rule start (draws ω) (spots ω) init live its → (∀ i, (samples i).Perm ((its i).map (·.dead))) →
      ∃ liveJ itsJ, PosteriorExecution loglike place (sideBySide rule) (startOfAll start) (together (draws ω)) (together (spots ω)) init liveJ itsJ ∧
        (List.ofFn samples).flatten.Perm (itsJ.map (·.dead)) ∧
        ∀ (A : Argsort ℝ) (da dw da' dw' : Bool), ∃ (r : Fin m → Run ℝ) (c c' : Run ℝ),
          (∀ i (w : World σ), processSamples A R (samples i) da dw w = (.ok (r i), w)) ∧
          (∀ w : World σ, combineRuns A (List.ofFn r) da' dw' w = (.ok c, w)) ∧
          (∀ w : World σ, processSamples A R (List.ofFn samples).flatten da dw w = (.ok c', w)) ∧
          c'.logl = c.logl ∧ c'.theta = c.theta ∧ c'.nlive = c.nlive := by
  have hS := sideBySide_stopping hs
  filter_upwards [sideBySide_ae hS hu] with ω ⟨h1, h2, h3⟩
  intro live its samples hex hsam
  obtain ⟨liveJ, itsJ, hJ⟩ := exists_sideBySide hanti hS h1 (List.Pairwise.isChain h2) hinit place (together (spots ω))
  have hperm := several_samples hanti hs hS h1 hex hsam
  have hdim : SameDim ((List.ofFn samples).flatten.map (·.theta)) := by
    have key : ∀ s ∈ (List.ofFn samples).flatten.map (·.theta), ∃ x e, s = place x e := by
      intro s hs'
      obtain ⟨p, hp, rfl⟩ := List.mem_map.mp hs'
      obtain ⟨t, _, rfl⟩ := List.mem_map.mp (hperm.mem_iff.mp hp)
      exact ⟨_, _, rfl⟩
    intro s hs' t ht'
    obtain ⟨x, e, rfl⟩ := key s hs'
    obtain ⟨x', e', rfl⟩ := key t ht'
    exact hd x e x' e'
  rw [← hJ.trace hanti hS h1] at hperm
  have hcons : ∀ i, Consistent (samples i) init := fun i =>
    C87_consistent (hex i).prior (hex i).run (by simp) (by simpa using hsam i)
  have hind : Independent (List.ofFn samples) init := by
    refine ⟨?_, ?_, ?_⟩
    · intro h0
      have := congrArg List.length h0
      simp only [List.length_ofFn, List.length_nil] at this
      exact NeZero.ne m this
    · intro g hg
      obtain ⟨i, rfl⟩ := List.mem_ofFn.mp hg
      exact hcons i
    · have hasc := hJ.run.ascending
      refine ((hperm.map (·.logl)).nodup_iff).mpr ?_
      rw [List.Nodup, List.pairwise_map]
      rw [List.pairwise_map] at hasc ⊢
      exact hasc.imp ne_of_lt
  have hlow := lowest_birth (fun i => (hex i).prior) (fun i => (hex i).run) hsam (fun i it => slow_head (hslow i) (hex i) it) hind
  refine ⟨liveJ, itsJ, hJ, hperm, fun A da dw da' dw' => ?_⟩
  obtain ⟨rs, c, c', labels, labels', tmm, tmm', k1, k2, k3, k4, k5, k6, -⟩ := C88_merge R hind hdim hlow A A da dw da' dw' (σ := σ)
  have hlen : rs.length = m := by
    have := k1.length_eq
    rw [List.length_ofFn] at this
    exact this.symm
  refine ⟨fun i => rs[(i : Nat)]'(by rw [hlen]; exact i.2), c, c', fun i w => ?_, fun w => ?_, k3, k4.symm, k5.symm, k6.symm⟩
  · have := (List.forall₂_iff_get.mp k1).2 i (by simp) (by rw [hlen]; exact i.2) w
    simpa using this
  · have e : List.ofFn (fun i : Fin m => rs[(i : Nat)]'(by rw [hlen]; exact i.2)) = rs := by
      apply List.ext_getElem
      · simpa using hlen.symm
      · intro j h1 h2
        simp
    rw [e]
    exact k2 w

/-- A combined run of the samplers has the points of a run of the samplers side by side. -/
theorem combinedMisses_le {R : Rng σ ℝ} {rule : ∀ i, Rule (n i)} {start : ∀ i, Finset (Fin (n i))} (hs : ∀ i, StoppingSchedule (rule i) (start i))
    (hslow : ∀ i, SlowStart (rule i) (start i)) (hu : IidPoints P ν (fun ω => together (draws ω)) (fun ω => together (spots ω)))
    {loglike : ℝ → ℝ} (hanti : StrictAntiOn loglike (Set.Ioo 0 1)) {init : ℝ} (hinit : ∀ x ∈ Set.Ioo (0 : ℝ) 1, init < loglike x)
    {place : ℝ → E → List ℝ} (hd : ∀ x e x' e', (place x e).length = (place x' e').length) {good : Argsort ℝ → Run ℝ → World σ → Prop}
    (hg : ∀ A r c w, r.logl = c.logl → r.theta = c.theta → r.nlive = c.nlive → good A r w → good A c w) :
    P {ω | CombinedMisses R loglike place rule start (draws ω) (spots ω) init good} ≤
      P {ω | Misses R loglike place (sideBySide rule) (startOfAll start) (together (draws ω)) (together (spots ω)) init good} := by
  refine measure_mono_ae ?_
  filter_upwards [C108_run (R := R) hs hslow hu hanti hinit hd] with ω h
  rintro ⟨live, its, samples, hex, hsam, A, da, dw, da', dw', w, hbad⟩
  obtain ⟨liveJ, itsJ, hJ, hperm, h⟩ := h live its samples hex hsam
  obtain ⟨r, c, c', k1, k2, k3, k4, k5, k6⟩ := h A da dw da' dw'
  refine ⟨liveJ, itsJ, _, hJ, hperm, A, da, dw, w, ?_⟩
  rintro ⟨r', er, gr⟩
  obtain rfl : c' = r' := by
    have := congrArg Prod.fst ((k3 w).symm.trans er)
    simpa using this
  exact hbad ⟨r, c, fun i => k1 i w, k2 w, hg A c' c w k4 k5 k6 gr⟩

end

end

end Nestcheck
