import Verif.Props.StaticBootstrap

/-! C102: an example. -/

namespace Nestcheck
open Spec MeasureTheory ProbabilityTheory ENNReal Filter Topology

noncomputable section

/-- Each of the first `n` points removed is replaced, and then the sampler stops. -/
def onceRule (n : Nat) : Rule (n + n) := fun hist =>
  if h : 0 < hist.length ∧ hist.length ≤ n then {⟨n + (hist.length - 1), by omega⟩} else ∅

/-- The first `n` points. -/
def onceStart (n : Nat) : Finset (Fin (n + n)) := Finset.univ.filter (fun i => (i : Nat) < n)

theorem onceStart_card (n : Nat) : (onceStart n).card = n := by
  have h : onceStart n = Finset.univ.map (Fin.castAddEmb n) := by
    ext i
    simp only [onceStart, Finset.mem_filter, Finset.mem_univ, true_and, Finset.mem_map, Fin.castAddEmb_apply]
    constructor
    · intro h
      exact ⟨⟨i, h⟩, by ext; simp⟩
    · rintro ⟨j, rfl⟩
      simp
  rw [h, Finset.card_map]
  simp

theorem onceRule_fresh (n : Nat) : ∀ (k : Nat) (hist : List (Fin (n + n) × ℝ)) (A D : Finset (Fin (n + n))),
    (∀ i ∈ D, (i : Nat) < n + hist.length) → Fresh (onceRule n) k hist A D
  | 0, _, _, _, _ => trivial
  | k + 1, hist, A, D, h => by
    intro a _ t
    have hr : ∀ i ∈ onceRule n ((a, t) :: hist), (i : Nat) = n + hist.length := by
      intro i hi
      unfold onceRule at hi
      split_ifs at hi with hc
      · rw [Finset.mem_singleton] at hi
        rw [hi]
        simp
      · simp at hi
    refine ⟨?_, onceRule_fresh n k _ _ _ ?_⟩
    · rw [Finset.disjoint_left]
      intro i hi hD
      have := hr i hi
      have := h i hD
      omega
    · intro i hi
      rw [List.length_cons]
      rcases Finset.mem_union.mp hi with hi | hi
      · have := h i hi; omega
      · have := hr i hi; omega

theorem onceRule_static {n : Nat} (hn : 0 < n) : StaticSchedule (onceRule n) (onceStart n) where
  nonempty := by
    rw [← Finset.card_pos, onceStart_card]
    exact hn
  measurable := by
    intro points S
    have h : ∀ v : Fin points.length → ℝ, onceRule n (points.zip (List.ofFn v)) = onceRule n (points.zip (List.ofFn (fun _ : Fin points.length => 0))) := by
      intro v
      unfold onceRule
      simp
    simp only [h]
    exact MeasurableSet.const _
  fresh := by
    refine onceRule_fresh n _ [] _ _ fun i hi => ?_
    have := (Finset.mem_filter.mp hi).2
    simpa using this
  single := by
    intro hist
    unfold onceRule
    split_ifs <;> simp
  stops := by
    intro p hist hne h
    have hpos := List.length_pos_iff.mpr hne
    unfold onceRule at h ⊢
    by_cases hc : hist.length ≤ n
    · rw [dif_pos ⟨hpos, hc⟩] at h
      simp at h
    · rw [dif_neg]
      simp only [List.length_cons]
      omega

/-- A generator whose state holds all the draws. -/
def threadRng : Rng (Nat → Nat) ℝ where
  seed _ := fun _ => 0
  seedOS _ := fun _ => 0
  randint lo hi n s := ((List.range n).map (fun i => if lo ≤ s i ∧ s i < hi then s i else lo), fun i => s (i + n))
  randint_length := by simp
  randint_range := by
    intro lo hi n s h x hx
    obtain ⟨k, _, rfl⟩ := List.mem_map.mp hx
    split_ifs with h2
    · exact h2
    · exact ⟨le_rfl, h⟩
  shuffle n s := (List.range n, s)
  shuffle_perm _ _ := List.Perm.refl _
  uniform n s := (List.replicate n 0, s)
  uniform_length := by simp
  uniform_range := by
    intro n s x hx
    rw [List.eq_of_mem_replicate hx]
    exact ⟨le_rfl, one_pos⟩

/-- The law of the draws of the sampler and of the threads. -/
def exLaw (n : Nat) : Measure ((Fin (n + n) → ℝ) × (Fin (onceStart n).card → Nat)) :=
  (unifPow (n + n)).prod (Measure.pi (fun j : Fin (onceStart n).card => uniformOn (group (onceStart n).card none j : Set Nat)))

/-- The state of the generator: first the draws of the threads. -/
def exState {n : Nat} (v : Fin n → Nat) : Nat → Nat := fun i => if h : i < n then v ⟨i, h⟩ else 0

theorem exState_indexes {n : Nat} (hn : 0 < n) : ∀ᵐ v ∂Measure.pi (fun j : Fin n => uniformOn (group n none j : Set Nat)),
    (fun j : Fin n => (indexes threadRng n none (exState v)).getD j 0) = v := by
  have hprob := fun j => group_prob (sep := none) (n := n) (by simp) j
  have hr : ∀ j, ∀ᵐ x ∂(uniformOn (group n none j : Set Nat)), x < n := by
    intro j
    rw [ae_iff, uniformOn_eq_zero_iff (Finset.finite_toSet _)]
    ext x
    simp [group]
  have : ∀ᵐ s : Fin n → Nat ∂(Measure.pi (fun j : Fin n => uniformOn (group n none j : Set Nat))), ∀ i, s i < n :=
    ae_all_iff.mpr fun i => (measurePreserving_eval (fun j : Fin n => uniformOn (group n none j : Set Nat)) i).quasiMeasurePreserving.ae (hr i)
  filter_upwards [this] with v hv
  funext j
  have h1 := hv j
  simp [indexes, block, threadRng, exState, List.getD_eq_getElem?_getD, hn.ne', h1]

/-- C102 applies to samplers with `k + 1` live points, each of which is replaced once, and one replication of each run. -/
example (A B : Argsort ℝ) {δ : ℝ} (hδ : 0 < δ) : Tendsto (fun k => exLaw (k + 1) {p | ∃ live its samples,
    AdaptiveExecution (fun x => -x) (onceRule (k + 1)) (onceStart (k + 1)) (fun i => (List.ofFn p.1).getD i 0) (-1) live its ∧
      samples.Perm (its.map (·.dead)) ∧ SameDim (samples.map (·.theta)) ∧ ∃ (w' : World (Nat → Nat)),
        ¬ ∃ (r run : Run ℝ) (w'' : World (Nat → Nat)) (z : ℝ), processSamples A threadRng samples false false w' = (.ok r, w') ∧
          bootstrapResampleRun B threadRng r none none false .keep ⟨exState p.2, []⟩ = (.ok (run, none), w'') ∧
          logz threadRng run none false w'' = (.ok z, w'') ∧ |z - Real.log (∫ x in (0 : ℝ)..1, Real.exp (-x))| < δ}) atTop (𝓝 0) := by
  have hcard : ∀ k, 0 < (onceStart (k + 1)).card := fun k => by rw [onceStart_card]; omega
  have hprob := fun k j => group_prob (sep := none) (n := (onceStart (k + 1)).card) (by simp) j
  have h1 : ∀ k, (fun (p : (Fin (k + 1 + (k + 1)) → ℝ) × (Fin (onceStart (k + 1)).card → Nat)) (i : Fin (k + 1 + (k + 1))) =>
      (List.ofFn p.1).getD i 0) = Prod.fst := by
    intro k
    funext p i
    rw [List.getD_eq_getElem?_getD, List.getElem?_eq_getElem (by rw [List.length_ofFn]; exact i.2), List.getElem_ofFn]
    rfl
  have h2 : ∀ k, (fun (p : (Fin (k + 1 + (k + 1)) → ℝ) × (Fin (onceStart (k + 1)).card → Nat)) (j : Fin (onceStart (k + 1)).card) =>
      (indexes threadRng (onceStart (k + 1)).card none (exState p.2)).getD j 0) =ᵐ[exLaw (k + 1)] Prod.snd := fun k =>
    Measure.quasiMeasurePreserving_snd.ae (exState_indexes (hcard k))
  have := C102_logz (R := threadRng) (P := fun k => exLaw (k + 1)) (N := fun k => k + 1 + (k + 1)) (rule := fun k => onceRule (k + 1))
    (start := fun k => onceStart (k + 1)) (draws := fun k p => List.ofFn p.1) (settings := fun _ => none) (sep := fun _ => false)
    (w := fun k p => ⟨exState p.2, []⟩) (seed := fun _ _ => .keep) (fun k => onceRule_static (by omega)) ?_ ?_ (loglike := fun x => -x) (init := -1)
    (b := 0) ?_ ?_ ?_ (by simp [separately]) ?_ ?_ hδ
  · refine tendsto_of_tendsto_of_tendsto_of_le_of_le tendsto_const_nhds this (fun k => zero_le) fun k => measure_mono ?_
    rintro p ⟨live, its, samples, q1, q2, q3, w', q4⟩
    exact ⟨live, its, samples, q1, q2, q3, A, B, false, false, w', q4⟩
  · intro k
    unfold IidUniform
    rw [h1 k]
    exact (Measure.fst_prod (μ := unifPow (k + 1 + (k + 1))))
  · simp only [onceStart_card]
    exact tendsto_add_atTop_nat 1
  · intro x _ y _ h
    simpa using h
  · intro x hx
    linarith [hx.2]
  · intro x hx
    linarith [hx.1]
  · intro k
    unfold IndependentDraws
    refine (Measure.map_congr (h2 k)).trans ?_
    exact Measure.snd_prod
  · intro k
    refine IndepFun.congr ?_ (EventuallyEq.of_eq (h1 k).symm) (h2 k).symm
    exact indepFun_prod (X := id) (Y := id) measurable_id measurable_id

end
end Nestcheck
