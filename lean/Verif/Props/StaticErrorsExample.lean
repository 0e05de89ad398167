import Verif.Props.StaticErrors
import Verif.Props.StaticExample

/-! C103: an example. -/

namespace Nestcheck
open Spec MeasureTheory ProbabilityTheory ENNReal Filter Topology

noncomputable section

/-- The law of the threads of one replication. -/
def threadLaw (n : Nat) : Measure (Fin n → Nat) := Measure.pi (fun j : Fin n => uniformOn (group n none j : Set Nat))

/-- The state of the generator: the draws of two replications. -/
def pairState {n : Nat} (v : (Fin n → Nat) × (Fin n → Nat)) : Nat → Nat := fun i => if i < n then exState v.1 i else exState v.2 (i - n)

theorem threadLaw_prob (n : Nat) : IsProbabilityMeasure (threadLaw n) := by
  have hprob := fun j => group_prob (sep := none) (n := n) (by simp) j
  unfold threadLaw
  infer_instance

theorem pairState_indexes {n : Nat} (hn : 0 < n) (v : (Fin n → Nat) × (Fin n → Nat)) :
    replicaIndexes threadRng n none [.keep, .keep] (pairState v) = [indexes threadRng n none (exState v.1), indexes threadRng n none (exState v.2)] := by
  have h1 : indexes threadRng n none (pairState v) = indexes threadRng n none (exState v.1) := by
    simp only [indexes, block, threadRng, hn.ne', if_false]
    apply List.map_congr_left
    intro i hi
    have := List.mem_range.mp hi
    simp [pairState, this]
  have h2 : following threadRng n none (pairState v) = exState v.2 := by
    funext i
    simp [following, block, threadRng, hn.ne', pairState]
  simp [replicaIndexes, drawStates, stateAfter, seeded, h1, h2]

/-- The law of the draws of the sampler and of the threads of two replications. -/
def pairLaw (n : Nat) : Measure ((Fin (n + n) → ℝ) × ((Fin (onceStart n).card → Nat) × (Fin (onceStart n).card → Nat))) :=
  (unifPow (n + n)).prod ((threadLaw (onceStart n).card).prod (threadLaw (onceStart n).card))

/-- C103 applies to samplers with `k + 1` live points, each of which is replaced once, and two replications of each run. -/
example (A B : Argsort ℝ) {δ : ℝ} (hδ : 0 < δ) : Tendsto (fun k => pairLaw (k + 1) {p | ∃ live its samples,
    AdaptiveExecution (fun x => -x) (onceRule (k + 1)) (onceStart (k + 1)) (fun i => (List.ofFn p.1).getD i 0) (-1) live its ∧
      samples.Perm (its.map (·.dead)) ∧ SameDim (samples.map (·.theta)) ∧ ∃ (w' : World (Nat → Nat)),
        ¬ ∃ (r : Run ℝ) (s : ℝ) (w'' : World (Nat → Nat)), processSamples A threadRng samples false false w' = (.ok r, w') ∧
          runStdBootstrap B threadRng r none [Estimator.logz.call A threadRng] 2 false true (some [.keep, .keep]) ⟨pairState p.2, []⟩ =
            (.ok [some s], w'') ∧ 0 ≤ s ∧ s < δ}) atTop (𝓝 0) := by
  have hcard : ∀ k, 0 < (onceStart (k + 1)).card := fun k => by rw [onceStart_card]; omega
  have hprob := threadLaw_prob
  have h1 : ∀ k, (fun (p : (Fin (k + 1 + (k + 1)) → ℝ) × ((Fin (onceStart (k + 1)).card → Nat) × (Fin (onceStart (k + 1)).card → Nat)))
      (i : Fin (k + 1 + (k + 1))) => (List.ofFn p.1).getD i 0) = Prod.fst := by
    intro k
    funext p i
    rw [List.getD_eq_getElem?_getD, List.getElem?_eq_getElem (by rw [List.length_ofFn]; exact i.2), List.getElem_ofFn]
    rfl
  have h2 : ∀ k, ∀ j < 2, (fun (p : (Fin (k + 1 + (k + 1)) → ℝ) × ((Fin (onceStart (k + 1)).card → Nat) × (Fin (onceStart (k + 1)).card → Nat)))
      (i : Fin (onceStart (k + 1)).card) => ((replicaIndexes threadRng (onceStart (k + 1)).card none [.keep, .keep] (pairState p.2)).getD j []).getD i 0)
      =ᵐ[pairLaw (k + 1)] fun p => if j = 0 then p.2.1 else p.2.2 := by
    intro k j hj
    have e1 := Measure.quasiMeasurePreserving_snd (μ := unifPow (k + 1 + (k + 1)))
      (ν := (threadLaw (onceStart (k + 1)).card).prod (threadLaw (onceStart (k + 1)).card)) |>.ae
      (Measure.quasiMeasurePreserving_fst.ae (exState_indexes (hcard k)))
    have e2 := Measure.quasiMeasurePreserving_snd (μ := unifPow (k + 1 + (k + 1)))
      (ν := (threadLaw (onceStart (k + 1)).card).prod (threadLaw (onceStart (k + 1)).card)) |>.ae
      (Measure.quasiMeasurePreserving_snd.ae (exState_indexes (hcard k)))
    filter_upwards [e1, e2] with p e1 e2
    rw [pairState_indexes (hcard k)]
    interval_cases j
    · exact e1
    · exact e2
  have := C103_std (R := threadRng) (P := fun k => pairLaw (k + 1)) (N := fun k => k + 1 + (k + 1)) (rule := fun k => onceRule (k + 1))
    (start := fun k => onceStart (k + 1)) (draws := fun k p => List.ofFn p.1) (settings := fun _ => none) (sep := fun _ => false)
    (w := fun k p => ⟨pairState p.2, []⟩) (seeds := fun _ _ => [.keep, .keep]) (n := 2) (fun k => onceRule_static (by omega)) ?_ ?_
    (loglike := fun x => -x) (init := -1) (b := 0) ?_ ?_ ?_ (by simp [separately]) (fun _ _ => rfl) ?_ ?_ hδ le_rfl
  · refine tendsto_of_tendsto_of_tendsto_of_le_of_le tendsto_const_nhds this (fun k => zero_le) fun k => measure_mono ?_
    rintro p ⟨live, its, samples, q1, q2, q3, w', q4⟩
    refine ⟨live, its, samples, q1, q2, q3, A, B, false, false, w', ?_⟩
    rintro ⟨r, e1, e2, e3⟩
    obtain ⟨stds, w'', e4⟩ := e2 A true
    obtain ⟨s, e5, e6, e7⟩ := e3 [Estimator.logz.call A threadRng] (by
      intro f hf
      rw [List.mem_singleton.mp hf]
      exact C35_builtin A threadRng .logz) A 0 rfl true stds w'' e4
    have hl : stds.length = 1 := by
      have e8 := e4
      unfold runStdBootstrap at e8
      obtain ⟨vals, w1, hv, e8⟩ := M.bind_eq_ok.mp e8
      simp only [M.pure_apply, Prod.mk.injEq, Except.ok.injEq] at e8
      rw [← e8.1, List.length_map]
      exact (bootstrapValues_shape B threadRng (by rw [hv])).1
    have hst : stds = [some s] := by
      match stds, hl, e5 with
      | [x], _, e5 => simpa using e5
    exact q4 ⟨r, s, w'', e1, by rw [← hst]; exact e4, e6, e7⟩
  · intro k
    unfold IidUniform
    rw [h1 k]
    exact (Measure.fst_prod (μ := unifPow (k + 1 + (k + 1))))
  · simp only [onceStart_card]
    exact tendsto_add_atTop_nat 1
  · intro x _ y _ h
    simpa using h
  · intro x hx
    linarith [hx.2]
  · intro x hx
    linarith [hx.1]
  · intro k j hj
    unfold IndependentDraws
    refine (Measure.map_congr (h2 k j hj)).trans ?_
    interval_cases j
    · exact (measurePreserving_fst.comp measurePreserving_snd).map_eq
    · exact (measurePreserving_snd.comp measurePreserving_snd).map_eq
  · intro k j hj
    refine IndepFun.congr ?_ (EventuallyEq.of_eq (h1 k).symm) (h2 k j hj).symm
    refine indepFun_prod (X := id) (Y := fun q : (Fin (onceStart (k + 1)).card → Nat) × (Fin (onceStart (k + 1)).card → Nat) => if j = 0 then q.1 else q.2)
      measurable_id ?_
    split_ifs
    · exact measurable_fst
    · exact measurable_snd

end
end Nestcheck
