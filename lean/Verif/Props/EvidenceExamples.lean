import Verif.Props.AdaptiveEvidence

/-! Examples for C95. -/

namespace Nestcheck
open Spec MeasureTheory ENNReal Filter Topology
variable {σ : Type} {N : Nat}

noncomputable section

/-! ### Samplers which stop at half of the prior -/

/-- Standard nested sampling with `n` live points, which stops when a point encloses at most half of the prior, or after `m`
replacements. -/
def untilHalf (n m : Nat) : Rule (n + m) := fun hist =>
  if h : 0 < hist.length ∧ hist.length ≤ m ∧ ∀ p ∈ hist, 1 / 2 < p.2 then {⟨n + (hist.length - 1), by omega⟩} else ∅

theorem untilHalf_fresh (n m : Nat) : ∀ (k : Nat) {hist : List (Fin (n + m) × ℝ)} {A D : Finset (Fin (n + m))},
    (∀ i ∈ D, (i : Nat) < n + hist.length) → Fresh (untilHalf n m) k hist A D
  | 0, _, _, _, _ => trivial
  | k + 1, hist, A, D, hD => by
    intro a ha t
    have hB : ∀ i ∈ untilHalf n m ((a, t) :: hist), (i : Nat) = n + hist.length := by
      intro i hi
      simp only [untilHalf] at hi
      split_ifs at hi with h
      · rw [Finset.mem_singleton.mp hi]
        simp
      · simp at hi
    refine ⟨Finset.disjoint_left.mpr fun i hi hiD => ?_, untilHalf_fresh n m k fun i hi => ?_⟩
    · have := hB i hi
      have := hD i hiD
      omega
    · simp only [List.length_cons]
      rcases Finset.mem_union.mp hi with h | h
      · have := hD i h
        omega
      · have := hB i h
        omega

theorem untilHalf_stopping {n : Nat} (m : Nat) (hn : 0 < n) :
    StoppingSchedule (untilHalf n m) (Finset.univ.filter (fun i : Fin (n + m) => (i : Nat) < n)) where
  nonempty := ⟨⟨0, by omega⟩, by simpa using hn⟩
  measurable := by
    intro points S
    by_cases h1 : 0 < points.length ∧ points.length ≤ m
    · have : {v : Fin points.length → ℝ | untilHalf n m (points.zip (List.ofFn v)) = S} =
          {v | (if ∀ i, 1 / 2 < v i then ({⟨n + (points.length - 1), by omega⟩} : Finset (Fin (n + m))) else ∅) = S} := by
        ext v
        have hl : (points.zip (List.ofFn v)).length = points.length := by simp
        have hiff : (∀ p ∈ points.zip (List.ofFn v), 1 / 2 < p.2) ↔ ∀ i, 1 / 2 < v i := by
          have hz : (points.zip (List.ofFn v)).map Prod.snd = List.ofFn v := List.map_snd_zip (by simp)
          constructor
          · intro h i
            have hm : v i ∈ (points.zip (List.ofFn v)).map Prod.snd := by rw [hz]; exact List.mem_ofFn.mpr ⟨i, rfl⟩
            obtain ⟨p, hp, e⟩ := List.mem_map.mp hm
            rw [← e]
            exact h p hp
          · intro h p hp
            have : p.2 ∈ List.ofFn v := by rw [← hz]; exact List.mem_map_of_mem hp
            obtain ⟨i, hi⟩ := List.mem_ofFn.mp this
            rw [← hi]
            exact h i
        simp only [untilHalf, hl, hiff, h1, true_and, Set.mem_ofPred_eq]
        by_cases hv : ∀ i, 1 / 2 < v i
        · rw [dif_pos hv, if_pos hv]
        · rw [dif_neg hv, if_neg hv]
      rw [this]
      refine measurableSet_ite_eq ?_ _ _ _
      have : {v : Fin points.length → ℝ | ∀ i, 1 / 2 < v i} = ⋂ i, {v | 1 / 2 < v i} := by
        ext v
        simp
      rw [this]
      exact MeasurableSet.iInter fun i => measurableSet_lt measurable_const (measurable_pi_apply _)
    · have : ∀ v : Fin points.length → ℝ, untilHalf n m (points.zip (List.ofFn v)) = ∅ := fun v => by
        have hl : (points.zip (List.ofFn v)).length = points.length := by simp
        rw [untilHalf, dif_neg]
        rw [hl]
        tauto
      simp only [this]
      exact MeasurableSet.const _
  fresh := untilHalf_fresh n m _ (by simp)

/-- Samplers with 1, 2, 3, … live points which stop at half of the prior volume or after ten replacements: `logz` converges. -/
example : Tendsto (fun k : ℕ => unifPow (k + 1 + 10) {u | ∃ live its samples, AdaptiveExecution (fun x => -x) (untilHalf (k + 1) 10)
      (Finset.univ.filter (fun i : Fin (k + 1 + 10) => (i : Nat) < k + 1)) (fun i => (List.ofFn u).getD i 0) (-2) live its ∧
      samples.Perm (its.map (·.dead)) ∧ ∃ (A : Argsort ℝ) (da dw : Bool) (w : World (Fin 3 → ℝ)),
        ¬ ∃ (r : Run ℝ) (z : ℝ), processSamples A (cubeRng 3) samples da dw w = (.ok r, w) ∧ logz (cubeRng 3) r none false w = (.ok z, w) ∧
          |z - Real.log (∫ x in (0 : ℝ)..1, Real.exp (-x))| < 1 / 100}) atTop (𝓝 0) :=
  C95_logz (R := cubeRng 3) (N := fun k => k + 1 + 10) (rule := fun k => untilHalf (k + 1) 10) (fun k => untilHalf_stopping 10 (Nat.succ_pos k))
    (fun k => ofFn_iid _) (by
      have : ∀ k : ℕ, (Finset.univ.filter (fun i : Fin (k + 1 + 10) => (i : Nat) < k + 1)).card = k + 1 := fun k => by
        rw [Fin.card_filter_val_lt]
        omega
      simp only [this]
      exact tendsto_add_atTop_nat 1) (loglike := fun x => -x) (init := -2) (fun x _ y _ h => by simpa using h)
    (fun x hx => by have := hx.2; linarith) (b := 0) (fun x hx => by have := hx.1; linarith) (by norm_num)

/-! ### Many samplers with one live point each -/

def split : List Nat → List ℝ → List (List ℝ)
  | [], _ => []
  | n :: ns, l => l.take n :: split ns (l.drop n)

theorem split_flatten : ∀ (ns : List Nat) (l : List ℝ), l.length = ns.sum → (split ns l).flatten = l
  | [], l, h => by simpa [split, eq_comm] using h
  | n :: ns, l, h => by
    rw [split, List.flatten_cons, split_flatten ns _ (by simp at h ⊢; omega), List.take_append_drop]

theorem split_lengths : ∀ (ns : List Nat) (l : List ℝ), l.length = ns.sum → (split ns l).map List.length = ns
  | [], l, h => rfl
  | n :: ns, l, h => by
    rw [split, List.map_cons, split_lengths ns _ (by simp at h ⊢; omega)]
    simp at h ⊢
    omega

/-- `k + 1` samplers with one live point and three replacements. -/
def manyPlans (k : Nat) : List SamplerPlan := List.replicate (k + 1) (1, staticAdds 1 3)

/-- `logz` of the combination of more and more runs with a single live point converges. -/
example : Tendsto (fun k : ℕ => unifPow (planned (manyPlans k)) {u | ∃ (live : Fin (manyPlans k).length → List (Sample ℝ))
        (its : Fin (manyPlans k).length → List (Iteration ℝ)) (samples : Fin (manyPlans k).length → List (Sample ℝ)),
        (∀ i : Fin (manyPlans k).length, IdealExecution (fun x => -x) (manyPlans k)[i].1 (manyPlans k)[i].2
          ((split ((manyPlans k).map SamplerPlan.size) (List.ofFn u)).getD i []) (-1) (live i) (its i)) ∧
        (∀ i, (samples i).Perm ((its i).map (·.dead))) ∧ SameDim ((List.ofFn samples).flatten.map (·.theta)) ∧
        ∃ (A : Argsort ℝ) (da dw da' dw' : Bool) (w : World (Fin 3 → ℝ)), ¬ ∃ (r : Fin (manyPlans k).length → Run ℝ) (c : Run ℝ) (z : ℝ),
          (∀ i, processSamples A (cubeRng 3) (samples i) da dw w = (.ok (r i), w)) ∧ combineRuns A (List.ofFn r) da' dw' w = (.ok c, w) ∧
          logz (cubeRng 3) c none false w = (.ok z, w) ∧ |z - Real.log (∫ x in (0 : ℝ)..1, Real.exp (-x))| < 1 / 100}) atTop (𝓝 0) := by
  refine (C95_combined (R := cubeRng 3) (ps := manyPlans) (P := fun k => unifPow (planned (manyPlans k)))
    (draws := fun k u => split ((manyPlans k).map SamplerPlan.size) (List.ofFn u)) (fun k => by simp [manyPlans])
    (fun k p hp => ?_) (fun k p hp => ?_) (fun k u => split_lengths _ _ (by simp [planned])) (fun k => ?_) ?_
    (loglike := fun x => -x) (init := -1) (fun x _ y _ h => by simpa using h) (fun x hx => by simpa using hx.2) (b := 0)
    (fun x hx => by have := hx.1; linarith)).2 (1 / 100) (by norm_num)
  · rw [List.eq_of_mem_replicate hp]
    exact static_schedule one_pos 3
  · rw [List.eq_of_mem_replicate hp]
    decide
  · have : ∀ u : Fin (planned (manyPlans k)) → ℝ, (split ((manyPlans k).map SamplerPlan.size) (List.ofFn u)).flatten = List.ofFn u :=
      fun u => split_flatten _ _ (by simp [planned])
    simp only [this]
    exact ofFn_iid _
  · simp only [manyPlans, List.map_replicate, List.sum_replicate, smul_eq_mul, mul_one]
    exact tendsto_add_atTop_nat 1

end

end Nestcheck
