import Verif.Props.AdaptiveMean

/-! C93: samplers whose decisions depend on the order of the removals only, and several samplers side by side. -/

namespace Nestcheck
open Spec MeasureTheory ENNReal
variable {σ Ω : Type} {N : Nat}

noncomputable section

/-- What happens in an iteration apart from the volume. -/
def decision (s : Removal N) : Fin N × Nat × Finset (Fin N) := (s.point, s.alive, s.born)

open Classical in
/-- The probability that the decisions have the property `q`. -/
def orderProb (f : List (Fin N) → Finset (Fin N)) : Nat → List (Fin N) → Finset (Fin N) →
    (List (Fin N × Nat × Finset (Fin N)) → Prop) → ℝ≥0∞
  | 0, _, _, q => if q [] then 1 else 0
  | k + 1, is, A, q => ∑ a ∈ A, (A.card : ℝ≥0∞)⁻¹ *
      orderProb f k (a :: is) (A.erase a ∪ f (a :: is)) (fun ds => q ((a, A.card, f (a :: is)) :: ds))

open Classical in
/-- For a sampler which does not look at the volumes, the decisions are independent of the shrinkages. -/
theorem expect_blind {f : List (Fin N) → Finset (Fin N)} : ∀ (k : Nat) {hist : List (Fin N × ℝ)} {A D : Finset (Fin N)} {c : ℝ}
    {q : List (Fin N × Nat × Finset (Fin N)) → Prop} {F : List ℝ → ℝ≥0∞}, 0 < c →
    Feasible (byOrder f) k hist A D → Measurable (fun u : Fin k → ℝ => F (List.ofFn u)) →
    expect (byOrder f) k hist A c (fun l => if q (l.map decision) then F (shrinkages c l) else 0) =
      orderProb f k (hist.map Prod.fst) A q * mean k F
  | 0, hist, A, D, c, q, F, _, _, _ => by
    by_cases h : q [] <;> simp [expect, shrinkages, mean, orderProb, h]
  | k + 1, hist, A, D, c, q, F, hc, ⟨hA, hf⟩, hF => by
    rw [expect, if_neg hA.ne_empty, orderProb, Finset.sum_mul]
    refine Finset.sum_congr rfl fun a ha => ?_
    rw [mul_assoc]
    congr 1
    have hb : ∀ t, byOrder f ((a, t) :: hist) = f (a :: hist.map Prod.fst) := fun t => rfl
    have hl : MList k (fun u : Fin k → ℝ => List.ofFn u) := MList.ofFn measurable_id
    have e : ∀ v, 0 < v → expect (byOrder f) k ((a, c * root A.card v) :: hist)
        (A.erase a ∪ byOrder f ((a, c * root A.card v) :: hist)) (c * root A.card v)
        (fun l => if q ((⟨a, c * root A.card v, A.card, byOrder f ((a, c * root A.card v) :: hist)⟩ :: l : List (Removal N)).map decision)
          then F (shrinkages c (⟨a, c * root A.card v, A.card, byOrder f ((a, c * root A.card v) :: hist)⟩ :: l)) else 0) =
        orderProb f k (a :: hist.map Prod.fst) (A.erase a ∪ f (a :: hist.map Prod.fst))
          (fun ds => q ((a, A.card, f (a :: hist.map Prod.fst)) :: ds)) * mean k (fun l => F (v :: l)) := by
      intro v hv
      simp only [shrinkages, mul_div_cancel_left₀ _ hc.ne', root_pow (Finset.card_ne_zero.mpr hA) hv, List.map_cons]
      exact expect_blind (hist := (a, c * root A.card v) :: hist) (q := fun ds => q ((a, A.card, f (a :: hist.map Prod.fst)) :: ds))
        (F := fun l => F (v :: l)) k (mul_pos hc (root_pos _ _)) (hf a ha _).2 ((hl.cons (measurable_const (a := v))).comp hF)
    rw [lintegral_congr_ae (by filter_upwards [unif_pos] with v hv using e v hv.1), mean]
    rw [lintegral_const_mul]
    exact measurable_mean k (by
      have hl2 : MList k (fun p : ℝ × (Fin k → ℝ) => List.ofFn p.2) := MList.ofFn measurable_snd
      exact (hl2.cons measurable_fst).comp hF)

theorem byOrder_measurable (f : List (Fin N) → Finset (Fin N)) : MeasurableRule (byOrder f) := by
  intro points S
  have : {v : Fin points.length → ℝ | byOrder f (points.zip (List.ofFn v)) = S} = {_v | f points = S} := by
    ext v
    have e : (points.zip (List.ofFn v)).map Prod.fst = points := List.map_fst_zip (by simp)
    simp only [byOrder, Set.mem_ofPred_eq, e]
  rw [this]
  exact MeasurableSet.const _

/-! ### The law of the volumes given the numbers of live points -/

theorem withVolumes_decision : ∀ (ds : List (Fin N × Nat × Finset (Fin N))) (vs : List ℝ), vs.length = ds.length →
    (withVolumes ds vs).map decision = ds
  | [], [], _ => rfl
  | d :: ds, v :: vs, h => by
    simp [withVolumes, withVolumes_decision ds vs (by simpa using h), decision]

open Classical in
theorem blind_measurableIn {k : Nat} {c : ℝ} {q : List (Fin N × Nat × Finset (Fin N)) → Prop} {F : List ℝ → ℝ≥0∞}
    (hF : Measurable (fun u : Fin k → ℝ => F (List.ofFn u))) : MeasurableIn (fun (_ : Unit) (l : List (Removal N)) =>
      if l.length = k then (if q (l.map decision) then F (shrinkages c l) else 0) else 0) := by
  intro ds
  have hl : MList ds.length (fun p : Unit × (Fin ds.length → ℝ) => List.ofFn p.2) := MList.ofFn measurable_snd
  have e : ∀ p : Unit × (Fin ds.length → ℝ), (withVolumes ds (List.ofFn p.2)).map decision = ds := fun p =>
    withVolumes_decision ds _ (hl.len p)
  simp only [e]
  by_cases h : q ds
  · simp only [h, if_true]
    by_cases hk : ds.length = k
    · have := shrinkages_measurableIn (N := N) (c := c) hF ds
      have hlen : ∀ p : Unit × (Fin ds.length → ℝ), (withVolumes ds (List.ofFn p.2)).length = ds.length := fun p => by
        rw [← List.length_map (f := decision), e]
      subst hk
      simpa only [hlen, le_refl, if_true, Nat.sub_self, mean, List.append_nil] using this
    · have hlen : ∀ p : Unit × (Fin ds.length → ℝ), (withVolumes ds (List.ofFn p.2)).length = ds.length := fun p => by
        rw [← List.length_map (f := decision), e]
      simp only [hlen, hk, if_false]
      exact measurable_const
  · simp only [h, if_false, ite_self]
    exact measurable_const

open Classical in
theorem lintegral_blind {f : List (Fin N) → Finset (Fin N)} {start : Finset (Fin N)} (hs : AdaptiveSchedule (byOrder f) start)
    (q : List (Fin N × Nat × Finset (Fin N)) → Prop) {F : List ℝ → ℝ≥0∞} (hF : Measurable (fun u : Fin N → ℝ => F (List.ofFn u))) :
    ∫⁻ u, (if q ((removals (byOrder f) start u).map decision) then F (shrinkages 1 (removals (byOrder f) start u)) else 0) ∂unifPow N =
      orderProb f N [] start q * mean N F := by
  have h := lintegral_iterate hs.measurable N one_pos (Finset.Subset.refl start) hs.stopping.fresh (blind_measurableIn (N := N) (c := 1) (q := q) hF)
  simp only [scale_one] at h
  have e : ∀ u, (iterate (byOrder f) N [] start u).length = N := fun u => iterate_length N hs.feasible
  simp only [e, if_true] at h
  refine Eq.trans h ?_
  have h2 := expect_blind (q := q) (F := fun l => if l.length = N then F l else 0) N one_pos hs.feasible (by simpa using hF)
  simp only [shrinkages_length, List.map_nil] at h2
  rw [mean_congr N (G := F) fun l hl => by rw [if_pos hl]] at h2
  rw [← h2]
  congr 1
  funext l
  split_ifs <;> rfl

theorem decisions_measurable {rule : Rule N} {start : Finset (Fin N)} (hr : MeasurableRule rule)
    (q : List (Fin N × Nat × Finset (Fin N)) → Prop) : MeasurableSet {u | q ((removals rule start u).map decision)} := by
  have hm : MeasurableIn (fun (_ : Fin N → ℝ) (l : List (Removal N)) => q (l.map decision)) := by
    intro ds
    have hl : MList ds.length (fun p : (Fin N → ℝ) × (Fin ds.length → ℝ) => List.ofFn p.2) := MList.ofFn measurable_snd
    have e : ∀ p : (Fin N → ℝ) × (Fin ds.length → ℝ), (withVolumes ds (List.ofFn p.2)).map decision = ds := fun p =>
      withVolumes_decision ds _ (hl.len p)
    simp only [e]
    exact measurable_const
  exact measurableSet_setOfPred.mpr (removals_measurable hr hm)

theorem shrinkages_vector_measurable {rule : Rule N} {start : Finset (Fin N)} (hs : AdaptiveSchedule rule start) :
    Measurable (fun (u : Fin N → ℝ) (i : Fin N) => (shrinkages 1 (removals rule start u)).getD i 0) :=
  measurable_pi_lambda _ fun i => (iterate_mlist hs.measurable hs.feasible measurable_id).meas i

theorem Spec.IidUniform.apply [MeasurableSpace Ω] {P : Measure Ω} {n : Nat} {draws : Ω → List ℝ} (h : IidUniform P n draws)
    {S : Set (Fin n → ℝ)} (hS : MeasurableSet S) : P {ω | (fun i : Fin n => (draws ω).getD i 0) ∈ S} = unifPow n S := by
  rw [unifPow, ← h, Measure.map_apply_of_aemeasurable h.aemeasurable hS]
  rfl

/-- C93.  Let the decisions of the sampler depend on the order of the removals but not on the volumes.  Then everything about the order
of the removals, the numbers of live points and the decisions is independent of the fractions by which the volume shrinks, each to
the power of the number of live points. -/
theorem C93_independent [MeasurableSpace Ω] {P : Measure Ω} {f : List (Fin N) → Finset (Fin N)} {start : Finset (Fin N)}
    (hs : AdaptiveSchedule (byOrder f) start) {draws : Ω → List ℝ} (hu : IidUniform P N draws)
    (q : List (Fin N × Nat × Finset (Fin N)) → Prop) {B : Set (Fin N → ℝ)} (hB : MeasurableSet B) :
    P {ω | q ((removals (byOrder f) start (fun i => (draws ω).getD i 0)).map (fun s => (s.point, s.alive, s.born))) ∧
        (fun i : Fin N => (shrinkages 1 (removals (byOrder f) start (fun i => (draws ω).getD i 0))).getD i 0) ∈ B} =
      P {ω | q ((removals (byOrder f) start (fun i => (draws ω).getD i 0)).map (fun s => (s.point, s.alive, s.born)))} * unifPow N B := by
  classical
  have hq := decisions_measurable (start := start) hs.measurable q
  have hU := shrinkages_vector_measurable hs
  refine (hu.apply (S := {u | q ((removals (byOrder f) start u).map decision)} ∩
    (fun (u : Fin N → ℝ) (i : Fin N) => (shrinkages 1 (removals (byOrder f) start u)).getD i 0) ⁻¹' B) (hq.inter (hU hB))).trans ?_
  refine Eq.trans ?_ (congrArg (· * unifPow N B) (hu.apply hq)).symm
  have hl : MList N (fun u : Fin N → ℝ => List.ofFn u) := MList.ofFn measurable_id
  have hF : Measurable (fun u : Fin N → ℝ => (fun l : List ℝ => B.indicator (1 : (Fin N → ℝ) → ℝ≥0∞) (fun i : Fin N => l.getD i 0)) (List.ofFn u)) :=
    (measurable_one.indicator hB).comp (measurable_pi_lambda _ fun i => hl.meas i)
  have h1 := lintegral_blind hs q (F := fun l : List ℝ => B.indicator (1 : (Fin N → ℝ) → ℝ≥0∞) (fun i : Fin N => l.getD i 0)) hF
  have h2 := lintegral_blind hs q (F := fun _ => 1) measurable_const
  have e1 : mean N (fun _ => (1 : ℝ≥0∞)) = 1 := by
    rw [mean_eq_lintegral N measurable_const]; simp
  have e2 : mean N (fun l : List ℝ => B.indicator (1 : (Fin N → ℝ) → ℝ≥0∞) (fun i : Fin N => l.getD i 0)) = unifPow N B := by
    rw [mean_eq_lintegral N hF, ← lintegral_indicator_one hB]
    refine lintegral_congr fun u => ?_
    have : (fun i : Fin N => (List.ofFn u).getD i 0) = u := by
      funext i
      simp [List.getD_eq_getElem?_getD]
    simp only [this]
  rw [e1, mul_one] at h2
  rw [e2, ← h2] at h1
  rw [← lintegral_indicator_one (hq.inter (hU hB)), ← lintegral_indicator_one hq]
  refine Eq.trans (lintegral_congr fun u => ?_) (h1.trans ?_)
  · by_cases a : q ((removals (byOrder f) start u).map decision) <;>
      simp [Set.indicator_apply, a]
  · congr 1

/-- C93.  For such a sampler the volumes have, given the numbers of live points (and given anything else about the order of the removals,
such as which of several samplers each point belongs to), exactly the joint distribution of the volumes which `get_logx` simulates from
these numbers of live points. -/
theorem C93_law {Ω' : Type} [MeasurableSpace Ω] [MeasurableSpace Ω'] {P : Measure Ω} {P' : Measure Ω'} {R : Rng σ ℝ}
    {f : List (Fin N) → Finset (Fin N)} {start : Finset (Fin N)} (hs : AdaptiveSchedule (byOrder f) start) {draws : Ω → List ℝ}
    (hu : IidUniform P N draws) {w : Ω' → World σ} (hw : IidUniform P' N (fun ω => (R.uniform N (w ω).rng).1))
    (q : List (Fin N × Nat × Finset (Fin N)) → Prop) (nlive : List Int) {B : Set (Fin N → ℝ)} (hB : MeasurableSet B) :
    P {ω | (q ((removals (byOrder f) start (fun i => (draws ω).getD i 0)).map (fun s => (s.point, s.alive, s.born))) ∧
          (removals (byOrder f) start (fun i => (draws ω).getD i 0)).map (fun s => (s.alive : Int)) = nlive) ∧
        (fun i : Fin N => ((removals (byOrder f) start (fun i => (draws ω).getD i 0)).map (·.volume)).getD i 0) ∈ B} =
      P {ω | q ((removals (byOrder f) start (fun i => (draws ω).getD i 0)).map (fun s => (s.point, s.alive, s.born))) ∧
          (removals (byOrder f) start (fun i => (draws ω).getD i 0)).map (fun s => (s.alive : Int)) = nlive} *
        P' {ω | (fun i : Fin N => Real.exp (entry (getLogx R nlive true (w ω)).1 i)) ∈ B} := by
  set X : Ω → List (Removal N) := fun ω => removals (byOrder f) start (fun i => (draws ω).getD i 0) with hX
  by_cases hne : ∃ ω, (X ω).map (fun s => (s.alive : Int)) = nlive
  swap
  · have e : ∀ ω, ¬ ((X ω).map (fun s => (s.alive : Int)) = nlive) := fun ω h => hne ⟨ω, h⟩
    have e' : ∀ ω, ¬ ((removals (byOrder f) start (fun i => (draws ω).getD i 0)).map (fun s => (s.alive : Int)) = nlive) := e
    simp only [e', and_false, false_and]
    simp
  obtain ⟨ω₀, h0⟩ := hne
  have hlen : nlive.length = N := by
    rw [← h0, List.length_map]; exact iterate_length N hs.feasible
  have hpos : ∀ n ∈ nlive, 0 < n := by
    intro n hn
    rw [← h0] at hn
    obtain ⟨s, hm, rfl⟩ := List.mem_map.mp hn
    exact_mod_cast iterate_alive N s hm
  have hnil : nlive ≠ [] := by
    intro h
    rw [h] at hlen
    have := hs.nonempty
    simp at hlen
    omega
  subst hlen
  set V : (Fin nlive.length → ℝ) → Fin nlive.length → ℝ :=
    fun u i => Real.exp (simPos (n := nlive.length) (fun j => (nlive[j] : ℝ)) i u) with hV
  have hVm : Measurable V := measurable_pi_lambda _ fun i => Real.measurable_exp.comp (simPos_measurable _ _)
  -- what `get_logx` simulates
  have e2 : P' {ω | (fun i : Fin nlive.length => Real.exp (entry (getLogx R nlive true (w ω)).1 i)) ∈ B} = unifPow nlive.length (V ⁻¹' B) := by
    rw [← hw.apply (hVm hB)]
    refine measure_congr ?_
    filter_upwards [entry_simulated (R := R) hnil hpos hw] with ω hω
    have : (fun i : Fin nlive.length => Real.exp (entry (getLogx R nlive true (w ω)).1 i)) =
        V (fun j => (R.uniform nlive.length (w ω).rng).1.getD j 0) := funext fun i => congrArg Real.exp (hω.2 i i.2)
    exact congrArg (· ∈ B) this
  -- the volumes of the sampler
  have e1 := C93_independent hs hu (fun ds => q ds ∧ ds.map (fun d => (d.2.1 : Int)) = nlive) (hVm hB)
  simp only [List.map_map, Function.comp_def] at e1
  rw [e2]
  refine Eq.trans (measure_congr ?_) e1
  filter_upwards [adaptive_ae hs.stopping hu] with ω ⟨h1, h2, h3⟩
  refine propext (and_congr_right fun hn => ?_)
  have hlX : (X ω).length = nlive.length := iterate_length _ hs.feasible
  have hp := positions_shrinkages (X ω) one_pos h2
  simp only [Real.log_one, zero_add, List.map_id'] at hp
  rw [show (X ω).map (fun s => (s.alive : Int)) = nlive from hn.2] at hp
  have : (fun i : Fin nlive.length => ((X ω).map (·.volume)).getD i 0) =
      V (fun i => (shrinkages 1 (X ω)).getD i 0) := by
    funext i
    have hi : (i : Nat) < (X ω).length := by rw [hlX]; exact i.2
    simp only [hV]
    rw [← positions_simulated (by rw [shrinkages_length, hlX]) i.2, hp]
    simp only [List.getD_eq_getElem?_getD, List.getElem?_map, List.getElem?_eq_getElem hi, Option.map_some, Option.getD_some]
    exact (Real.exp_log (h2 _ (List.getElem_mem hi)).1).symm
  exact iff_of_eq (congrArg (· ∈ B) this)

end

end Nestcheck
