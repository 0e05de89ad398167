import Verif.Props.BootstrapEvidence

/-! C101: bootstrap replications of a run with a constant number of live points. -/

namespace Nestcheck
open Spec MeasureTheory ProbabilityTheory ENNReal

noncomputable section

variable {σ Ω : Type} {R : Rng σ ℝ}

/-- A run with a constant number of live points: each thread starts from the whole prior, there are as many live points as threads, and
the live points left at the end are not replaced, so that some contour has as many samples on or above it as there are threads, which
all end on or above it. -/
structure Spec.ConstantLive (r : Run ℝ) (labels : List Int) (tmm : List (WithBot ℝ × ℝ)) : Prop extends ProperThreads r labels tmm where
  static : ∀ p ∈ tmm, p.1 = ⊥
  counts : ∀ i < r.logl.length, r.nlive[i]? = some ((min tmm.length (r.logl.length - i) : Nat) : Int)
  remaining : ∃ e : ℝ, (∀ p ∈ tmm, e ≤ p.2) ∧ r.logl.countP (fun x => decide (e ≤ x)) = tmm.length

theorem Spec.ConstantLive.nlive_eq {r : Run ℝ} {labels : List Int} {tmm : List (WithBot ℝ × ℝ)} (h : ConstantLive r labels tmm) :
    r.nlive = (flatCounts tmm.length r.logl.length).map (fun m : Nat => (m : Int)) := by
  apply List.ext_getElem?
  intro i
  by_cases hi : i < r.logl.length
  · rw [h.counts i hi, List.getElem?_map, flatCounts_getElem? hi]
    rfl
  · rw [List.getElem?_eq_none (by rw [h.nlive_len]; omega), List.getElem?_eq_none (by simp [flatCounts]; omega)]

theorem Spec.ConstantLive.one {r : Run ℝ} {labels : List Int} {tmm : List (WithBot ℝ × ℝ)} (h : ConstantLive r labels tmm) {e : ℝ}
    (he : ∀ p ∈ tmm, e ≤ p.2) (hc : r.logl.countP (fun x => decide (e ≤ x)) = tmm.length) :
    ∀ k < tmm.length, (pick labels (k : Nat) r.logl).countP (fun x => decide (e ≤ x)) = 1 := by
  obtain ⟨-, -, -, h1, h2, -, h3⟩ := validWith_iff.mp h.toValidWith
  have hp := pick_perm (labels := labels) (n := tmm.length) (xs := r.logl) (fun k hk => (h3.1 k).mp hk) h1
  have hge : ∀ k ∈ Finset.range tmm.length, 1 ≤ (pick labels (k : Nat) r.logl).countP (fun x => decide (e ≤ x)) := by
    intro k hk
    have hk := Finset.mem_range.mp hk
    have ht := properThreads_isThread h.toProperThreads (List.getElem?_eq_getElem hk)
    rw [Nat.one_le_iff_ne_zero, ← Nat.pos_iff_ne_zero, List.countP_pos_iff]
    refine ⟨tmm[k].2, List.mem_of_getLast? ht.last, ?_⟩
    simpa using he _ (List.getElem_mem hk)
  have hsum : ∑ k ∈ Finset.range tmm.length, (pick labels (k : Nat) r.logl).countP (fun x => decide (e ≤ x)) =
      ∑ k ∈ Finset.range tmm.length, 1 := by
    rw [Finset.sum_const, Finset.card_range, smul_eq_mul, mul_one]
    refine Eq.trans ?_ hc
    rw [← hp.countP_eq, List.countP_flatMap, ← List.sum_toFinset _ List.nodup_range, List.toFinset_range]
    rfl
  intro k hk
  exact ((Finset.sum_eq_sum_iff_of_le hge).mp hsum.symm k (Finset.mem_range.mpr hk)).symm

theorem Spec.IndependentDraws.aemeasurable [MeasurableSpace Ω] {P : Measure Ω} {n : Nat} {sep : Option Nat} {D : Ω → List Nat}
    (hsep : ∀ k, sep = some k → k ≤ n) (hd : IndependentDraws P n sep D) : AEMeasurable (fun ω (j : Fin n) => (D ω).getD j 0) P := by
  have hprob := fun j => group_prob hsep (n := n) j
  by_contra hc
  unfold IndependentDraws at hd
  rw [Measure.map_of_not_aemeasurable hc] at hd
  exact IsProbabilityMeasure.ne_zero (Measure.pi (fun j : Fin n => uniformOn (group n sep j : Set Nat))) hd.symm

theorem drawnEvidence_bounds {labels : List Int} {logl : List ℝ} {N : Nat} {b : ℝ} (u : Fin N → Nat) :
    0 ≤ drawnEvidence labels logl N b u ∧ drawnEvidence labels logl N b u ≤ Real.exp b := by
  unfold drawnEvidence
  refine ⟨integral_nonneg fun t => level_nonneg t, ?_⟩
  refine (integral_mono (integrable_level _ _ _) (integrable_const 1) fun t => level_le t).trans ?_
  simp [(Real.exp_pos b).le]

/-- The run and its replications, for all draws. -/
theorem Spec.ConstantLive.values {A : Argsort ℝ} {r : Run ℝ} {labels : List Int} {tmm : List (WithBot ℝ × ℝ)} (h : ConstantLive r labels tmm)
    {b : ℝ} (hb : ∀ l ∈ r.logl, l ≤ b) {settings : Option Settings} {sep : Bool}
    (hsep : ∀ k, separately settings sep = some k → k ≤ tmm.length) :
    0 < tmm.length ∧ (∀ w : World σ, evidence R r none false w = (.ok (∫ t in Set.Ioo 0 (Real.exp b), level tmm.length r.logl t), w)) ∧
      ∀ (seed : Seed) (w : World σ), ∃ (run : Run ℝ) (w' : World σ), bootstrapResampleRun A R r settings none sep seed w = (.ok (run, settings), w') ∧
        ∀ w'' : World σ, evidence R run none false w'' = (.ok (drawnEvidence labels r.logl tmm.length b (fun j =>
          (indexes R tmm.length (separately settings sep) (seeded R seed w.rng)).getD j 0)), w'') := by
  obtain ⟨e, he, hc⟩ := h.remaining
  have hN : 0 < tmm.length := by
    obtain ⟨p, hp, -⟩ := h.init
    exact List.length_pos_of_mem hp
  have hsort : r.logl.Pairwise (· ≤ ·) := by
    rw [List.pairwise_iff_getElem]
    intro i j hi hj hij
    exact h.sorted i j _ _ hij (List.getElem?_eq_getElem hi) (List.getElem?_eq_getElem hj)
  refine ⟨hN, fun w => flat_evidence hN (hc ▸ List.countP_le_length) h.nlive_eq hsort hb w, ?_⟩
  intro seed w
  obtain ⟨run, w', g1, g2, g3, g4, g5, g6⟩ := bootstrap_flat (R := R) (A := A) h.toProperThreads h.static hsep he (h.one he hc) seed w
  refine ⟨run, w', g1, fun w'' => ?_⟩
  set inds := indexes R tmm.length (separately settings sep) (seeded R seed w.rng) with hinds
  have hcount : run.logl.countP (fun x => decide (e ≤ x)) = tmm.length := by
    rw [g2.countP_eq, countP_drawn, List.map_congr_left (g := fun _ => 1) (fun k hk => h.one he hc k (g4 k hk)), List.map_const',
      List.sum_replicate, g5]
    simp
  rw [flat_evidence hN (hcount ▸ List.countP_le_length) g6 g3 (b := b) (by
    intro l hl
    have := g2.mem_iff.mp hl
    unfold drawnLogl at this
    obtain ⟨k, -, hk⟩ := List.mem_flatMap.mp this
    exact hb l (mem_pick_of hk)) w'']
  have hof : List.ofFn (fun j : Fin tmm.length => inds.getD j 0) = inds := by
    apply List.ext_getElem
    · simp [g5]
    · intro i h1 h2
      simp [List.getD_eq_getElem?_getD, List.getElem?_eq_getElem h2]
  unfold drawnEvidence
  rw [hof, level_perm g2]

/-- C101.  Bootstrap replications of a run with a constant number of live points: on average the evidence of a replication differs from
the evidence of the run by at most the largest likelihood times a number which is small if there are many threads and each of them has
only a few of the first `k0` samples. -/
theorem C101_run {A : Argsort ℝ} {r : Run ℝ} {labels : List Int} {tmm : List (WithBot ℝ × ℝ)} (h : ConstantLive r labels tmm)
    {b : ℝ} (hb : ∀ l ∈ r.logl, l ≤ b) {settings : Option Settings} {sep : Bool}
    (hsep : ∀ k, separately settings sep = some k → k ≤ tmm.length)
    [MeasurableSpace Ω] {P : Measure Ω} {w : Ω → World σ} {seed : Ω → Seed}
    (hd : IndependentDraws P tmm.length (separately settings sep) (fun ω =>
      indexes R tmm.length (separately settings sep) (seeded R (seed ω) (w ω).rng))) :
    ∃ (z : ℝ) (est : Ω → ℝ), (∀ w' : World σ, evidence R r none false w' = (.ok z, w')) ∧
      (∀ ω, ∃ run w', bootstrapResampleRun A R r settings none sep (seed ω) (w ω) = (.ok (run, settings), w') ∧
        ∀ w'' : World σ, evidence R run none false w'' = (.ok (est ω), w'')) ∧
      Integrable est P ∧
      ∀ k0 : Nat, ∫ ω, |est ω - z| ∂P ≤ Real.exp b * ((√(∑ k ∈ Finset.range tmm.length, ((labels.take k0).count (k : Int) : ℝ) ^ 2) +
        √tmm.length + 2) / tmm.length + Real.exp (-((k0 : ℝ) / tmm.length))) := by
  obtain ⟨hN, v1, v2⟩ := h.values (A := A) (R := R) hb hsep
  obtain ⟨e, he, hc⟩ := h.remaining
  have hprob := fun j => group_prob hsep (n := tmm.length) j
  have hm := hd.aemeasurable hsep
  have hP : IsProbabilityMeasure P := by
    have h1 : IsProbabilityMeasure (P.map (fun ω (j : Fin tmm.length) => ((indexes R tmm.length (separately settings sep)
        (seeded R (seed ω) (w ω).rng)).getD j 0))) := by
      unfold IndependentDraws at hd
      rw [hd]
      infer_instance
    refine ⟨?_⟩
    have h2 := h1.measure_univ
    rwa [Measure.map_apply_of_aemeasurable hm MeasurableSet.univ, Set.preimage_univ] at h2
  have hsort : r.logl.Pairwise (· ≤ ·) := by
    rw [List.pairwise_iff_getElem]
    intro i j hi hj hij
    exact h.sorted i j _ _ hij (List.getElem?_eq_getElem hi) (List.getElem?_eq_getElem hj)
  obtain ⟨-, -, -, h1, h2, -, h3⟩ := validWith_iff.mp h.toValidWith
  set z := ∫ t in Set.Ioo 0 (Real.exp b), level tmm.length r.logl t with hz
  let est : Ω → ℝ := fun ω => drawnEvidence labels r.logl tmm.length b (fun j =>
          (indexes R tmm.length (separately settings sep) (seeded R (seed ω) (w ω).rng)).getD j 0)
  have hest : AEMeasurable est P := (Measurable.of_discrete (f := drawnEvidence labels r.logl tmm.length b)).comp_aemeasurable hm
  have hint : Integrable est P := by
    refine Integrable.of_bound (C := Real.exp b) hest.aestronglyMeasurable (Filter.Eventually.of_forall fun ω => ?_)
    obtain ⟨b1, b2⟩ := drawnEvidence_bounds (labels := labels) (logl := r.logl) (N := tmm.length) (b := b) (fun j =>
          (indexes R tmm.length (separately settings sep) (seeded R (seed ω) (w ω).rng)).getD j 0)
    rw [Real.norm_eq_abs, abs_of_nonneg b1]
    exact b2
  refine ⟨z, est, v1, fun ω => v2 (seed ω) (w ω), hint, ?_⟩
  intro k0
  have key := drawnEvidence_mean hN h1 (fun k hk => (h3.1 k).mp hk) hsort (h.one he hc) hsep k0 b
  unfold IndependentDraws at hd
  rw [← hd, lintegral_map' (by exact Measurable.of_discrete.aemeasurable) hm] at key
  have h4 : Integrable (fun ω => |est ω - z|) P := (hint.sub (integrable_const z)).abs
  rw [integral_eq_lintegral_of_nonneg_ae (Filter.Eventually.of_forall fun _ => abs_nonneg _) h4.aestronglyMeasurable]
  exact ENNReal.toReal_le_of_le_ofReal (by positivity) key

/-! ### An example -/

/-- Two live points: each of them is replaced once. -/
def exTwoLive : Run ℝ :=
  { logl := [1, 2, 3, 4], nlive := [2, 2, 2, 1], theta := [[2], [1], [3], [4]], labels := some [0, 1, 0, 1], tmm := some [(⊥, 3), (⊥, 4)] }

theorem exTwoLive_constant : ConstantLive exTwoLive [0, 1, 0, 1] [(⊥, 3), (⊥, 4)] where
  labels_eq := rfl
  tmm_eq := rfl
  nlive_len := rfl
  labels_len := rfl
  theta_len := rfl
  sorted := by
    intro i j x y hij hx hy
    have h1 : j < 4 := (List.getElem?_eq_some_iff.mp hy).1
    have h2 : i < 4 := by omega
    interval_cases j <;> interval_cases i <;> simp_all [exTwoLive]
    all_goals (subst hx; subst hy; norm_num)
  labels_range := by
    intro k
    simp
    omega
  init := ⟨(⊥, 3), by simp, rfl⟩
  start_le := by
    intro k mm i l hmm _ _
    have hk : k < 2 := (List.getElem?_eq_some_iff.mp hmm).1
    have : mm.1 = ⊥ := by
      interval_cases k <;>
        (simp only [List.getElem?_cons_zero, List.getElem?_cons_succ, Option.some.injEq] at hmm; rw [← hmm])
    rw [this]
    exact bot_le
  end_eq := by
    intro k mm i l hmm hl hx
    have hk : k < 2 := (List.getElem?_eq_some_iff.mp hmm).1
    have hi : i < 4 := (List.getElem?_eq_some_iff.mp hx).1
    obtain ⟨h1, h2⟩ := hl
    have h20 := h2 2
    have h30 := h2 3
    interval_cases k <;> interval_cases i <;> simp_all [exTwoLive]
    all_goals (subst hmm; subst hx; norm_num)
  dim := by unfold SameDim; decide
  ascending := by
    intro i j k x y hij hi hj hx hy
    have h1 : j < 4 := (List.getElem?_eq_some_iff.mp hj).1
    have h2 : i < 4 := by omega
    interval_cases j <;> interval_cases i <;> simp_all [exTwoLive]
    all_goals (subst hx; subst hy; norm_num)
  born := by
    intro i k mm x hmm hl hx
    have : mm.1 = ⊥ := by
      have hk : k < 2 := (List.getElem?_eq_some_iff.mp hmm).1
      interval_cases k <;>
        (simp only [List.getElem?_cons_zero, List.getElem?_cons_succ, Option.some.injEq] at hmm; rw [← hmm])
    rw [this]; exact WithBot.bot_lt_coe _
  static := by simp
  counts := by
    intro i hi
    have hi : i < 4 := hi
    interval_cases i <;> rfl
  remaining := ⟨3, by norm_num, by norm_num [exTwoLive, List.countP_cons]⟩

/-- A generator of real numbers whose state holds the next two draws. -/
def twoRealRng : Rng (Fin 2 → Nat) ℝ where
  seed := twoRng.seed
  seedOS := twoRng.seedOS
  randint := twoRng.randint
  randint_length := twoRng.randint_length
  randint_range := twoRng.randint_range
  shuffle := twoRng.shuffle
  shuffle_perm := twoRng.shuffle_perm
  uniform n s := (List.replicate n 0, s)
  uniform_length := by simp
  uniform_range := by
    intro n s x hx
    rw [List.eq_of_mem_replicate hx]
    exact ⟨le_rfl, one_pos⟩

/-- C101 applies with `k0 = 2`: each thread has one of the first two samples. -/
example : ∃ (z : ℝ) (est : (Fin 2 → Nat) → ℝ),
    (∀ s, ∃ run w', bootstrapResampleRun (stableSort ℝ) twoRealRng exTwoLive none none false .keep ⟨s, []⟩ = (.ok (run, none), w') ∧
      ∀ w'', evidence twoRealRng run none false w'' = (.ok (est s), w'')) ∧
    ∫ s, |est s - z| ∂(Measure.pi (fun _ : Fin 2 => uniformOn (Finset.range 2 : Set Nat))) ≤
      Real.exp 4 * ((√2 + √2 + 2) / 2 + Real.exp (-1)) := by
  obtain ⟨z, est, -, h2, -, h4⟩ := C101_run (A := stableSort ℝ) (R := twoRealRng) exTwoLive_constant (b := 4)
    (by intro l hl; simp [exTwoLive] at hl; rcases hl with rfl | rfl | rfl | rfl <;> norm_num) (settings := none) (sep := false)
    (by simp [separately]) (w := fun s => ⟨s, []⟩) (seed := fun _ => .keep) twoRng_independent
  refine ⟨z, est, h2, (h4 2).trans (le_of_eq ?_)⟩
  norm_num [Finset.sum_range_succ]

end
end Nestcheck
