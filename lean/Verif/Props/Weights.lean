import Mathlib.Tactic.NormNum
import Verif.Proofs.Estimators
import Verif.Model.Instances

/-
C25-C29: prior volumes, weights and evidence.
-/

namespace Nestcheck
open Spec
variable {σ : Type} (R : Rng σ ℝ)

/-- C26, expected prior volumes: step `i` is -1/nlive[i], the results are negative
and strictly decreasing, and nothing else happens. -/
theorem C26_expected {nlive : List Int} (h0 : nlive ≠ []) (hp : ∀ n ∈ nlive, 0 < n) :
    ∃ logx : List ℝ, (∀ w : World σ, getLogx R nlive false w = (.ok logx, w)) ∧
      logx.length = nlive.length ∧ logx.Pairwise (· > ·) ∧ (∀ x ∈ logx, x < 0) ∧
      (∀ n : Int, nlive[0]? = some n → logx[0]? = some (-1 / (n : ℝ))) ∧
      ∀ (i : Nat) (x y : ℝ) (n : Int), logx[i]? = some x → logx[i + 1]? = some y →
        nlive[i + 1]? = some n → y = x - 1 / (n : ℝ) := by
  obtain ⟨h1, h2⟩ := positions_pairwise (expectedSteps_neg hp)
  refine ⟨_, getLogx_expected h0 hp, ?_, h1, h2, ?_, ?_⟩
  · simp [length_positions, expectedSteps]
  · intro n hn
    cases nlive with
    | nil => simp at hn
    | cons m ms =>
      simp only [List.getElem?_cons_zero, Option.some.injEq] at hn
      subst hn
      simp [positions, expectedSteps]
  · intro i x y n hx hy hn
    have hl : (expectedSteps nlive).length = nlive.length := by simp [expectedSteps]
    have hi := (List.getElem?_eq_some_iff.mp hn).1
    unfold positions at hx hy
    rw [List.getElem?_map, List.getElem?_range (by omega)] at hx hy
    simp only [Option.map_some, Option.some.injEq] at hx hy
    rw [← hx, ← hy, List.take_add_one (i := i + 1)]
    have : (expectedSteps nlive)[i + 1]? = some (-1 / (n : ℝ)) := by
      unfold expectedSteps
      rw [List.getElem?_map, hn]; rfl
    rw [this]
    simp
    ring

/-- C26, simulated prior volumes: step `i` is log(u_i)/nlive[i] for the uniform draws
`u`, the results are negative and strictly decreasing. -/
theorem C26_simulated {nlive : List Int} (h0 : nlive ≠ []) (hp : ∀ n ∈ nlive, 0 < n) (w : World σ)
    (hu : ∀ u ∈ (R.uniform nlive.length w.rng).1, 0 < u) :
    ∃ logx : List ℝ, getLogx R nlive true w =
        (.ok logx, { w with rng := (R.uniform nlive.length w.rng).2 }) ∧
      logx.length = nlive.length ∧ logx.Pairwise (· > ·) ∧ (∀ x ∈ logx, x < 0) ∧
      (∀ (u : ℝ) (n : Int), (R.uniform nlive.length w.rng).1[0]? = some u → nlive[0]? = some n →
        logx[0]? = some (Real.log u / (n : ℝ))) ∧
      ∀ (i : Nat) (x y u : ℝ) (n : Int), logx[i]? = some x → logx[i + 1]? = some y →
        (R.uniform nlive.length w.rng).1[i + 1]? = some u → nlive[i + 1]? = some n →
        y = x + Real.log u / (n : ℝ) := by
  have hlen := R.uniform_length nlive.length w.rng
  obtain ⟨h1, h2⟩ := positions_pairwise (simulatedSteps_neg hp (us := (R.uniform nlive.length w.rng).1)
    (fun u hu' => ⟨hu u hu', (R.uniform_range _ _ u hu').2⟩))
  refine ⟨_, getLogx_simulated h0 hp w hu, ?_, h1, h2, ?_, ?_⟩
  · simp [length_positions, simulatedSteps, hlen]
  · intro u n hu0 hn
    revert hu0
    generalize (R.uniform nlive.length w.rng).1 = us
    intro hu0
    cases nlive with
    | nil => simp at hn
    | cons m ms =>
      cases us with
      | nil => simp at hu0
      | cons v vs =>
        simp only [List.getElem?_cons_zero, Option.some.injEq] at hn hu0
        subst hn hu0
        simp [positions, simulatedSteps]
  · intro i x y u n hx hy hui hn
    have hl : (simulatedSteps (R.uniform nlive.length w.rng).1 nlive).length = nlive.length := by
      simp [simulatedSteps, hlen]
    have hi := (List.getElem?_eq_some_iff.mp hn).1
    unfold positions at hx hy
    rw [List.getElem?_map, List.getElem?_range (by omega)] at hx hy
    simp only [Option.map_some, Option.some.injEq] at hx hy
    rw [← hx, ← hy, List.take_add_one (i := i + 1)]
    have : (simulatedSteps (R.uniform nlive.length w.rng).1 nlive)[i + 1]? = some (Real.log u / (n : ℝ)) := by
      unfold simulatedSteps
      rw [List.getElem?_zipWith, hui, hn]
    rw [this]
    simp

/-- C26, live counts which are not all positive are rejected before anything is drawn. -/
theorem C26_assert {nlive : List Int} (h : ∃ n ∈ nlive, n ≤ 0) (sim : Bool) (w : World σ) :
    getLogx R nlive sim w = (.error .assertion, w) := getLogx_assert h sim w

/-- C27. -/
theorem C27_log_subtract {x y : ℝ} (h : y < x) :
    ∃ z, logSubtract x y = .ok z ∧ Real.exp z = Real.exp x - Real.exp y := by
  refine ⟨_, logSubtract_ok h, Real.exp_log ?_⟩
  exact sub_pos.mpr (Real.exp_lt_exp.mpr h)

/-- C25.  `get_logw` succeeds on a run with positive live counts (for simulated
weights: unless a uniform draw is exactly zero); taking out the likelihoods leaves
the prior volume closest to each sample, which is positive, and these volumes add up
to one. -/
theorem C25_volumes {r : Run ℝ} (h : Weighable r) (sim : Bool) (w : World σ)
    (hu : sim = true → ∀ u ∈ (R.uniform r.nlive.length w.rng).1, 0 < u) :
    ∃ logw : List ℝ, getLogw R r sim w = (.ok logw, afterWeights R r none sim w) ∧
      logw.length = r.logl.length ∧
      List.zipWith (fun x l => Real.exp (x - l)) logw r.logl =
        priorVolumes sim (R.uniform r.nlive.length w.rng).1 r.nlive ∧
      (List.zipWith (fun x l => Real.exp (x - l)) logw r.logl).sum = 1 ∧
      ∀ v ∈ List.zipWith (fun x l => Real.exp (x - l)) logw r.logl, 0 < v := by
  have hv := priorVolumes_spec h.nlive_ne h.pos sim (R.uniform r.nlive.length w.rng).1 (fun hs =>
    ⟨fun u hu' => ⟨hu hs u hu', (R.uniform_range _ _ u hu').2⟩, R.uniform_length _ _⟩)
  have e : List.zipWith (fun x l => Real.exp (x - l)) (List.zipWith (fun v l => Real.log v + l)
      (priorVolumes sim (R.uniform r.nlive.length w.rng).1 r.nlive) r.logl) r.logl =
      priorVolumes sim (R.uniform r.nlive.length w.rng).1 r.nlive := by
    apply List.ext_getElem
    · have := hv.1
      have := h.len
      simp only [List.length_zipWith]; omega
    · intro i h1 h2
      simp only [List.getElem_zipWith, add_sub_cancel_right]
      exact Real.exp_log (hv.2.2 _ (List.getElem_mem _))
  refine ⟨_, (getLogw_ok h sim w hu).trans ?_, ?_, e, ?_, ?_⟩
  · simp [afterWeights]
  · rw [List.length_zipWith, hv.1, h.len]; simp
  · rw [e]; exact hv.2.1
  · rw [e]; exact hv.2.2

/-- C28.  Relative weights: in (0, 1], the largest is 1, and a constant multiple of
prior volume times likelihood. -/
theorem C28_rel_weights {r : Run ℝ} (h : Weighable r) (sim : Bool) (w : World σ)
    (hu : sim = true → ∀ u ∈ (R.uniform r.nlive.length w.rng).1, 0 < u) :
    ∃ ws : List ℝ, getWRel R r sim w = (.ok ws, afterWeights R r none sim w) ∧
      (∀ v ∈ ws, 0 < v ∧ v ≤ 1) ∧ 1 ∈ ws ∧
      ∃ c : ℝ, 0 < c ∧ ws = (List.zipWith (fun v l => v * Real.exp l)
        (priorVolumes sim (R.uniform r.nlive.length w.rng).1 r.nlive) r.logl).map (· * c) := by
  have hv := priorVolumes_spec h.nlive_ne h.pos sim (R.uniform r.nlive.length w.rng).1 (fun hs =>
    ⟨fun u hu' => ⟨hu hs u hu', (R.uniform_range _ _ u hu').2⟩, R.uniform_length _ _⟩)
  have hne : (List.zipWith (fun v l => Real.log v + l)
      (priorVolumes sim (R.uniform r.nlive.length w.rng).1 r.nlive) r.logl) ≠ [] := by
    intro h0
    have := congrArg List.length h0
    rw [List.length_zipWith, hv.1, h.len] at this
    simp at this
    exact h.nonempty this
  obtain ⟨m, h1, h2, h3⟩ := relWeights_ok hne
  refine ⟨List.map (fun x => Real.exp (x - m)) (List.zipWith (fun v l => Real.log v + l)
      (priorVolumes sim (R.uniform r.nlive.length w.rng).1 r.nlive) r.logl), ?_, ?_, ?_,
    Real.exp (-m), Real.exp_pos _, ?_⟩
  · unfold getWRel
    rw [M.bind_ok (getLogw_ok h sim w hu), M.lift_apply, h3]
    simp [afterWeights]
  · intro v hv'
    obtain ⟨x, hx, rfl⟩ := List.mem_map.mp hv'
    refine ⟨Real.exp_pos _, ?_⟩
    rw [← Real.exp_zero]
    exact Real.exp_le_exp.mpr (by linarith [h2 x hx])
  · refine List.mem_map.mpr ⟨m, h1, by simp⟩
  · apply List.ext_getElem
    · simp
    · intro i h4 h5
      simp only [List.getElem_map, List.getElem_zipWith]
      rw [sub_eq_add_neg, Real.exp_add, Real.exp_add, Real.exp_log (hv.2.2 _ (List.getElem_mem _))]

theorem zipWith_map_add (c : ℝ) (vs ls : List ℝ) :
    List.zipWith (fun v l => Real.log v + l) vs (ls.map (· + c)) =
      (List.zipWith (fun v l => Real.log v + l) vs ls).map (· + c) := by
  rw [List.zipWith_map_right, List.map_zipWith]
  congr 1
  funext a b
  ring

theorem amax_map_add (c : ℝ) (xs : List ℝ) : amax (xs.map (· + c)) = (amax xs).map (· + c) := by
  cases h : amax xs with
  | none => cases xs with
    | nil => rfl
    | cons => simp [amax] at h
  | some m =>
    obtain ⟨h1, h2⟩ := amax_eq_some.mp h
    rw [Option.map_some, amax_eq_some]
    refine ⟨List.mem_map.mpr ⟨m, h1, rfl⟩, ?_⟩
    intro x hx
    obtain ⟨y, hy, rfl⟩ := List.mem_map.mp hx
    linarith [h2 y hy]

theorem relWeights_shift (c : ℝ) (xs : List ℝ) : relWeights (xs.map (· + c)) = relWeights xs := by
  unfold relWeights
  rw [amax_map_add]
  cases amax xs with
  | none => rfl
  | some m => simp [List.map_map, Function.comp_def]

theorem Spec.Weighable.shift {r : Run ℝ} (h : Weighable r) (c : ℝ) :
    Weighable { r with logl := r.logl.map (· + c) } :=
  ⟨by simpa using h.nonempty, h.pos, by simpa using h.len⟩

/-- C28, adding a constant to every loglikelihood changes nothing. -/
theorem C28_shift {r : Run ℝ} (h : Weighable r) (sim : Bool) (w : World σ)
    (hu : sim = true → ∀ u ∈ (R.uniform r.nlive.length w.rng).1, 0 < u) (c : ℝ) :
    getWRel R { r with logl := r.logl.map (· + c) } sim w = getWRel R r sim w := by
  unfold getWRel
  rw [M.bind_ok (getLogw_ok (h.shift c) sim w hu), M.bind_ok (getLogw_ok h sim w hu), zipWith_map_add,
    M.lift_apply, M.lift_apply, relWeights_shift]

/-- C29.  The evidence is the sum of likelihood times prior volume, `logz` is its
logarithm, and it lies between the smallest and the largest loglikelihood. -/
theorem C29_evidence {r : Run ℝ} (h : Weighable r) (sim : Bool) (w : World σ)
    (hu : sim = true → ∀ u ∈ (R.uniform r.nlive.length w.rng).1, 0 < u) :
    ∃ z : ℝ, logz R r none sim w = (.ok z, afterWeights R r none sim w) ∧
      evidence R r none sim w = (.ok (Real.exp z), afterWeights R r none sim w) ∧
      Real.exp z = (List.zipWith (fun v l => v * Real.exp l)
        (priorVolumes sim (R.uniform r.nlive.length w.rng).1 r.nlive) r.logl).sum ∧
      (∃ l ∈ r.logl, l ≤ z) ∧ ∃ l ∈ r.logl, z ≤ l := by
  have hv := priorVolumes_spec h.nlive_ne h.pos sim (R.uniform r.nlive.length w.rng).1 (fun hs =>
    ⟨fun u hu' => ⟨hu hs u hu', (R.uniform_range _ _ u hu').2⟩, R.uniform_length _ _⟩)
  have hg := getLogw_ok h sim w hu
  have hafter : ({ w with rng := if sim then (R.uniform r.nlive.length w.rng).2 else w.rng } : World σ) =
      afterWeights R r none sim w := by simp [afterWeights]
  rw [hafter] at hg
  revert hg hv
  generalize hvs : priorVolumes sim (R.uniform r.nlive.length w.rng).1 r.nlive = vs
  intro hv hg
  have hlen : vs.length = r.logl.length := by rw [hv.1, h.len]
  have hne : (List.zipWith (fun v l => Real.log v + l) vs r.logl) ≠ [] := by
    intro h0
    have := congrArg List.length h0
    rw [List.length_zipWith, hlen] at this
    simp at this
    exact h.nonempty this
  have hsum : ((List.zipWith (fun v l => Real.log v + l) vs r.logl).map Real.exp).sum =
      (List.zipWith (fun v l => v * Real.exp l) vs r.logl).sum := by
    congr 1
    apply List.ext_getElem
    · simp
    · intro i h4 h5
      simp only [List.getElem_map, List.getElem_zipWith]
      rw [Real.exp_add, Real.exp_log (hv.2.2 _ (List.getElem_mem _))]
  have hpos := sum_exp_pos hne
  have hexp : Real.exp (Real.log ((List.zipWith (fun v l => Real.log v + l) vs r.logl).map Real.exp).sum) =
      (List.zipWith (fun v l => v * Real.exp l) vs r.logl).sum := by
    rw [Real.exp_log hpos, hsum]
  have hvne : vs ≠ [] := by
    intro h0; rw [h0] at hlen; exact h.nonempty (List.length_eq_zero_iff.mp hlen.symm)
  have hmean : (List.zipWith (fun v l => v * Real.exp l) vs r.logl).sum = mean vs (r.logl.map Real.exp) := by
    unfold mean
    rw [hv.2.1, div_one, List.zipWith_map_right]
  refine ⟨_, ?_, ?_, hexp, ?_, ?_⟩
  · unfold logz
    rw [M.bind_ok (show logwOr R r none sim w = _ from hg), M.lift_apply, logsumexp_ok hne]
  · unfold evidence
    rw [M.bind_ok (show logwOr R r none sim w = _ from hg),
      M.bind_ok (by rw [M.lift_apply, logsumexp_ok hne]), M.pure_apply]
  · obtain ⟨m, hm⟩ : ∃ m, amin r.logl = some m := by
      cases hl : r.logl with
      | nil => exact absurd hl h.nonempty
      | cons a as => exact ⟨_, rfl⟩
    obtain ⟨h1, h2⟩ := amin_eq_some.mp hm
    refine ⟨m, h1, ?_⟩
    rw [Real.le_log_iff_exp_le hpos, hsum, hmean]
    by_contra hcon
    push Not at hcon
    obtain ⟨M', hM⟩ := exists_amax (xs := r.logl.map Real.exp) (by simpa using h.nonempty)
    have := (mean_bounds hvne hv.2.2 (xs := r.logl.map Real.exp) (by simp [hlen]) (lo := Real.exp m) (hi := M')
      (by
        intro x hx
        refine ⟨?_, (amax_eq_some.mp hM).2 x hx⟩
        obtain ⟨l, hl, rfl⟩ := List.mem_map.mp hx
        exact Real.exp_le_exp.mpr (h2 l hl))).1
    linarith
  · obtain ⟨m, hm⟩ := exists_amax h.nonempty
    obtain ⟨h1, h2⟩ := amax_eq_some.mp hm
    refine ⟨m, h1, ?_⟩
    rw [Real.log_le_iff_le_exp hpos, hsum, hmean]
    exact (mean_bounds hvne hv.2.2 (xs := r.logl.map Real.exp) (by simp [hlen]) (lo := 0) (hi := Real.exp m)
      (by
        intro x hx
        obtain ⟨l, hl, rfl⟩ := List.mem_map.mp hx
        exact ⟨(Real.exp_pos _).le, Real.exp_le_exp.mpr (h2 l hl)⟩)).2

theorem logsumexp_shift (c : ℝ) {xs : List ℝ} (h : xs ≠ []) :
    ∃ z, logsumexp xs = .ok z ∧ logsumexp (xs.map (· + c)) = .ok (z + c) := by
  refine ⟨_, logsumexp_ok h, ?_⟩
  rw [logsumexp_ok (by simpa using h), List.map_map]
  have : (xs.map (Real.exp ∘ fun x => x + c)).sum = (xs.map Real.exp).sum * Real.exp c := by
    rw [← List.sum_map_mul_right]
    congr 2
    funext x
    exact Real.exp_add x c
  rw [this, Real.log_mul (ne_of_gt (sum_exp_pos h)) (Real.exp_ne_zero _), Real.log_exp]

/-- C29, scaling: adding `c` to every loglikelihood adds `c` to `logz` and multiplies
the evidence by exp(c). -/
theorem C29_scaling {r : Run ℝ} (h : Weighable r) (sim : Bool) (w : World σ)
    (hu : sim = true → ∀ u ∈ (R.uniform r.nlive.length w.rng).1, 0 < u) (c : ℝ) :
    ∃ z w', logz R r none sim w = (.ok z, w') ∧
      logz R { r with logl := r.logl.map (· + c) } none sim w = (.ok (z + c), w') ∧
      evidence R { r with logl := r.logl.map (· + c) } none sim w = (.ok (Real.exp z * Real.exp c), w') := by
  have h1 := getLogw_ok (R := R) h sim w hu
  have h2 := getLogw_ok (R := R) (h.shift c) sim w hu
  rw [zipWith_map_add] at h2
  have hv := priorVolumes_spec h.nlive_ne h.pos sim (R.uniform r.nlive.length w.rng).1 (fun hs =>
    ⟨fun u hu' => ⟨hu hs u hu', (R.uniform_range _ _ u hu').2⟩, R.uniform_length _ _⟩)
  obtain ⟨z, hz, hz'⟩ := logsumexp_shift c (xs := List.zipWith (fun v l => Real.log v + l)
      (priorVolumes sim (R.uniform r.nlive.length w.rng).1 r.nlive) r.logl) (by
    intro h0
    have := congrArg List.length h0
    rw [List.length_zipWith, hv.1, h.len] at this
    simp at this
    exact h.nonempty this)
  refine ⟨z, { w with rng := if sim = true then (R.uniform r.nlive.length w.rng).2 else w.rng }, ?_, ?_, ?_⟩
  · unfold logz
    rw [M.bind_ok (show logwOr R r none sim w = _ from h1), M.lift_apply, hz]
  · unfold logz
    rw [M.bind_ok (show logwOr R _ none sim w = _ from h2), M.lift_apply, hz']
  · unfold evidence
    rw [M.bind_ok (show logwOr R _ none sim w = _ from h2), M.bind_ok (by rw [M.lift_apply, hz']),
      M.pure_apply, Real.exp_add]

section examples

/-- A run with three samples and live counts 2, 2, 1. -/
noncomputable def exReal : Run ℝ :=
  { logl := [-3, -1, 0], nlive := [2, 2, 1], theta := [[1, 0], [2, 1], [4, -1]],
    labels := some [0, 1, 0], tmm := some [(⊥, 0), (⊥, -1)] }

theorem exReal_weighable : Weighable exReal := ⟨by simp [exReal], by simp [exReal], by simp [exReal]⟩

/-- Its log prior volumes are -1/2, -1 and -2. -/
example : positions (expectedSteps exReal.nlive) = [-1/2, -1, -2] := by
  simp [positions, expectedSteps, exReal, List.range_succ]; norm_num

/-- The volumes closest to its samples: from 1 to the midpoint of the first two, from
there to the midpoint of the last two, and the rest. -/
example : priorVolumes false [] exReal.nlive =
    [1 - (Real.exp (-1/2) + Real.exp (-1)) / 2,
     (Real.exp (-1/2) + Real.exp (-1)) / 2 - (Real.exp (-1) + Real.exp (-2)) / 2,
     (Real.exp (-1) + Real.exp (-2)) / 2] := by
  have : positions (expectedSteps exReal.nlive) = [-1/2, -1, -2] := by
    simp [positions, expectedSteps, exReal, List.range_succ]; norm_num
  simp [priorVolumes, this, shells, edges]

/-- A random number generator whose uniform draws are all 1/2. -/
noncomputable def halfRng : Rng Nat ℝ :=
  { counterRng ℝ (by norm_num) with
    uniform := fun n s => (List.replicate n (1/2), s + n)
    uniform_length := by simp
    uniform_range := by
      intro n s x hx
      rw [List.eq_of_mem_replicate hx]
      norm_num }

/-- The hypothesis on the draws can be met. -/
example (w : World Nat) : ∀ u ∈ (halfRng.uniform exReal.nlive.length w.rng).1, 0 < u := by
  intro u hu
  rw [List.eq_of_mem_replicate (show u ∈ List.replicate _ (1/2 : ℝ) from hu)]
  norm_num

end examples
end Nestcheck
