import Verif.Props.Summary

/-!
# Concrete cases for C47, C67 and C68

Two runs of one thread each, with two and three samples, and the number of samples as the estimator.
-/

set_option linter.unusedSectionVars false

namespace Nestcheck
open Spec

noncomputable section

variable {σ : Type} (A : Argsort ℝ) (R : Rng σ ℝ)

/-- The run with a single thread with the given samples. -/
def singleRun (logl : List ℝ) (theta : List (List ℝ)) (last : ℝ) : Run ℝ :=
  { logl := logl, nlive := logl.map (fun _ => 1), theta := theta, labels := some (logl.map (fun _ => 0)),
    tmm := some [(⊥, last)] }

theorem singleRun_recombinable {logl : List ℝ} {theta : List (List ℝ)} {last : ℝ} (hs : logl.Pairwise (· < ·))
    (hl : logl.getLast? = some last) (ht : theta.length = logl.length) (hd : SameDim theta) :
    Recombinable (singleRun logl theta last) (logl.map (fun _ => 0)) [(⊥, last)] where
  labels_eq := rfl
  tmm_eq := rfl
  nlive_len := by simp [singleRun]
  labels_len := by simp [singleRun]
  theta_len := ht
  sorted := by
    intro i j x y hij hx hy
    obtain ⟨hi, rfl⟩ := List.getElem?_eq_some_iff.mp hx
    obtain ⟨hj, rfl⟩ := List.getElem?_eq_some_iff.mp hy
    exact (List.pairwise_iff_getElem.mp hs i j hi hj hij).le
  labels_range := by
    intro k
    have hne : logl ≠ [] := by rintro rfl; simp at hl
    obtain ⟨a, ha⟩ := List.exists_mem_of_ne_nil _ hne
    rw [List.mem_map, List.length_singleton]
    constructor
    · rintro ⟨-, -, rfl⟩; simp
    · intro h; exact ⟨a, ha, by omega⟩
  init := ⟨_, List.mem_singleton_self _, rfl⟩
  start_le := by
    intro k mm i l hm _ _
    have := List.mem_of_getElem? hm
    rw [List.mem_singleton] at this
    rw [this]; exact bot_le
  end_eq := by
    intro k mm i l hm hlast hx
    have hmm := List.mem_of_getElem? hm
    rw [List.mem_singleton] at hmm
    have hk : k < 1 := (List.getElem?_eq_some_iff.mp hm).1
    have hk : k = 0 := by omega
    subst hk
    have hi : i < logl.length := (List.getElem?_eq_some_iff.mp hx).1
    rw [hmm]
    by_cases h : i = logl.length - 1
    · have hx : logl[i]? = some l := hx
      rw [List.getLast?_eq_getElem?, ← h, hx] at hl
      exact (Option.some.inj hl).symm
    · exfalso
      refine hlast.2 (logl.length - 1) (by omega) ?_
      rw [List.getElem?_map, List.getElem?_eq_getElem (by omega)]; rfl
  distinct := by
    intro i j x y hij hx hy
    obtain ⟨hi, rfl⟩ := List.getElem?_eq_some_iff.mp hx
    obtain ⟨hj, rfl⟩ := List.getElem?_eq_some_iff.mp hy
    exact (List.pairwise_iff_getElem.mp hs i j hi hj hij).ne
  dim := hd
  born := by
    intro k mm hm l _
    have := List.mem_of_getElem? hm
    rw [List.mem_singleton] at this
    rw [this]; exact WithBot.bot_lt_coe _
  starts := by
    intro mm hm s hs
    rw [List.mem_singleton] at hm
    rw [hm] at hs
    simp at hs
  live := by
    intro i l hx
    have hx' : logl[i]? = some l := hx
    obtain ⟨hi, hl'⟩ := List.getElem?_eq_some_iff.mp hx'
    have hle : l ≤ last := by
      rw [List.getLast?_eq_getElem?] at hl
      obtain ⟨hj, rfl⟩ := List.getElem?_eq_some_iff.mp hl
      rw [← hl']
      by_cases h : i = logl.length - 1
      · simp only [h]; exact le_refl _
      · exact (List.pairwise_iff_getElem.mp hs i _ hi hj (by omega)).le
    show (logl.map (fun _ => (1 : Int)))[i]? = _
    rw [List.getElem?_map, hx']
    simp [hle]

/-- The bootstrap values of the number of samples of such a run. -/
theorem singleRun_values {logl : List ℝ} {theta : List (List ℝ)} {last : ℝ} (hs : logl.Pairwise (· < ·))
    (hl : logl.getLast? = some last) (ht : theta.length = logl.length) (hd : SameDim theta) (n : Nat) (w : World σ) :
    (runEstimators R (singleRun logl theta last) [Estimator.count.call A R] false w).1 =
      .ok ([(logl.length : ℝ)].map some) ∧
    (runBootstrapValues A R (singleRun logl theta last) none [Estimator.count.call A R] n false true none w).1 =
      .ok ([List.replicate n (logl.length : ℝ)].map (List.map some)) := by
  have hne : logl ≠ [] := by rintro rfl; simp at hl
  have hw : Weighable (singleRun logl theta last) := ⟨by simpa [singleRun] using hne, by simp [singleRun], by simp [singleRun]⟩
  have hv := count_value A R hw
  refine ⟨by rw [hv]; rfl, ?_⟩
  obtain ⟨w', h⟩ := values_single A R (singleRun_recombinable hs hl ht hd) none false true (by simp [separately]) hv n
    (seeds := none) (by simp) w
  rw [h]
  simp [singleRun]

/-- Two samples. -/
def exTwoSamples : Run ℝ := singleRun [1, 2] [[3], [5]] 2

/-- Three samples. -/
def exThreeSamples : Run ℝ := singleRun [1, 4, 6] [[3], [5], [8]] 6

theorem exTwo_values (n : Nat) (w : World σ) :
    (runEstimators R exTwoSamples [Estimator.count.call A R] false w).1 = .ok ([(2 : ℝ)].map some) ∧
    (runBootstrapValues A R exTwoSamples none [Estimator.count.call A R] n false true none w).1 =
      .ok ([List.replicate n (2 : ℝ)].map (List.map some)) := by
  have := singleRun_values A R (logl := [1, 2]) (theta := [[3], [5]]) (last := 2) (by simp) rfl rfl
    (by intro s hs t ht; simp only [List.mem_cons, List.not_mem_nil, or_false] at hs ht
        rcases hs with rfl | rfl <;> rcases ht with rfl | rfl <;> rfl) n w
  simpa [exTwoSamples] using this

theorem exThree_values (n : Nat) (w : World σ) :
    (runEstimators R exThreeSamples [Estimator.count.call A R] false w).1 = .ok ([(3 : ℝ)].map some) ∧
    (runBootstrapValues A R exThreeSamples none [Estimator.count.call A R] n false true none w).1 =
      .ok ([List.replicate n (3 : ℝ)].map (List.map some)) := by
  have := singleRun_values A R (logl := [1, 4, 6]) (theta := [[3], [5], [8]]) (last := 6) (by norm_num) rfl rfl
    (by intro s hs t ht; simp only [List.mem_cons, List.not_mem_nil, or_false] at hs ht
        rcases hs with rfl | rfl | rfl <;> rcases ht with rfl | rfl | rfl <;> rfl) n w
  simpa [exThreeSamples] using this

theorem count_deterministic : ∀ f ∈ [Estimator.count.call A R], Deterministic f := by
  intro f hf; rw [List.mem_singleton] at hf; rw [hf]; exact C35_builtin A R _

theorem ex_values : List.Forall₂ (fun r y => ∃ w : World σ,
    (runEstimators R r [Estimator.count.call A R] false w).1 = .ok y) [exTwoSamples, exThreeSamples]
    ([[(2 : ℝ)], [3]].map (List.map some)) := by
  have w : World σ := ⟨R.seed 0, []⟩
  exact .cons ⟨w, (exTwo_values A R 1 w).1⟩ (.cons ⟨w, (exThree_values A R 1 w).1⟩ .nil)

theorem ex_bootstraps (n : Nat) : List.Forall₂ (fun r a => ∃ w : World σ,
    (runBootstrapValues A R r none [Estimator.count.call A R] n false true none w).1 = .ok a)
    [exTwoSamples, exThreeSamples]
    ([[List.replicate n (2 : ℝ)], [List.replicate n 3]].map (List.map (List.map some))) := by
  have w : World σ := ⟨R.seed 0, []⟩
  exact .cons ⟨w, (exTwo_values A R n w).2⟩ (.cons ⟨w, (exThree_values A R n w).2⟩ .nil)

/-- C67 for these runs: four rows, whose order is that of completion. -/
example (D : Distances (List Cell) Cell) (S1 S2 S3 : Schedule σ 2) (h1 : S1.order = [1, 0]) (h2 : S2.order = [0, 1])
    (w : World σ) :
    ∃ t w', runListErrorValues A R D [exTwoSamples, exThreeSamples] [Estimator.count.call A R] ["n"] 2 false false true
      S1 S2 S3 w = (.ok t, w') ∧ w'.rng = w.rng ∧
      (("values", RunLabel.str "0"), [some 3]) ∈ t.rows ∧ (("values", RunLabel.str "1"), [some 2]) ∈ t.rows ∧
      (("bootstrap std", RunLabel.int 0), [some 0]) ∈ t.rows ∧ (("bootstrap std", RunLabel.int 1), [some 0]) ∈ t.rows := by
  obtain ⟨t, zs, bs, ts, w', e1, e2, -, -, e3, e4, e5, -⟩ := C67 A R D (count_deterministic A R) (names := ["n"]) rfl
    (by simp) (by simp) (by simp) (by simp) false false (by simp) (by simp) (ex_values A R) (ex_bootstraps A R 2)
    (tarrs := []) (by simp) true S1 S2 S3 w
  have hstd : ∀ x : ℝ, npStd (List.replicate 2 (some x)) = some 0 := by
    intro x
    rw [← List.map_replicate, npStd_some (by simp)]
    simp [stdev, average]
  have hz : zs[0]? = some [some 3] ∧ zs[1]? = some [some 2] := by
    constructor
    · rw [e4.2 0]; simp [rowOrder, h1]
    · rw [e4.2 1]; simp [rowOrder, h1]
  have hbz : bs[0]? = some [List.replicate 2 (some 2)] ∧ bs[1]? = some [List.replicate 2 (some 3)] := by
    constructor
    · rw [e5.2 0]; simp [rowOrder, h2]
    · rw [e5.2 1]; simp [rowOrder, h2]
  refine ⟨t, w', e1, e2, ?_, ?_, ?_, ?_⟩
  · exact (e3 _ _).mpr (Or.inl ⟨0, hz.1, rfl⟩)
  · exact (e3 _ _).mpr (Or.inl ⟨1, hz.2, rfl⟩)
  · refine (e3 _ _).mpr (Or.inr (Or.inl ⟨0, _, hbz.1, rfl, .cons ?_ .nil⟩))
    rw [← hstd 2]; exact npStd_stdOf _
  · refine (e3 _ _).mpr (Or.inr (Or.inl ⟨1, _, hbz.2, rfl, .cons ?_ .nil⟩))
    rw [← hstd 3]; exact npStd_stdOf _

/-- C68 for these runs: the numbers of samples are 2 and 3 and all of their variation is unexplained by the
bootstrap errors, which are zero. -/
example (N : NormalRng σ) (D : Distances (List Cell) Cell) (S1 S2 S3 : Schedule σ 2) (parallel : Bool) (w : World σ) :
    ∃ s, (runListErrorSummary A R N 100 D [exTwoSamples, exThreeSamples] [Estimator.count.call A R] ["n"] 2 false false
        parallel (some [3]) true true S1 S2 S3 w).1 = .ok s ∧
      (("true values", .value), [some 3]) ∈ s ∧ (("values mean", .value), [some (5 / 2)]) ∈ s ∧
      (("values std", .value), [some (Real.sqrt (1 / 2))]) ∈ s ∧
      (("values rmse", .value), [some (Real.sqrt (1 / 2))]) ∈ s ∧
      (("bootstrap std mean", .value), [some 0]) ∈ s ∧
      (("implementation std", .value), [some (Real.sqrt (1 / 2))]) ∈ s ∧
      (("implementation std frac", .value), [some 1]) ∈ s := by
  obtain ⟨s, us, e1, -, -, e, -⟩ := C68_summary A R N D (count_deterministic A R) (names := ["n"]) rfl (by simp) (by simp)
    (by simp) (by simp) (nSim := 2) (by simp) (ex_values A R) (ex_bootstraps A R 2) 100 (tv := some [3]) (by simp)
    (incTrue := true) (incRmse := true) (by simp) parallel S1 S2 S3 w
  have hsd : ∀ x : ℝ, stdev [x, x] = 0 := by
    intro x
    have : (x + x) / 2 = x := by ring
    simp [stdev, average, this]
  have hv : resultGroups [[(2 : ℝ)], [3]] [[List.replicate 2 (2 : ℝ)], [List.replicate 2 3]] "values" = [[2], [3]] := rfl
  have hb : resultGroups [[(2 : ℝ)], [3]] [[List.replicate 2 (2 : ℝ)], [List.replicate 2 3]] "bootstrap std" =
      [[0], [0]] := by
    show [[stdev [2, 2]], [stdev [3, 3]]] = _
    rw [hsd, hsd]
  have hstd : stdev [(2 : ℝ), 3] = Real.sqrt (1 / 2) := by
    simp only [stdev, average]; norm_num
  have hpos : 0 < Real.sqrt (1 / 2) := Real.sqrt_pos.mpr (by norm_num)
  have hun : unexplained (Real.sqrt (1 / 2)) 0 = Real.sqrt (1 / 2) := by
    rw [unexplained, if_neg (not_le.mpr hpos), Real.sq_sqrt (by norm_num)]; norm_num
  have hav : average [(0 : ℝ), 0] = 0 := by simp [average]
  refine ⟨s, e1, ?_, ?_, ?_, ?_, ?_, ?_, ?_⟩
  · exact (e _ _).mpr ⟨by decide, Or.inr (Or.inl ⟨rfl, rfl, rfl⟩)⟩
  · refine (e _ _).mpr ⟨by decide, Or.inl ⟨"values", .mean, .value, by rw [hv]; simp, by rfl, ?_⟩⟩
    rw [hv]
    have : perColumn 1 (fun j => average (col [[(2 : ℝ)], [3]] j)) = [some (5 / 2)] := by
      show [some (average [2, 3])] = _
      simp only [average]; norm_num
    exact List.mem_append_left _ (List.mem_append_right _ (by rw [List.length_singleton, this]; exact List.mem_cons_self))
  · refine (e _ _).mpr ⟨by decide, Or.inl ⟨"values", .std, .value, by rw [hv]; simp, by rfl, ?_⟩⟩
    rw [hv]
    have : perColumn 1 (fun j => stdev (col [[(2 : ℝ)], [3]] j)) = [some (Real.sqrt (1 / 2))] := by
      show [some (stdev [2, 3])] = _
      rw [hstd]
    exact List.mem_append_left _ (List.mem_append_right _ (by rw [List.length_singleton, this]; simp))
  · refine (e _ _).mpr ⟨by decide, Or.inl ⟨"values", .rmse, .value, by rw [hv]; simp, by rfl, ?_⟩⟩
    rw [hv]
    have : perColumn 1 (fun j => Real.sqrt (average (sqDev (col [[(2 : ℝ)], [3]] j) (((some [3] : Option (List ℝ)).getD []).getD j 0)))) =
        [some (Real.sqrt (1 / 2))] := by
      show [some (Real.sqrt (average (sqDev [2, 3] 3)))] = _
      simp only [average, sqDev]; norm_num
    exact List.mem_append_right _ (by rw [if_pos rfl, List.length_singleton, this]; exact List.mem_cons_self)
  · refine (e _ _).mpr ⟨by decide, Or.inl ⟨"bootstrap std", .mean, .value, by rw [hb]; simp, by rfl, ?_⟩⟩
    rw [hb]
    have : perColumn 1 (fun j => average (col [[(0 : ℝ)], [0]] j)) = [some 0] := by
      show [some (average [0, 0])] = _
      rw [hav]
    exact List.mem_append_left _ (List.mem_append_right _ (by rw [List.length_singleton, this]; exact List.mem_cons_self))
  · refine (e _ _).mpr ⟨by decide, Or.inr (Or.inr (Or.inl (Or.inl ⟨by rfl, ?_⟩)))⟩
    rw [hv, hb]
    show _ = [some (unexplained (stdev [2, 3]) (average [0, 0]))]
    rw [hstd, hav, hun]
  · refine (e _ _).mpr ⟨by decide, Or.inr (Or.inr (Or.inl (Or.inr (Or.inr (Or.inl ⟨by rfl, ?_⟩)))))⟩
    rw [hv, hb]
    show _ = [ratio (unexplained (stdev [2, 3]) (average [0, 0])) (stdev [2, 3])]
    rw [hstd, hav, hun, ratio, if_neg hpos.ne', div_self hpos.ne']

/-- A run with two threads. -/
def exTwoThreads : Run ℝ :=
  { logl := [1, 2], nlive := [2, 1], theta := [[3], [5]], labels := some [0, 1], tmm := some [(⊥, 1), (⊥, 2)] }

theorem exTwoThreads_valid : ValidWith exTwoThreads [0, 1] [(⊥, 1), (⊥, 2)] where
  labels_eq := rfl
  tmm_eq := rfl
  nlive_len := rfl
  labels_len := rfl
  theta_len := rfl
  sorted := by
    intro i j x y hij hx hy
    have hj : j < 2 := (List.getElem?_eq_some_iff.mp hy).1
    interval_cases j <;> interval_cases i
    simp only [exTwoThreads, List.getElem?_cons_zero, List.getElem?_cons_succ, Option.some.injEq] at hx hy
    rw [← hx, ← hy]; norm_num
  labels_range := by
    intro k
    simp only [List.mem_cons, List.not_mem_nil, or_false, List.length_cons, List.length_nil]
    omega
  init := ⟨_, List.mem_cons_self, rfl⟩
  start_le := by
    intro k mm i l hm _ _
    have := List.mem_of_getElem? hm
    simp only [List.mem_cons, List.not_mem_nil, or_false] at this
    rcases this with rfl | rfl <;> exact bot_le
  end_eq := by
    intro k mm i l hm hl hx
    have hk : k < 2 := (List.getElem?_eq_some_iff.mp hm).1
    have hi : i < 2 := (List.getElem?_eq_some_iff.mp hx).1
    have h1 := hl.1
    interval_cases k <;> interval_cases i <;>
      simp [exTwoThreads] at h1 hm hx <;> rw [← hm, ← hx]

/-- C47 for a run with one thread and one with two. -/
example (S : Schedule σ 2) (h : S.order = [1, 0]) (w : World σ) :
    (threadValuesDf R [exOne, exTwoThreads] [Estimator.count.call A R] ["n"] true S w).1 = .error .assertion :=
  (C47_threads_schedule A R exOne_recombinable.toValidWith exTwoThreads_valid (by simp) w).2 S h

/-- C47 for the values of two runs, the second of which is completed first. -/
example (S : Schedule σ 2) (h : S.order = [1, 0]) (w : World σ) :
    ∃ df, (estimatorValuesDf R [exTwoSamples, exThreeSamples] [Estimator.count.call A R] ["n"] true S w).1 = .ok df ∧
      df.rows = [[some 3], [some 2]] := by
  obtain ⟨zs, w', e1, -, -, e2⟩ := C47_values R (count_deterministic A R) (names := ["n"]) rfl (by simp)
    (ex_values A R) true S w
  refine ⟨_, by rw [e1], ?_⟩
  apply List.ext_getElem?
  intro k
  show zs[k]? = _
  rw [e2 k]
  rcases k with _ | _ | k <;> simp [rowOrder, h]

end
end Nestcheck
