import Verif.Props.Multi

/-! Concrete cases for C107. -/

namespace Nestcheck
open Spec

noncomputable section

/-- Two samplers, each with two runs: the estimates of one quantity. -/
def twoSamplers : List (List String × List ℝ) :=
  [(["a", "values", "0"], [1]), (["b", "values", "0"], [2]), (["a", "values", "1"], [3]), (["b", "values", "1"], [2])]

def samplerLevels : List String := ["sampler", "calculation type", "run"]

theorem twoSamplers_groups (g : List String) :
    rowsWith samplerLevels ["sampler", "calculation type"] twoSamplers g =
      if g = ["a", "values"] then [[1], [3]] else if g = ["b", "values"] then [[2], [2]] else [] := by
  have h1 : valueAt samplerLevels ["a", "values", "0"] "sampler" = "a" := by decide
  have h2 : valueAt samplerLevels ["a", "values", "1"] "sampler" = "a" := by decide
  have h3 : valueAt samplerLevels ["b", "values", "0"] "sampler" = "b" := by decide
  have h4 : valueAt samplerLevels ["b", "values", "1"] "sampler" = "b" := by decide
  have k1 : valueAt samplerLevels ["a", "values", "0"] "calculation type" = "values" := by decide
  have k2 : valueAt samplerLevels ["a", "values", "1"] "calculation type" = "values" := by decide
  have k3 : valueAt samplerLevels ["b", "values", "0"] "calculation type" = "values" := by decide
  have k4 : valueAt samplerLevels ["b", "values", "1"] "calculation type" = "values" := by decide
  unfold rowsWith twoSamplers
  simp only [List.filter_cons, List.filter_nil, List.map_cons, List.map_nil, h1, h2, h3, h4, k1, k2, k3, k4]
  by_cases ha : g = ["a", "values"]
  · subst ha
    simp
  · by_cases hb : g = ["b", "values"]
    · subst hb
      simp
    · simp [ha, hb, Ne.symm ha, Ne.symm hb]

/-- The hypotheses of C107 hold for this frame and the default of `inds_to_keep`; the mean for sampler a is 2. -/
example : ∃ out : MultiFrame, summaryDfMulti (realFrame samplerLevels 1 twoSamplers) none none false false =
      (.ok out, realFrame samplerLevels 1 twoSamplers) ∧
    out.levels = ["sampler", "calculation type", "result type"] ∧ (["a", "values mean", "value"], [some 2]) ∈ out.rows ∧
    (out.rows.map Prod.fst).Nodup := by
  obtain ⟨gs, -, g2, g3, g4⟩ := C107 (levels := samplerLevels) (m := 1) (rs := twoSamplers) (inds := none) (kept := ["sampler", "calculation type"])
    rfl (by decide) (by decide) (by decide) (by decide) (by decide) (by decide) (by simp [twoSamplers]) (by simp [twoSamplers])
    (by
      intro g
      rw [twoSamplers_groups]
      split
      · simp
      · split <;> simp) (tv := none) (by simp) (incTrue := false) (incRmse := false) (by simp)
  refine ⟨_, g4, (by decide : summaryLevels ["sampler", "calculation type"] = _), ?_, ?_⟩
  · have hm : ["a", "values"] ∈ gs := (g3 _).mpr ⟨(["a", "values", "0"], [1]), by simp [twoSamplers], by decide⟩
    simp only [multiRows, Bool.false_eq_true, if_false, List.append_nil, List.mem_flatMap, List.mem_map]
    refine ⟨_, hm, ((.mean, .value), [some 2]), ?_, ?_⟩
    · rw [twoSamplers_groups, if_pos rfl]
      simp [summaryTable, col, average, perColumn]
      norm_num
    · rw [Prod.mk.injEq]
      exact ⟨by decide, rfl⟩
  · exact C107_index g2 fun g hg => by
      obtain ⟨r, -, h⟩ := (g3 g).mp hg
      exact ⟨_, h.symm⟩

/-- With `inds_to_keep=['calculation type', 'sampler']` the calculation type is still put behind the sampler. -/
example : summaryLevels ["calculation type", "sampler"] = ["sampler", "calculation type", "result type"] ∧
    summaryKey ["calculation type", "sampler"] ["values", "a"] .std .uncertainty = ["a", "values std", "uncertainty"] := by decide

/-- A level which the index does not have. -/
example : summaryDfMulti (realFrame samplerLevels 1 twoSamplers) (some ["sampler", "method"]) none false false =
    (.error .key, realFrame samplerLevels 1 twoSamplers) :=
  (C107_levels _ _ _ _ _).2 (by decide) (by decide) (by decide) ⟨"method", by decide, by decide⟩

/-- If all levels are kept, every group has one row. -/
example : summaryDfMulti (realFrame samplerLevels 1 twoSamplers) (some samplerLevels) none false false =
    (.error .zeroDivision, realFrame samplerLevels 1 twoSamplers) := by
  refine (C107_errors (kept := samplerLevels) rfl (by decide) (by decide) (by decide) (by decide) (fun _ h => h) (by decide) (by simp [twoSamplers])
    (by simp [twoSamplers]) (by simp)).1 ⟨["a", "values", "0"], ?_⟩ (by simp)
  have h1 : samplerLevels.map (valueAt samplerLevels ["a", "values", "0"]) = ["a", "values", "0"] := by decide
  have h2 : samplerLevels.map (valueAt samplerLevels ["a", "values", "1"]) = ["a", "values", "1"] := by decide
  have h3 : samplerLevels.map (valueAt samplerLevels ["b", "values", "0"]) = ["b", "values", "0"] := by decide
  have h4 : samplerLevels.map (valueAt samplerLevels ["b", "values", "1"]) = ["b", "values", "1"] := by decide
  unfold rowsWith twoSamplers
  simp only [List.filter_cons, List.filter_nil, h1, h2, h3, h4]
  simp

end
end Nestcheck
