import Verif.Model.KwargsWrite
import Verif.Props.Kwargs
import Verif.Props.MultiExample

/-! C90 for `write_run_output` and `summary_df_from_multi`. -/

namespace Nestcheck
open Spec
variable {σ F : Type}

noncomputable section

/-- The options of `write_run_output`. -/
def Spec.writeOptions : List String :=
  ["write_dead", "write_stats", "posteriors", "equals", "stats_means_errs", "fmt", "n_simulate", "logl_init"]

/-- The options of `summary_df_from_multi`. -/
def Spec.multiOptions : List String := ["inds_to_keep", "true_values", "include_true_values", "include_rmse"]

section
variable {A : Argsort ℝ} {R : Rng σ ℝ} {rd : Path → ℝ → ℝ} {fl : Option ℝ → F} {CF : Codec F} {CI : Codec Int}

/-- C90 for `write_run_output`: with an unknown option, or for a run without 'output', nothing is written, drawn or changed. -/
theorem C90_unknown_write (run : Run ℝ) (settings : Option Settings) (hasOutput : Bool) (kw : Kwargs) (w : World (Written σ F)) :
    (Unknown writeOptions kw → writeRunKw A R rd fl CF CI run settings hasOutput kw w = (.error .type, w)) ∧
    (¬ Unknown writeOptions kw → writeRunKw A R rd fl CF CI run settings false kw w = (.error .key, w)) := by
  constructor
  · rintro ⟨p, hp, hu⟩
    simp only [writeOptions, List.mem_cons, List.not_mem_nil, or_false, not_or] at hu
    unfold writeRunKw
    rw [noneLeft_of_mem (p := p) (by simp [mem_without, hp, hu])]
    rfl
  · intro h
    have h' := not_unknown h
    unfold writeRunKw
    rw [noneLeft_of_forall (by
      intro p hp
      simp only [mem_without] at hp
      have := h' p (by tauto)
      simp only [writeOptions, List.mem_cons, List.not_mem_nil, or_false] at this
      tauto)]
    rfl

/-- C90: the options of `write_run_output`.  By default the dead points and the .stats file with evidence, means and their errors
are written, numbers with 14 digits after the point, and the bootstrap has 100 replications. -/
theorem C90_write {kw : Kwargs} (h : ¬ Unknown writeOptions kw) {fmt : Option Path} {nSim : Option Nat} {init : Option ℝ}
    (h1 : kw.lookup "fmt" = fmt.map Val.str) (h2 : kw.lookup "n_simulate" = nSim.map Val.nat)
    (h3 : kw.lookup "logl_init" = init.map Val.real) (run : Run ℝ) (settings : Option Settings) :
    writeRunKw A R rd fl CF CI run settings true kw =
      writeRun A R (rd (fmt.getD "% .14E".toList)) fl CF CI run settings
        { writeDead := flag kw "write_dead" true, writeStats := flag kw "write_stats" true, posteriors := flag kw "posteriors" false,
          equals := flag kw "equals" false, meansErrs := flag kw "stats_means_errs" true, nSim := nSim.getD 100,
          loglInit := init.getD (-10 ^ 30) } := by
  have h' := not_unknown h
  have g1 : Kwargs.get kw "fmt" (.str "% .14E".toList) = .str (fmt.getD "% .14E".toList) := by
    unfold Kwargs.get
    rw [h1]
    cases fmt <;> rfl
  have g2 : (Kwargs.get kw "n_simulate" (.nat 100)).toNat = .ok (nSim.getD 100) := by
    unfold Kwargs.get
    rw [h2]
    cases nSim <;> rfl
  have g3 : (Kwargs.get kw "logl_init" (.real (-10 ^ 30))).toReal = .ok (init.getD (-10 ^ 30)) := by
    unfold Kwargs.get
    rw [h3]
    cases init <;> rfl
  unfold writeRunKw
  dsimp only
  rw [noneLeft_of_forall (by
      intro p hp
      simp only [mem_without] at hp
      have := h' p (by tauto)
      simp only [writeOptions, List.mem_cons, List.not_mem_nil, or_false] at this
      tauto)]
  simp only [get_without, ne_eq, String.reduceEq, not_false_eq_true, g1, g2, g3, truthy_get]
  rfl

end

/-- C90: the options of `summary_df_from_multi`. -/
theorem C90_multi {kw : Kwargs} (h : ¬ Unknown multiOptions kw) {inds : Option (List String)} {tv : Option (List ℝ)}
    (h1 : kw.lookup "inds_to_keep" = inds.map Val.names) (h2 : kw.lookup "true_values" = tv.map Val.reals) (f : MultiFrame) :
    summaryDfMultiKw f kw = summaryDfMulti f inds tv (flag kw "include_true_values" false) (flag kw "include_rmse" false) := by
  have h' := not_unknown h
  have g2 : (Kwargs.get kw "true_values" .none).toReals = .ok tv := by
    unfold Kwargs.get
    rw [h2]
    cases tv <;> rfl
  have hl := noneLeft_of_forall (kw := (((kw.without "inds_to_keep").without "include_true_values").without "true_values").without "include_rmse") (by
      intro p hp
      simp only [mem_without] at hp
      have := h' p (by tauto)
      simp only [multiOptions, List.mem_cons, List.not_mem_nil, or_false] at this
      tauto)
  unfold summaryDfMultiKw
  simp only [get_without, ne_eq, String.reduceEq, not_false_eq_true, g2]
  have g1 : Kwargs.get kw "inds_to_keep" .none = (inds.map Val.names).getD .none := by
    unfold Kwargs.get
    rw [h1]
  rw [g1]
  cases inds <;> simp only [Option.map_none, Option.getD_none, Option.map_some, Option.getD_some, summaryDfMultiKw.answer, hl, truthy_get]

/-- C90 for `summary_df_from_multi`: an unknown option is refused, whatever the levels and values (`TypeError` if the levels exist). -/
theorem C90_unknown_multi {kw : Kwargs} (h : Unknown multiOptions kw) {inds : Option (List String)} {tv : Option (List ℝ)}
    (h1 : kw.lookup "inds_to_keep" = inds.map Val.names) (h2 : kw.lookup "true_values" = tv.map Val.reals) {f : MultiFrame}
    (hf : f.levels.Nodup) (h0 : inds.getD f.levels.dropLast ≠ []) (hsub : ∀ n ∈ inds.getD f.levels.dropLast, n ∈ f.levels) :
    summaryDfMultiKw f kw = (.error .type, f) := by
  obtain ⟨p, hp, hu⟩ := h
  simp only [multiOptions, List.mem_cons, List.not_mem_nil, or_false, not_or] at hu
  have g2 : (Kwargs.get kw "true_values" .none).toReals = .ok tv := by
    unfold Kwargs.get
    rw [h2]
    cases tv <;> rfl
  have hl := noneLeft_of_mem (kw := (((kw.without "inds_to_keep").without "include_true_values").without "true_values").without "include_rmse")
    (p := p) (by simp [mem_without, hp, hu])
  have hn := levelNumbers_ok hf hsub
  unfold summaryDfMultiKw
  simp only [get_without, ne_eq, String.reduceEq, not_false_eq_true, g2]
  have g1 : Kwargs.get kw "inds_to_keep" .none = (inds.map Val.names).getD .none := by
    unfold Kwargs.get
    rw [h1]
  have key : ∀ a b : Val, summaryDfMultiKw.answer f inds tv a b
      ((((kw.without "inds_to_keep").without "include_true_values").without "true_values").without "include_rmse") = (.error .type, f) := by
    intro a b
    unfold summaryDfMultiKw.answer
    rw [hl, hn]
    cases hk : inds.getD f.levels.dropLast with
    | nil => exact absurd hk h0
    | cons a l => rfl
  rw [g1]
  cases inds <;> simp only [Option.map_none, Option.getD_none, Option.map_some, Option.getD_some, key]

/-- C90: a level which does not exist, or no level at all, is reported before an unknown option. -/
theorem C90_unknown_multi_level {kw : Kwargs} (h : Unknown multiOptions kw) {inds : List String} {tv : Option (List ℝ)}
    (h1 : kw.lookup "inds_to_keep" = some (Val.names inds)) (h2 : kw.lookup "true_values" = tv.map Val.reals) {f : MultiFrame}
    (hf : f.levels.Nodup) :
    ((∃ n ∈ inds, n ∉ f.levels) → summaryDfMultiKw f kw = (.error .key, f)) ∧
    (inds = [] → summaryDfMultiKw f kw = (.error .value, f)) := by
  obtain ⟨p, hp, hu⟩ := h
  simp only [multiOptions, List.mem_cons, List.not_mem_nil, or_false, not_or] at hu
  have g2 : (Kwargs.get kw "true_values" .none).toReals = .ok tv := by
    unfold Kwargs.get
    rw [h2]
    cases tv <;> rfl
  have hl := noneLeft_of_mem (kw := (((kw.without "inds_to_keep").without "include_true_values").without "true_values").without "include_rmse")
    (p := p) (by simp [mem_without, hp, hu])
  have g1 : Kwargs.get kw "inds_to_keep" .none = .names inds := by
    unfold Kwargs.get
    rw [h1]
    rfl
  constructor
  · intro hn
    have hk := levelNumbers_unknown hf hn
    have key : ∀ a b : Val, summaryDfMultiKw.answer f (some inds) tv a b
        ((((kw.without "inds_to_keep").without "include_true_values").without "true_values").without "include_rmse") = (.error .key, f) := by
      intro a b
      unfold summaryDfMultiKw.answer
      rw [hl, Option.getD_some, hk]
      cases inds with
      | nil => simp at hn
      | cons a l => rfl
    unfold summaryDfMultiKw
    simp only [get_without, ne_eq, String.reduceEq, not_false_eq_true, g2, g1, key]
  · rintro rfl
    have key : ∀ a b : Val, summaryDfMultiKw.answer f (some []) tv a b
        ((((kw.without "inds_to_keep").without "include_true_values").without "true_values").without "include_rmse") = (.error .value, f) := by
      intro a b
      unfold summaryDfMultiKw.answer
      rw [hl]
      rfl
    unfold summaryDfMultiKw
    simp only [get_without, ne_eq, String.reduceEq, not_false_eq_true, g2, g1, key]

/-- A misspelt option. -/
example (A : Argsort ℝ) (R : Rng σ ℝ) (rd : Path → ℝ → ℝ) (fl : Option ℝ → F) (CF : Codec F) (CI : Codec Int) (run : Run ℝ)
    (w : World (Written σ F)) : writeRunKw A R rd fl CF CI run none true [("posterior", .bool true)] w = (.error .type, w) :=
  (C90_unknown_write run none true _ w).1 ⟨_, List.mem_cons_self, by decide⟩

/-- Only the .stats file without means is written. -/
example (A : Argsort ℝ) (R : Rng σ ℝ) (rd : Path → ℝ → ℝ) (fl : Option ℝ → F) (CF : Codec F) (CI : Codec Int) (run : Run ℝ) :
    writeRunKw A R rd fl CF CI run none true [("write_dead", .bool false), ("stats_means_errs", .nat 0)] =
      writeRun A R (rd "% .14E".toList) fl CF CI run none
        { writeDead := false, writeStats := true, posteriors := false, equals := false, meansErrs := false, nSim := 100, loglInit := -10 ^ 30 } := by
  rw [C90_write (fmt := none) (nSim := none) (init := none) (by
    rintro ⟨p, hp, hu⟩
    simp only [List.mem_cons, List.not_mem_nil, or_false] at hp
    rcases hp with rfl | rfl <;> exact hu (by decide)) (by simp [List.lookup]) (by simp [List.lookup]) (by simp [List.lookup])]
  simp [flag, List.lookup, Val.truthy]

example : summaryDfMultiKw (realFrame samplerLevels 1 twoSamplers) [("rmse", .bool true)] = (.error .type, realFrame samplerLevels 1 twoSamplers) :=
  C90_unknown_multi (inds := none) (tv := none) ⟨_, List.mem_cons_self, by decide⟩ (by simp [List.lookup]) (by simp [List.lookup])
    (by change samplerLevels.Nodup; decide) (by change samplerLevels.dropLast ≠ []; decide)
    (by change ∀ n ∈ samplerLevels.dropLast, n ∈ samplerLevels; decide)

example : summaryDfMultiKw (realFrame samplerLevels 1 twoSamplers) [("rmse", .bool true), ("inds_to_keep", .names ["colour"])] =
    (.error .key, realFrame samplerLevels 1 twoSamplers) :=
  (C90_unknown_multi_level (inds := ["colour"]) (tv := none) ⟨_, List.mem_cons_self, by decide⟩ (by simp [List.lookup])
    (by simp [List.lookup]) (by change samplerLevels.Nodup; decide)).1 ⟨"colour", List.mem_cons_self, by change "colour" ∉ samplerLevels; decide⟩

end
end Nestcheck
