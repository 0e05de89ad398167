import Verif.Model.Kwargs
import Verif.Props.Parallel
import Verif.Props.Cache

/-
C90: options.  An option which a function does not know never goes unnoticed, except in the
cases listed; the order in which options are given is irrelevant; an option which is not given
has its documented default.
-/

namespace Nestcheck
noncomputable section
variable {σ τ V α β K : Type}

namespace Spec

/-- Some option is not among those of the function. -/
def Unknown (opts : List String) (kw : Kwargs) : Prop := ∃ p ∈ kw, p.1 ∉ opts

/-- The same options with the same values, whatever their order. -/
def SameOptions (kw kw' : Kwargs) : Prop := ∀ k : String, kw.lookup k = kw'.lookup k

/-- An exception, and nothing else happened: no random numbers drawn, no warning, no file
changed. -/
def Refused (x : M σ α) : Prop := ∀ w, ∃ e, x w = (.error e, w)

/-- `process_samples_array` and `check_ns_run`. -/
def checkOpts : List String := ["dup_assert", "dup_warn"]
/-- `process_polychord_run` -/
def polychordOpts : List String := ["process_stats_file", "dup_assert", "dup_warn"]
/-- `run_bootstrap_values`, `run_std_bootstrap` -/
def bootstrapOpts : List String := ["n_simulate", "ninit_sep", "flip_skew", "random_seeds"]
/-- `run_ci_bootstrap` -/
def ciOpts : List String := "cred_int" :: bootstrapOpts
/-- `parallel_apply` -/
def applyOpts : List String :=
  ["max_workers", "parallel", "parallel_warning", "func_args", "func_pre_args", "func_kwargs", "tqdm_kwargs"]
/-- `batch_process_data` without those of the cache. -/
def batchOpts : List String :=
  ["base_dir", "process_func", "func_kwargs", "errors_to_handle", "max_workers", "parallel", "parallel_warning",
   "func_pre_args", "tqdm_kwargs"]
/-- `save_load_result` -/
def cacheOpts : List String := ["save_name", "save", "load", "overwrite_existing", "warn_if_error"]
/-- `run_list_error_values` without those of the cache. -/
def errorValuesOpts : List String := ["n_simulate", "thread_pvalue", "bs_stat_dist", "parallel"]
/-- `summary_df` -/
def summaryOpts : List String := ["true_values", "include_true_values", "include_rmse"]

/-- The truth value of an option, or its default. -/
def flag (kw : Kwargs) (k : String) (default : Bool) : Bool := (kw.lookup k).elim default Val.truthy

end Spec

open Spec

theorem lookup_without (kw : Kwargs) (k j : String) :
    (Kwargs.without kw k).lookup j = if j = k then none else kw.lookup j := by
  induction kw with
  | nil => simp [Kwargs.without]
  | cons p kw ih =>
    unfold Kwargs.without at ih ⊢
    by_cases hp : p.1 = k
    · rw [List.filter_cons_of_neg (by simp [hp]), ih]
      split_ifs with hj
      · rfl
      · obtain ⟨a, v⟩ := p
        have : (j == a) = false := by simpa [← (show a = k from hp)] using hj
        simp [List.lookup_cons, this]
    · rw [List.filter_cons_of_pos (by simp [hp])]
      obtain ⟨a, v⟩ := p
      simp only [List.lookup_cons, ih]
      by_cases hja : j = a
      · subst hja
        have : j ≠ k := hp
        simp [this]
      · have : (j == a) = false := by simpa using hja
        simp [this]

theorem mem_without {kw : Kwargs} {k : String} {p : String × Val} : p ∈ Kwargs.without kw k ↔ p ∈ kw ∧ p.1 ≠ k := by
  simp [Kwargs.without]

theorem noneLeft_of_mem {kw : Kwargs} {p : String × Val} (h : p ∈ kw) : noneLeft kw = .error .type := by
  cases kw with
  | nil => cases h
  | cons => rfl

theorem noneLeft_of_forall {kw : Kwargs} (h : ∀ p, p ∉ kw) : noneLeft kw = .ok () := by
  cases kw with
  | nil => rfl
  | cons p => exact absurd List.mem_cons_self (h p)

theorem get_without {kw : Kwargs} {k j : String} (d : Val) (h : j ≠ k) :
    Kwargs.get (Kwargs.without kw k) j d = Kwargs.get kw j d := by
  unfold Kwargs.get
  rw [lookup_without, if_neg h]

/-- A key of the dictionary can be looked up. -/
theorem lookup_isSome {kw : Kwargs} {k : String} : (kw.lookup k).isSome ↔ ∃ p ∈ kw, p.1 = k := by
  induction kw with
  | nil => simp
  | cons p kw ih =>
    obtain ⟨a, v⟩ := p
    by_cases h : k = a
    · subst h; simp
    · have : (k == a) = false := by simpa using h
      rw [List.lookup_cons, this, ih]
      constructor
      · rintro ⟨p, hp, h'⟩; exact ⟨p, List.mem_cons_of_mem _ hp, h'⟩
      · rintro ⟨p, hp, h'⟩
        rcases List.mem_cons.mp hp with rfl | hp
        · exact absurd h'.symm h
        · exact ⟨p, hp, h'⟩

theorem Spec.SameOptions.without {kw kw' : Kwargs} (h : SameOptions kw kw') (k : String) :
    SameOptions (Kwargs.without kw k) (Kwargs.without kw' k) := by
  intro j
  rw [lookup_without, lookup_without, h j]

theorem Spec.SameOptions.get {kw kw' : Kwargs} (h : SameOptions kw kw') (k : String) (d : Val) :
    Kwargs.get kw k d = Kwargs.get kw' k d := by
  unfold Kwargs.get
  rw [h k]

theorem Spec.SameOptions.keys {kw kw' : Kwargs} (h : SameOptions kw kw') (k : String) :
    (∃ p ∈ kw, p.1 = k) ↔ ∃ p ∈ kw', p.1 = k := by
  rw [← lookup_isSome, ← lookup_isSome, h k]

theorem Spec.SameOptions.noneLeft {kw kw' : Kwargs} (h : SameOptions kw kw') : noneLeft kw = noneLeft kw' := by
  cases kw with
  | nil =>
    cases kw' with
    | nil => rfl
    | cons p kw' =>
      obtain ⟨q, hq, -⟩ := (h.keys p.1).mpr ⟨p, List.mem_cons_self, rfl⟩
      cases hq
  | cons p kw =>
    obtain ⟨q, hq, -⟩ := (h.keys p.1).mp ⟨p, List.mem_cons_self, rfl⟩
    rw [noneLeft_of_mem hq]
    rfl

theorem Spec.SameOptions.any {kw kw' : Kwargs} (h : SameOptions kw kw') (f : String → Bool) :
    kw.any (fun p => f p.1) = kw'.any (fun p => f p.1) := by
  rw [Bool.eq_iff_iff, List.any_eq_true, List.any_eq_true]
  constructor
  · rintro ⟨p, hp, hf⟩
    obtain ⟨q, hq, e⟩ := (h.keys p.1).mp ⟨p, hp, rfl⟩
    exact ⟨q, hq, e ▸ hf⟩
  · rintro ⟨p, hp, hf⟩
    obtain ⟨q, hq, e⟩ := (h.keys p.1).mpr ⟨p, hp, rfl⟩
    exact ⟨q, hq, e ▸ hf⟩

/-- Options given in another order are the same options. -/
theorem C90_order {kw kw' : Kwargs} (hp : kw.Perm kw') (hn : (kw.map Prod.fst).Nodup) : SameOptions kw kw' := by
  induction hp with
  | nil => exact fun _ => rfl
  | cons p _ ih =>
    intro k
    obtain ⟨a, v⟩ := p
    rw [List.lookup_cons, List.lookup_cons, ih (by simp at hn; exact hn.2) k]
  | swap p q l =>
    intro k
    obtain ⟨a, v⟩ := p
    obtain ⟨b, u⟩ := q
    have hab : b ≠ a := by
      simp at hn
      exact hn.1.1
    simp only [List.lookup_cons]
    by_cases h1 : k = a
    · subst h1
      have : (k == b) = false := by simpa using Ne.symm hab
      simp [this]
    · have : (k == a) = false := by simpa using h1
      simp [this]
  | trans h1 _ ih1 ih2 =>
    intro k
    rw [ih1 hn k, ih2 ((h1.map Prod.fst).nodup_iff.mp hn) k]

/-! ### Options which the function does not know -/

theorem refused_bind {x : M σ α} {f : α → M σ β} (h : Refused x) : Refused (x >>= f) := by
  intro w
  obtain ⟨e, he⟩ := h w
  exact ⟨e, M.bind_error he⟩

theorem refused_bind_lift {x : Py α} {f : α → M σ β} (h : ∀ a, x = .ok a → Refused (f a)) : Refused (M.lift x >>= f) := by
  intro w
  cases hx : x with
  | error e => exact ⟨e, by simp [M.bind_apply]⟩
  | ok a =>
    obtain ⟨e, he⟩ := h a hx w
    exact ⟨e, by simp [M.bind_apply, he]⟩

theorem refused_bind_assert {c : Bool} {f : Unit → M σ β} (h : Refused (f ())) : Refused (M.assert c >>= f) := by
  intro w
  cases c with
  | false => exact ⟨.assertion, by simp [M.bind_apply]⟩
  | true =>
    obtain ⟨e, he⟩ := h w
    exact ⟨e, by simp [M.bind_apply, he]⟩

theorem refused_raise (e : PyErr) : Refused (M.raise e : M σ α) := fun _ => ⟨e, rfl⟩

theorem refused_left {kw : Kwargs} {p : String × Val} (h : p ∈ kw) (f : Unit → M σ β) :
    Refused (M.lift (noneLeft kw) >>= f) := by
  rw [noneLeft_of_mem h]
  exact fun w => ⟨.type, rfl⟩

section
variable [CommRing K] [LinearOrder K] {A : Argsort K} {R : Rng σ K}

/-- C90 for `process_samples_array`. -/
theorem C90_unknown_process (samples : List (Sample K)) {kw : Kwargs} (h : Unknown checkOpts kw) (w : World σ) :
    processSamplesKw A R samples kw w = (.error .type, w) := by
  obtain ⟨p, hp, hu⟩ := h
  simp only [checkOpts, List.mem_cons, List.not_mem_nil, or_false, not_or] at hu
  unfold processSamplesKw
  rw [noneLeft_of_mem (p := p) (by simp [mem_without, hp, hu])]
  rfl

/-- C90 for `process_polychord_run`: `TypeError`, unless the file cannot be read. -/
theorem C90_unknown_polychord {F : Type} {CF : Codec F} {CI : Codec Int} (tables : Tables K) (texts : Texts)
    (fileRoot baseDir : String) {kw : Kwargs} (h : Unknown polychordOpts kw) (w : World σ) :
    processPolychordKw A R CF CI tables texts fileRoot baseDir kw w = (.error .type, w) ∨
      ∃ e, (loadTable tables (pathJoin baseDir fileRoot ++ "_dead-birth.txt") >>= tableSamples) = .error e ∧
        processPolychordKw A R CF CI tables texts fileRoot baseDir kw w = (.error e, w) := by
  obtain ⟨p, hp, hu⟩ := h
  simp only [polychordOpts, List.mem_cons, List.not_mem_nil, or_false, not_or] at hu
  have hk : Unknown checkOpts (Kwargs.without kw "process_stats_file") :=
    ⟨p, mem_without.mpr ⟨hp, hu.1⟩, by simp [checkOpts, hu]⟩
  unfold processPolychordKw
  split_ifs with hg
  · exact .inl rfl
  · rcases hl : loadTable tables (pathJoin baseDir fileRoot ++ "_dead-birth.txt") with e | rows
    · exact .inr ⟨e, rfl, rfl⟩
    · rcases ht : tableSamples rows with e | samples
      · refine .inr ⟨e, ?_, ?_⟩
        · show tableSamples rows = _
          rw [ht]
        · simp [M.bind_apply, ht]
      · refine .inl ?_
        simp [M.bind_apply, ht, C90_unknown_process samples hk]

theorem checkOptions_unknown {kw : Kwargs} (h : Unknown checkOpts kw) : checkOptions kw = .error .type := by
  obtain ⟨p, hp, hu⟩ := h
  simp only [checkOpts, List.mem_cons, List.not_mem_nil, or_false, not_or] at hu
  unfold checkOptions
  rw [noneLeft_of_mem (p := p) (by simp [mem_without, hp, hu])]
  rfl

/-- C90 for `combine_ns_runs`. -/
theorem C90_unknown_combine (runs : List (Run K)) {kw : Kwargs} (h : Unknown checkOpts kw) (w : World σ) :
    combineRunsKw A runs kw w = (.error (if runs = [] then .value else .type), w) := by
  cases runs with
  | nil => rfl
  | cons r rs =>
    unfold combineRunsKw
    rw [checkOptions_unknown h]
    rfl

end

variable {A : Argsort ℝ} {R : Rng σ ℝ}

/-- C90 for `run_bootstrap_values`. -/
theorem C90_unknown_bootstrap (r : Run ℝ) (settings : Option Settings) (ests : List (EstFunc σ)) {kw : Kwargs}
    (h : Unknown bootstrapOpts kw) : Refused (runBootstrapValuesKw A R r settings ests kw) := by
  obtain ⟨p, hp, hu⟩ := h
  simp only [bootstrapOpts, List.mem_cons, List.not_mem_nil, or_false, not_or] at hu
  unfold runBootstrapValuesKw
  dsimp only
  split
  · exact refused_raise _
  · refine refused_bind_lift fun n _ => refused_bind_lift fun seeds _ => refused_bind_assert ?_
    exact refused_left (p := p) (by simp [mem_without, hp, hu]) _

/-- C90 for `run_std_bootstrap`. -/
theorem C90_unknown_std (r : Run ℝ) (settings : Option Settings) (ests : List (EstFunc σ)) {kw : Kwargs}
    (h : Unknown bootstrapOpts kw) : Refused (runStdBootstrapKw A R r settings ests kw) :=
  refused_bind (C90_unknown_bootstrap r settings ests h)

/-- C90 for `run_ci_bootstrap`. -/
theorem C90_unknown_ci (r : Run ℝ) (settings : Option Settings) (ests : List (EstFunc σ)) {kw : Kwargs}
    (h : Unknown ciOpts kw) : Refused (runCiBootstrapKw A R r settings ests kw) := by
  obtain ⟨p, hp, hu⟩ := h
  simp only [ciOpts, List.mem_cons, not_or] at hu
  unfold runCiBootstrapKw
  split
  · exact refused_raise _
  · exact refused_bind (C90_unknown_bootstrap r settings ests ⟨p, mem_without.mpr ⟨hp, hu.1⟩, hu.2⟩)

/-- C90 for `parallel_apply`: no task is started. -/
theorem C90_unknown_apply (f : List Val → α → List Val → Kwargs → M σ β) (xs : List α) {kw : Kwargs}
    (h : Unknown applyOpts kw) (S : Schedule σ xs.length) (w : World σ) :
    parallelApplyKw f xs kw S w = (.error .type, w) := by
  obtain ⟨p, hp, hu⟩ := h
  simp only [applyOpts, List.mem_cons, List.not_mem_nil, or_false, not_or] at hu
  unfold parallelApplyKw
  rw [noneLeft_of_mem (p := p) (by simp [mem_without, hp, hu])]
  rfl

/-- C90 for `batch_process_data`: no file is read. -/
theorem C90_unknown_batch (proc : Val → Val → String → Kwargs → M σ β) (rootOf : β → Option String)
    (roots : List String) {kw : Kwargs} (h : Unknown batchOpts kw) (S : Schedule σ roots.length) (w : World σ) :
    batchProcessKw proc rootOf roots kw S w = (.error .type, w) := by
  obtain ⟨p, hp, hu⟩ := h
  simp only [batchOpts, List.mem_cons, List.not_mem_nil, or_false, not_or] at hu
  unfold batchProcessKw
  rcases hd : (Kwargs.get ((Kwargs.without kw "base_dir").without "process_func") "func_kwargs" (.dict [])).toDict with e | func
  · have : e = .type := by
      unfold Val.toDict at hd
      split at hd <;> cases hd
      rfl
    subst this
    rfl
  · rw [M.bind_ok (M.lift_apply _ _)]
    split_ifs with hg
    · rfl
    · refine M.bind_error (C90_unknown_apply _ _ ⟨p, ?_, ?_⟩ _ _)
      · exact List.mem_cons_of_mem _ (by simp [mem_without, hp, hu])
      · simp only [List.any_eq_true, not_exists, not_and] at hg
        have := hg p (by simp [mem_without, hp, hu])
        simp [batchGiven] at this
        simp [applyOpts, hu, this]

/-- C90 for the tables of `run_list_error_values`. -/
theorem C90_unknown_error_values (D : Distances (List Cell) Cell) (runs : List (Run ℝ)) (ests : List (EstFunc σ))
    (names : List String) {kw : Kwargs} (h : Unknown errorValuesOpts kw) (S1 S2 S3 : Schedule σ runs.length)
    (w : World σ) : runListErrorValuesKw A R D runs ests names kw S1 S2 S3 w = (.error .type, w) := by
  obtain ⟨p, hp, hu⟩ := h
  simp only [errorValuesOpts, List.mem_cons, List.not_mem_nil, or_false, not_or] at hu
  unfold runListErrorValuesKw
  dsimp only
  rw [noneLeft_of_mem (p := p) (by simp [mem_without, hp, hu])]
  split_ifs <;> rfl

/-- C90 for `estimator_values_df`. -/
theorem C90_unknown_estimator_values (runs : List (Run ℝ)) (ests : List (EstFunc σ)) {kw : Kwargs}
    (h : Unknown ["estimator_names", "parallel"] kw) (S : Schedule σ runs.length) (w : World σ) :
    estimatorValuesDfKw R runs ests kw S w = (.error .type, w) := by
  obtain ⟨p, hp, hu⟩ := h
  simp only [List.mem_cons, List.not_mem_nil, or_false, not_or] at hu
  unfold estimatorValuesDfKw
  rw [noneLeft_of_mem (p := p) (by simp [mem_without, hp, hu])]
  rfl

/-- C90 for `summary_df`, `efficiency_gain_df`, `implementation_std`, `get_dummy_run`, `count_samples` and
`run_dead_birth_array`. -/
theorem C90_unknown_others {kw : Kwargs} :
    (Unknown summaryOpts kw → ∀ a : Arr2, summaryDfKw a kw = .error .type) ∧
    (Unknown ("adjust_nsamp" :: summaryOpts) kw → ∀ names values nnames,
      efficiencyGainDfKw names values nnames kw = .error .type) ∧
    (Unknown ["nsim", "random_seed"] kw → ∀ (N : NormalRng σ) rows w, implementationStdKw R N rows kw w = (.error .type, w)) ∧
    (Unknown ["seed", "ndim", "logl_start", "logl_range"] kw → ∀ nthread nsamples w,
      getDummyRunKw A R nthread nsamples kw w = (.error .type, w)) ∧
    (Unknown ["logw", "simulate"] kw → ∀ r, countSamplesKw r kw = .error .type) ∧
    (Unknown ("logl_init" :: checkOpts) kw → ∀ r, Refused (runDeadBirthKw (σ := σ) A r kw)) := by
  refine ⟨?_, ?_, ?_, ?_, ?_, ?_⟩
  · rintro ⟨p, hp, hu⟩ a
    simp only [summaryOpts, List.mem_cons, List.not_mem_nil, or_false, not_or] at hu
    unfold summaryDfKw
    dsimp only
    rw [noneLeft_of_mem (p := p) (by simp [mem_without, hp, hu])]
    rfl
  · rintro ⟨p, hp, hu⟩ names values nnames
    simp only [summaryOpts, List.mem_cons, List.not_mem_nil, or_false, not_or] at hu
    unfold efficiencyGainDfKw
    dsimp only
    rw [noneLeft_of_mem (p := p) (by simp [mem_without, hp, hu])]
    rfl
  · rintro ⟨p, hp, hu⟩ N rows w
    simp only [List.mem_cons, List.not_mem_nil, or_false, not_or] at hu
    unfold implementationStdKw
    rw [noneLeft_of_mem (p := p) (by simp [mem_without, hp, hu])]
    rfl
  · rintro ⟨p, hp, hu⟩ nthread nsamples w
    simp only [List.mem_cons, List.not_mem_nil, or_false, not_or] at hu
    unfold getDummyRunKw
    rw [noneLeft_of_mem (p := p) (by simp [mem_without, hp, hu])]
    rfl
  · rintro ⟨p, hp, hu⟩ r
    simp only [List.mem_cons, List.not_mem_nil, or_false, not_or] at hu
    unfold countSamplesKw
    rw [noneLeft_of_mem (p := p) (by simp [mem_without, hp, hu])]
    rfl
  · rintro ⟨p, hp, hu⟩ r
    simp only [List.mem_cons, not_or] at hu
    unfold runDeadBirthKw
    refine refused_bind_lift fun init _ => refused_bind_lift fun o ho => ?_
    rw [checkOptions_unknown ⟨p, mem_without.mpr ⟨hp, hu.1⟩, hu.2⟩] at ho
    cases ho

/-! ### The order of the options -/

section
variable [CommRing K] [LinearOrder K] {A : Argsort K} {R : Rng σ K}

/-- C90: options are a dictionary, for `process_samples_array`, `process_polychord_run`, `process_multinest_run` and
`combine_ns_runs`. -/
theorem C90_dict_process {F : Type} {CF : Codec F} {CI : Codec Int} {kw kw' : Kwargs} (h : SameOptions kw kw') :
    (∀ samples, processSamplesKw A R samples kw = processSamplesKw A R samples kw') ∧
    (∀ tables texts root dir, processPolychordKw A R CF CI tables texts root dir kw =
      processPolychordKw A R CF CI tables texts root dir kw') ∧
    (∀ files root dir, processMultinestKw A R files root dir kw = processMultinestKw A R files root dir kw') ∧
    (∀ runs, combineRunsKw (σ := σ) A runs kw = combineRunsKw A runs kw') := by
  have h1 : ∀ {kw kw' : Kwargs}, SameOptions kw kw' → ∀ samples, processSamplesKw A R samples kw = processSamplesKw A R samples kw' := by
    intro kw kw' h samples
    unfold processSamplesKw
    dsimp only
    rw [h.get, (h.without _).get, ((h.without _).without _).noneLeft]
  refine ⟨h1 h, ?_, ?_, ?_⟩
  · intro tables texts root dir
    unfold processPolychordKw
    simp only [h.get, (h.without "process_stats_file").any (fun k => k = "file_root" ∨ k = "base_dir"), h1 (h.without "process_stats_file")]
  · intro files root dir
    unfold processMultinestKw
    simp only [h.any (fun k => k = "file_root" ∨ k = "base_dir"), h1 h]
  · intro runs
    unfold combineRunsKw checkOptions
    simp only [h.get, ((h.without _).without _).noneLeft]

end

/-- C90: options are a dictionary, for the functions of error_analysis.py. -/
theorem C90_dict_bootstrap (r : Run ℝ) (settings : Option Settings) (ests : List (EstFunc σ)) {kw kw' : Kwargs}
    (h : SameOptions kw kw') :
    runBootstrapValuesKw A R r settings ests kw = runBootstrapValuesKw A R r settings ests kw' ∧
    runStdBootstrapKw A R r settings ests kw = runStdBootstrapKw A R r settings ests kw' ∧
    runCiBootstrapKw A R r settings ests kw = runCiBootstrapKw A R r settings ests kw' := by
  have h1 : ∀ {kw kw' : Kwargs}, SameOptions kw kw' →
      runBootstrapValuesKw A R r settings ests kw = runBootstrapValuesKw A R r settings ests kw' := by
    intro kw kw' h
    unfold runBootstrapValuesKw
    have h2 := (h.without "ninit_sep").without "flip_skew"
    simp only [h.get, (h.without "ninit_sep").get, h2 "n_simulate", (h2.without "n_simulate").get,
      ((h2.without "n_simulate").without "random_seeds").noneLeft]
  refine ⟨h1 h, ?_, ?_⟩
  · unfold runStdBootstrapKw
    rw [h1 h]
  · unfold runCiBootstrapKw
    simp only [h "cred_int", h1 (h.without "cred_int")]

/-- C90: options are a dictionary, for `parallel_apply`. -/
theorem C90_dict_apply (f : List Val → α → List Val → Kwargs → M σ β) (xs : List α) {kw kw' : Kwargs}
    (h : SameOptions kw kw') (S : Schedule σ xs.length) : parallelApplyKw f xs kw S = parallelApplyKw f xs kw' S := by
  unfold parallelApplyKw
  have h1 := h.without "max_workers"
  have h2 := h1.without "parallel"
  have h3 := h2.without "parallel_warning"
  have h4 := h3.without "func_args"
  have h5 := h4.without "func_pre_args"
  have h6 := (h5.without "func_kwargs").without "tqdm_kwargs"
  simp only [h1.get, h2.get, h3.get, h4.get, h5.get, h6.noneLeft]

/-- C90: options are a dictionary, for `batch_process_data`. -/
theorem C90_dict_batch (proc : Val → Val → String → Kwargs → M σ β) (rootOf : β → Option String)
    (roots : List String) {kw kw' : Kwargs} (h : SameOptions kw kw') (S : Schedule σ roots.length) :
    batchProcessKw proc rootOf roots kw S = batchProcessKw proc rootOf roots kw' S := by
  unfold batchProcessKw
  have h1 := h.without "base_dir"
  have h2 := h1.without "process_func"
  have h3 := h2.without "func_kwargs"
  have h4 := h3.without "errors_to_handle"
  have h5 : ∀ v, SameOptions (("func_kwargs", v) :: ((((Kwargs.without kw "base_dir").without "process_func").without "func_kwargs").without "errors_to_handle"))
      (("func_kwargs", v) :: ((((Kwargs.without kw' "base_dir").without "process_func").without "func_kwargs").without "errors_to_handle")) := by
    intro v k
    rw [List.lookup_cons, List.lookup_cons, h4 k]
  simp only [h.get, h1.get, h2.get, h3.get, h4.any (fun k => decide (k ∈ batchGiven)), C90_dict_apply _ _ (h5 _)]

/-- C90: options are a dictionary, for a function decorated with `save_load_result` and `run_list_error_values`. -/
theorem C90_dict_tables {kw kw' : Kwargs} (h : SameOptions kw kw') :
    (∀ (func : Kwargs → M (Disk V τ) V) (env : CallEnv), (∀ k k', SameOptions k k' → func k = func k') →
      saveLoadKw func kw env = saveLoadKw func kw' env) ∧
    (∀ (D : Distances (List Cell) Cell) (runs : List (Run ℝ)) (ests : List (EstFunc σ)) names S1 S2 S3,
      runListErrorValuesKw A R D runs ests names kw S1 S2 S3 = runListErrorValuesKw A R D runs ests names kw' S1 S2 S3) := by
  constructor
  · intro func env hf
    unfold saveLoadKw cacheOptions cacheRest
    have h5 := ((((h.without "save_name").without "save").without "load").without "overwrite_existing").without "warn_if_error"
    simp only [h.get, h "save", h "load", hf _ _ h5]
  · intro D runs ests names S1 S2 S3
    unfold runListErrorValuesKw
    have h1 := h.without "n_simulate"
    have h2 := h1.without "thread_pvalue"
    have h3 := h2.without "bs_stat_dist"
    have h4 := h3.without "parallel"
    simp only [h.get, h1.get, h2.get, h3.get, h4.noneLeft,
      h.any (fun k => decide (k = "run_list" ∨ k = "estimator_list" ∨ k = "estimator_names"))]

/-! ### What the options mean -/

theorem truthy_get (kw : Kwargs) (k : String) (d : Bool) : (Kwargs.get kw k (.bool d)).truthy = flag kw k d := by
  unfold Kwargs.get flag
  cases kw.lookup k <;> rfl

theorem not_unknown {opts : List String} {kw : Kwargs} (h : ¬ Unknown opts kw) : ∀ p ∈ kw, p.1 ∈ opts := by
  intro p hp
  by_contra hc
  exact h ⟨p, hp, hc⟩

section
variable [CommRing K] [LinearOrder K] {A : Argsort K} {R : Rng σ K}

/-- C90: the options of `process_samples_array`. -/
theorem C90_process (samples : List (Sample K)) {kw : Kwargs} (h : ¬ Unknown checkOpts kw) :
    processSamplesKw A R samples kw = processSamples A R samples (flag kw "dup_assert" false) (flag kw "dup_warn" false) := by
  have h' := not_unknown h
  unfold processSamplesKw
  dsimp only
  rw [noneLeft_of_forall (by
      intro p hp
      simp only [mem_without] at hp
      have := h' p hp.1.1
      simp [checkOpts, hp.1.2, hp.2] at this), get_without _ (by decide), truthy_get, truthy_get]
  rfl

/-- C90: the options of `combine_ns_runs`. -/
theorem C90_combine (runs : List (Run K)) {kw : Kwargs} (h : ¬ Unknown checkOpts kw) (hr : runs ≠ []) :
    combineRunsKw (σ := σ) A runs kw = combineRuns A runs (flag kw "dup_assert" false) (flag kw "dup_warn" false) := by
  have h' := not_unknown h
  unfold combineRunsKw checkOptions
  cases runs with
  | nil => exact absurd rfl hr
  | cons r rs =>
    rw [noneLeft_of_forall (by
      intro p hp
      simp only [mem_without] at hp
      have := h' p hp.1.1
      simp [checkOpts, hp.1.2, hp.2] at this), truthy_get, truthy_get]
    rfl

/-- C90: the options of `process_polychord_run`. -/
theorem C90_polychord {F : Type} {CF : Codec F} {CI : Codec Int} (tables : Tables K) (texts : Texts)
    (fileRoot baseDir : String) {kw : Kwargs} (h : ¬ Unknown polychordOpts kw) :
    processPolychordKw A R CF CI tables texts fileRoot baseDir kw =
      processPolychord A R CF CI tables texts fileRoot baseDir (flag kw "process_stats_file" true)
        (flag kw "dup_assert" false) (flag kw "dup_warn" false) := by
  have h' := not_unknown h
  have hk : ¬ Unknown checkOpts (Kwargs.without kw "process_stats_file") := by
    rintro ⟨p, hp, hu⟩
    rw [mem_without] at hp
    have := h' p hp.1
    simp only [polychordOpts, List.mem_cons, hp.2, false_or] at this
    exact hu (by simpa [checkOpts] using this)
  have hc : (Kwargs.without kw "process_stats_file").any (fun p => p.1 = "file_root" ∨ p.1 = "base_dir") = false := by
    rw [List.any_eq_false]
    intro p hp
    have := not_unknown hk p hp
    simp only [checkOpts, List.mem_cons, List.not_mem_nil, or_false] at this
    rcases this with e | e <;> simp [e]
  have hf : ∀ k d, k ≠ "process_stats_file" → flag (Kwargs.without kw "process_stats_file") k d = flag kw k d := by
    intro k d hkd
    unfold flag
    rw [lookup_without, if_neg hkd]
  unfold processPolychordKw processPolychord
  simp only [C90_process _ hk, truthy_get, hc, hf _ _ (show ("dup_assert" : String) ≠ _ by decide),
    hf _ _ (show ("dup_warn" : String) ≠ _ by decide)]
  rfl

end

/-- C90: the options of `run_bootstrap_values`. -/
theorem C90_bootstrap (r : Run ℝ) (settings : Option Settings) (ests : List (EstFunc σ)) {kw : Kwargs}
    (h : ¬ Unknown bootstrapOpts kw) {n : Nat} (hn : kw.lookup "n_simulate" = some (.nat n)) {seeds : Option (List Seed)}
    (hs : kw.lookup "random_seeds" = seeds.map Val.seeds) :
    runBootstrapValuesKw A R r settings ests kw =
      runBootstrapValues A R r settings ests n (flag kw "ninit_sep" false) (flag kw "flip_skew" true) seeds := by
  have h' := not_unknown h
  unfold runBootstrapValuesKw
  dsimp only
  rw [lookup_without, if_neg (by decide), lookup_without, if_neg (by decide), hn]
  dsimp only
  rw [noneLeft_of_forall (by
      intro p hp
      simp only [mem_without] at hp
      have := h' p hp.1.1.1.1
      simp [bootstrapOpts, hp.1.1.1.2, hp.1.1.2, hp.1.2, hp.2] at this),
    get_without _ (by decide), truthy_get, truthy_get]
  have hg : ((((Kwargs.without kw "ninit_sep").without "flip_skew").without "n_simulate").get "random_seeds" (.seeds ((List.range n).map Seed.num))).toSeeds =
      .ok (seeds.getD ((List.range n).map Seed.num)) := by
    rw [get_without _ (by decide), get_without _ (by decide), get_without _ (by decide)]
    unfold Kwargs.get
    rw [hs]
    cases seeds <;> rfl
  funext w
  unfold runBootstrapValues
  simp only [M.bind_apply, M.lift_apply, Val.toNat, hg, M.assert_apply, Option.getD_some]
  split_ifs <;> rfl

/-- C90: `n_simulate` has to be given, `cred_int` as well for `run_ci_bootstrap`. -/
theorem C90_required (r : Run ℝ) (settings : Option Settings) (ests : List (EstFunc σ)) (kw : Kwargs) (w : World σ) :
    (kw.lookup "n_simulate" = none → runBootstrapValuesKw A R r settings ests kw w = (.error .key, w)) ∧
    (kw.lookup "cred_int" = none → runCiBootstrapKw A R r settings ests kw w = (.error .key, w)) := by
  constructor
  · intro h
    unfold runBootstrapValuesKw
    dsimp only
    rw [lookup_without, if_neg (by decide), lookup_without, if_neg (by decide), h]
    rfl
  · intro h
    unfold runCiBootstrapKw
    rw [h]
    rfl

/-- C90: the options of `run_ci_bootstrap`. -/
theorem C90_ci (r : Run ℝ) (settings : Option Settings) (ests : List (EstFunc σ)) {kw : Kwargs}
    (h : ¬ Unknown ciOpts kw) {n : Nat} (hn : kw.lookup "n_simulate" = some (.nat n)) {seeds : Option (List Seed)}
    (hs : kw.lookup "random_seeds" = seeds.map Val.seeds) {c : ℝ} (hc : kw.lookup "cred_int" = some (.real c)) :
    runCiBootstrapKw A R r settings ests kw =
      runCiBootstrap A R r settings ests c n (flag kw "ninit_sep" false) (flag kw "flip_skew" true) seeds := by
  have h' := not_unknown h
  unfold runCiBootstrapKw
  rw [hc]
  dsimp only
  have hf : ∀ k d, k ≠ "cred_int" → flag (Kwargs.without kw "cred_int") k d = flag kw k d := by
    intro k d hkd
    unfold flag
    rw [lookup_without, if_neg hkd]
  rw [C90_bootstrap (n := n) (seeds := seeds) r settings ests (by
      rintro ⟨p, hp, hu⟩
      rw [mem_without] at hp
      have := h' p hp.1
      simp only [ciOpts, List.mem_cons, hp.2, false_or] at this
      exact hu this) (by rw [lookup_without, if_neg (by decide), hn]) (by rw [lookup_without, if_neg (by decide), hs]),
    hf _ _ (by decide), hf _ _ (by decide)]
  rfl

/-- C90: the options of `summary_df` and `efficiency_gain_df`. -/
theorem C90_summary {kw : Kwargs} {tv : Option (List ℝ)} (ht : kw.lookup "true_values" = tv.map Val.reals) :
    (¬ Unknown summaryOpts kw → ∀ a : Arr2, summaryDfKw a kw =
      summaryDf a tv (flag kw "include_true_values" false) (flag kw "include_rmse" false)) ∧
    (¬ Unknown ("adjust_nsamp" :: summaryOpts) kw → ∀ {nsamp : Option (List ℝ)},
      kw.lookup "adjust_nsamp" = nsamp.map Val.reals → ∀ names values nnames,
      efficiencyGainDfKw names values nnames kw =
        efficiencyGainDf names values nnames tv (flag kw "include_true_values" false) (flag kw "include_rmse" false) nsamp) := by
  have hg : (Kwargs.get kw "true_values" .none).toReals = .ok tv := by
    unfold Kwargs.get
    rw [ht]
    cases tv <;> rfl
  constructor
  · intro h a
    have h' := not_unknown h
    unfold summaryDfKw
    dsimp only
    rw [noneLeft_of_forall (by
        intro p hp
        simp only [mem_without] at hp
        have := h' p hp.1.1.1
        simp [summaryOpts, hp.1.1.2, hp.1.2, hp.2] at this),
      get_without _ (by decide), get_without _ (by decide), get_without _ (by decide), truthy_get, truthy_get, hg]
    rfl
  · intro h nsamp hn names values nnames
    have h' := not_unknown h
    have hg2 : (Kwargs.get kw "adjust_nsamp" .none).toReals = .ok nsamp := by
      unfold Kwargs.get
      rw [hn]
      cases nsamp <;> rfl
    unfold efficiencyGainDfKw
    dsimp only
    rw [noneLeft_of_forall (by
        intro p hp
        simp only [mem_without] at hp
        have := h' p hp.1.1.1.1
        simp [summaryOpts, hp.1.1.1.2, hp.1.1.2, hp.1.2, hp.2] at this),
      get_without _ (by decide), get_without _ (by decide), get_without _ (by decide), get_without _ (by decide),
      get_without _ (by decide), get_without _ (by decide), truthy_get, truthy_get, hg, hg2]
    rfl

/-- C90: the options of `run_list_error_values`; 100 simulations by default. -/
theorem C90_error_values (D : Distances (List Cell) Cell) (runs : List (Run ℝ)) (ests : List (EstFunc σ))
    (names : List String) {kw : Kwargs} (h : ¬ Unknown errorValuesOpts kw) {n : Option Nat}
    (hn : kw.lookup "n_simulate" = n.map Val.nat) (S1 S2 S3 : Schedule σ runs.length) :
    runListErrorValuesKw A R D runs ests names kw S1 S2 S3 =
      runListErrorValues A R D runs ests names (n.getD 100) (flag kw "thread_pvalue" false) (flag kw "bs_stat_dist" false)
        (flag kw "parallel" true) S1 S2 S3 := by
  have h' := not_unknown h
  have hg : (Kwargs.get kw "n_simulate" (.nat 100)).toNat = .ok (n.getD 100) := by
    unfold Kwargs.get
    rw [hn]
    cases n <;> rfl
  have hc : ¬ (kw.any (fun p => p.1 = "run_list" ∨ p.1 = "estimator_list" ∨ p.1 = "estimator_names") = true) := by
    rw [Bool.not_eq_true, List.any_eq_false]
    intro p hp
    have := h' p hp
    simp only [errorValuesOpts, List.mem_cons, List.not_mem_nil, or_false] at this
    rcases this with e | e | e | e <;> simp [e]
  unfold runListErrorValuesKw
  dsimp only
  rw [if_neg hc, noneLeft_of_forall (by
      intro p hp
      simp only [mem_without] at hp
      have := h' p hp.1.1.1.1
      simp [errorValuesOpts, hp.1.1.1.2, hp.1.1.2, hp.1.2, hp.2] at this),
    get_without _ (by decide), get_without _ (by decide), get_without _ (by decide), get_without _ (by decide),
    get_without _ (by decide), get_without _ (by decide), truthy_get, truthy_get, truthy_get, hg]
  rfl

/-- C90: None, False, 0, 0.0, empty strings and empty sequences count as False, everything else as True. -/
theorem C90_truth (kw : Kwargs) (k : String) (d : Bool) :
    (kw.lookup k = none → flag kw k d = d) ∧ (kw.lookup k = some .none → flag kw k d = false) ∧
    (∀ b, kw.lookup k = some (.bool b) → flag kw k d = b) ∧
    (∀ n : Nat, kw.lookup k = some (.nat n) → (flag kw k d = true ↔ 0 < n)) ∧
    (∀ x : ℝ, kw.lookup k = some (.real x) → (flag kw k d = true ↔ x ≠ 0)) ∧
    (∀ l, kw.lookup k = some (.str l) → (flag kw k d = true ↔ l ≠ [])) ∧
    (∀ l, kw.lookup k = some (.names l) → (flag kw k d = true ↔ l ≠ [])) ∧
    (∀ l, kw.lookup k = some (.tuple l) → (flag kw k d = true ↔ l ≠ [])) ∧
    (∀ l, kw.lookup k = some (.dict l) → (flag kw k d = true ↔ l ≠ [])) := by
  unfold flag
  refine ⟨?_, ?_, ?_, ?_, ?_, ?_, ?_, ?_, ?_⟩
  · intro h; rw [h]; rfl
  · intro h; rw [h]; rfl
  · intro b h; rw [h]; rfl
  · intro n h; rw [h]; simp [Val.truthy, Nat.pos_iff_ne_zero]
  · intro x h; rw [h]; simp [Val.truthy]
  · intro l h; rw [h]; simp [Val.truthy]
  · intro l h; rw [h]; simp [Val.truthy]
  · intro l h; rw [h]; simp [Val.truthy]
  · intro l h; rw [h]; simp [Val.truthy]

/-- C90: the options of `estimator_values_df` (columns named est_0, est_1, ... by default), `implementation_std` (a million
simulations with seed 0 by default), `run_dead_birth_array` (-1e30 for thread starts in the whole prior by default) and
`count_samples` (accepted but not used). -/
theorem C90_others {kw : Kwargs} :
    (¬ Unknown ["estimator_names", "parallel"] kw → ∀ {names : Option (List String)},
      kw.lookup "estimator_names" = names.map Val.names →
      ∀ (runs : List (Run ℝ)) (ests : List (EstFunc σ)) (S : Schedule σ runs.length),
        estimatorValuesDfKw R runs ests kw S = (do
          let ns := names.getD ((List.range ests.length).map (fun i => "est_" ++ toString i))
          let a ← estimatorValuesDf R runs ests ns (flag kw "parallel" true) S
          pure (ns, a))) ∧
    (¬ Unknown ["nsim", "random_seed"] kw → ∀ {n seed : Option Nat}, kw.lookup "nsim" = n.map Val.nat →
      kw.lookup "random_seed" = seed.map Val.nat → ∀ (N : NormalRng σ) rows,
        implementationStdKw R N rows kw = implementationStd R N (n.getD 1000000) (.num (seed.getD 0)) rows) ∧
    (¬ Unknown ("logl_init" :: checkOpts) kw → ∀ {x : Option ℝ}, kw.lookup "logl_init" = x.map Val.real → ∀ r,
      runDeadBirthKw (σ := σ) A r kw =
        runDeadBirth A r (x.getD (-10 ^ 30)) (flag kw "dup_assert" false) (flag kw "dup_warn" false)) ∧
    (¬ Unknown ["logw", "simulate"] kw → ∀ r, countSamplesKw r kw = .ok (countSamples r)) := by
  refine ⟨?_, ?_, ?_, ?_⟩
  · intro h names hn runs ests S
    have h' := not_unknown h
    have hg : (Kwargs.get kw "estimator_names" (.names ((List.range ests.length).map (fun i => "est_" ++ toString i)))).toNames =
        .ok (names.getD ((List.range ests.length).map (fun i => "est_" ++ toString i))) := by
      unfold Kwargs.get
      rw [hn]
      cases names <;> rfl
    unfold estimatorValuesDfKw
    dsimp only
    rw [noneLeft_of_forall (by
        intro p hp
        simp only [mem_without] at hp
        have := h' p hp.1.1
        simp [hp.1.2, hp.2] at this), get_without _ (by decide), truthy_get, hg]
    rfl
  · intro h n seed hn hs N rows
    have h' := not_unknown h
    have hg : (Kwargs.get kw "nsim" (.nat 1000000)).toNat = .ok (n.getD 1000000) := by
      unfold Kwargs.get
      rw [hn]
      cases n <;> rfl
    have hg2 : (Kwargs.get kw "random_seed" (.nat 0)).toNat = .ok (seed.getD 0) := by
      unfold Kwargs.get
      rw [hs]
      cases seed <;> rfl
    unfold implementationStdKw
    dsimp only
    rw [noneLeft_of_forall (by
        intro p hp
        simp only [mem_without] at hp
        have := h' p hp.1.1
        simp [hp.1.2, hp.2] at this), get_without _ (by decide), hg, hg2]
    rfl
  · intro h x hx r
    have h' := not_unknown h
    have hg : (Kwargs.get kw "logl_init" (.real (-(10 ^ 30)))).toReal = .ok (x.getD (-10 ^ 30)) := by
      unfold Kwargs.get
      rw [hx]
      cases x <;> rfl
    unfold runDeadBirthKw checkOptions
    rw [noneLeft_of_forall (by
        intro p hp
        simp only [mem_without] at hp
        have := h' p hp.1.1.1
        simp [checkOpts, hp.1.1.2, hp.1.2, hp.2] at this), get_without _ (by decide), get_without _ (by decide), truthy_get,
      truthy_get, hg]
    rfl
  · intro h r
    have h' := not_unknown h
    unfold countSamplesKw
    rw [noneLeft_of_forall (by
        intro p hp
        simp only [mem_without] at hp
        have := h' p hp.1.1
        simp [hp.1.2, hp.2] at this)]
    rfl

/-- C90: the options of `get_dummy_run`: by default no seeding, two dimensions, starting from the whole prior, a range of one. -/
theorem C90_dummy {kw : Kwargs} (h : ¬ Unknown ["seed", "ndim", "logl_start", "logl_range"] kw) {seed ndim : Option Nat}
    {start range : Option ℝ} (h1 : kw.lookup "seed" = seed.map Val.nat) (h2 : kw.lookup "ndim" = ndim.map Val.nat)
    (h3 : kw.lookup "logl_start" = start.map Val.real) (h4 : kw.lookup "logl_range" = range.map Val.real)
    (nthread nsamples : Nat) :
    getDummyRunKw A R nthread nsamples kw =
      getDummyRun A R nthread nsamples (ndim.getD 2) seed ((start.map (fun x : ℝ => (x : WithBot ℝ))).getD ⊥) (range.getD 1) := by
  have h' := not_unknown h
  have g1 : (Kwargs.get kw "seed" (.bool false)).toOptSeed = .ok seed := by
    unfold Kwargs.get
    rw [h1]
    cases seed <;> rfl
  have g2 : (Kwargs.get kw "ndim" (.nat 2)).toNat = .ok (ndim.getD 2) := by
    unfold Kwargs.get
    rw [h2]
    cases ndim <;> rfl
  have g3 : (Kwargs.get kw "logl_start" .negInf).toStart = .ok ((start.map (fun x : ℝ => (x : WithBot ℝ))).getD ⊥) := by
    unfold Kwargs.get
    rw [h3]
    cases start <;> rfl
  have g4 : (Kwargs.get kw "logl_range" (.nat 1)).toReal = .ok (range.getD 1) := by
    unfold Kwargs.get
    rw [h4]
    cases range with
    | none => exact congrArg Except.ok (Nat.cast_one (R := ℝ))
    | some x => rfl
  unfold getDummyRunKw
  dsimp only
  rw [noneLeft_of_forall (by
      intro p hp
      simp only [mem_without] at hp
      have := h' p hp.1.1.1.1
      simp [hp.1.1.1.2, hp.1.1.2, hp.1.2, hp.2] at this), get_without _ (by decide), get_without _ (by decide),
    get_without _ (by decide), get_without _ (by decide), get_without _ (by decide), get_without _ (by decide), g1, g2, g3, g4]
  rfl

/-! ### `batch_process_data` and the options of its process function -/

theorem setKey_lookup (kw : Kwargs) (k : String) (v : Val) (j : String) :
    (setKey kw k v).lookup j = if j = k then some v else kw.lookup j := by
  have hmap : ∀ l : Kwargs, (l.map (fun p => if p.1 = k then (k, v) else p)).lookup j =
      if j = k then (l.lookup k).map (fun _ => v) else l.lookup j := by
    intro l
    induction l with
    | nil => simp
    | cons p l ih =>
      obtain ⟨a, u⟩ := p
      rw [List.map_cons]
      by_cases ha : a = k
      · subst ha
        rw [if_pos rfl, List.lookup_cons, ih]
        by_cases hj : j = a
        · subst hj; simp
        · have : (j == a) = false := by simpa using hj
          simp [List.lookup_cons, this, hj]
      · rw [if_neg ha, List.lookup_cons, ih]
        by_cases hj : j = a
        · subst hj; simp [ha]
        · have h1 : (j == a) = false := by simpa using hj
          have h2 : (k == a) = false := by simpa using Ne.symm ha
          simp [List.lookup_cons, h1, h2]
  unfold setKey
  split_ifs with h hj hj
  · rw [hmap, if_pos hj]
    have : (kw.lookup k).isSome := by
      rw [lookup_isSome]
      simpa using h
    obtain ⟨u, hu⟩ := Option.isSome_iff_exists.mp this
    rw [hu]
    rfl
  · rw [hmap, if_neg hj]
  · subst hj
    have : kw.lookup j = none := by
      rw [← Option.not_isSome_iff_eq_none, lookup_isSome]
      simpa using h
    rw [List.lookup_append, this]
    simp
  · have : (j == k) = false := by simpa using hj
    rw [List.lookup_append, List.lookup_cons, this]
    simp

theorem setKey_keys (kw : Kwargs) (k : String) (v : Val) (j : String) :
    (∃ p ∈ setKey kw k v, p.1 = j) ↔ j = k ∨ ∃ p ∈ kw, p.1 = j := by
  rw [← lookup_isSome, ← lookup_isSome, setKey_lookup]
  split_ifs with h <;> simp [h]

theorem setKey_without (kw : Kwargs) (k : String) (v : Val) :
    Kwargs.without (setKey kw k v) k = Kwargs.without kw k := by
  unfold setKey
  split_ifs with h
  · unfold Kwargs.without
    clear h
    induction kw with
    | nil => rfl
    | cons p kw ih =>
      rw [List.map_cons]
      by_cases hp : p.1 = k
      · rw [if_pos hp, List.filter_cons_of_neg (by simp), List.filter_cons_of_neg (by simp [hp]), ih]
      · rw [if_neg hp, List.filter_cons_of_pos (by simp [hp]), List.filter_cons_of_pos (by simp [hp]), ih]
  · unfold Kwargs.without
    rw [List.filter_append]
    simp

/-- C90: the options of `parallel_apply`. -/
theorem C90_apply (f : List Val → α → List Val → Kwargs → M σ β) (xs : List α) {kw : Kwargs}
    (h : ¬ Unknown applyOpts kw) {args pre : Option (List Val)} {func : Option Kwargs}
    (ha : kw.lookup "func_args" = args.map Val.tuple) (hp : kw.lookup "func_pre_args" = pre.map Val.tuple)
    (hf : kw.lookup "func_kwargs" = func.map Val.dict) (S : Schedule σ xs.length) :
    parallelApplyKw f xs kw S =
      parallelApply (fun x => f (pre.getD []) x (args.getD []) (func.getD [])) xs (flag kw "parallel" true)
        (flag kw "parallel_warning" true) S := by
  have h' := not_unknown h
  unfold parallelApplyKw
  funext w
  rw [noneLeft_of_forall (by
    intro p hp
    simp only [mem_without] at hp
    have := h' p hp.1.1.1.1.1.1.1
    simp [applyOpts, hp.1.1.1.1.1.1.2, hp.1.1.1.1.1.2, hp.1.1.1.1.2, hp.1.1.1.2, hp.1.1.2, hp.1.2, hp.2] at this),
    M.bind_ok (M.lift_apply _ _)]
  have e1 : Kwargs.get (Kwargs.without (Kwargs.without (Kwargs.without kw "max_workers") "parallel") "parallel_warning")
      "func_args" (.tuple []) = .tuple (args.getD []) := by
    rw [get_without _ (by decide), get_without _ (by decide), get_without _ (by decide)]
    unfold Kwargs.get
    rw [ha]
    cases args <;> rfl
  have e2 : Kwargs.get (Kwargs.without (Kwargs.without (Kwargs.without (Kwargs.without kw "max_workers") "parallel")
      "parallel_warning") "func_args") "func_pre_args" (.tuple []) = .tuple (pre.getD []) := by
    rw [get_without _ (by decide), get_without _ (by decide), get_without _ (by decide), get_without _ (by decide)]
    unfold Kwargs.get
    rw [hp]
    cases pre <;> rfl
  have e3 : Kwargs.get (Kwargs.without (Kwargs.without (Kwargs.without (Kwargs.without (Kwargs.without kw "max_workers")
      "parallel") "parallel_warning") "func_args") "func_pre_args") "func_kwargs" (.dict []) = .dict (func.getD []) := by
    rw [get_without _ (by decide), get_without _ (by decide), get_without _ (by decide), get_without _ (by decide),
      get_without _ (by decide)]
    unfold Kwargs.get
    rw [hf]
    cases func <;> rfl
  rw [e1, e2, e3, get_without _ (by decide), get_without _ (by decide), get_without _ (by decide), truthy_get, truthy_get]
  rfl

/-- C90: the options of `batch_process_data`.  The process function gets `func_kwargs` without `errors_to_handle`. -/
theorem C90_batch (proc : Val → Val → String → Kwargs → M σ β) (rootOf : β → Option String) (roots : List String)
    {kw : Kwargs} (h : ¬ Unknown batchOpts kw) {func : Option Kwargs} (hf : kw.lookup "func_kwargs" = func.map Val.dict)
    (hfn : ∀ p ∈ func.getD [], p.1 ∉ ["root", "base_dir", "process_func"])
    {errs : Option (List PyErr)} (he : kw.lookup "errors_to_handle" = errs.map Val.errors)
    (hpre : kw.lookup "func_pre_args" = none) (S : Schedule σ roots.length) :
    batchProcessKw proc rootOf roots kw S =
      batchProcess (fun root => proc (kw.get "process_func" (.func "process_polychord_run"))
          (kw.get "base_dir" (.str "chains".toList)) root (Kwargs.without (func.getD []) "errors_to_handle")) rootOf
        (fun e => e ∈ errs.getD []) roots (flag kw "parallel" true) (flag kw "parallel_warning" true) S := by
  have h' := not_unknown h
  have hg : (Kwargs.get ((Kwargs.without kw "base_dir").without "process_func") "func_kwargs" (.dict [])).toDict =
      .ok (func.getD []) := by
    rw [get_without _ (by decide), get_without _ (by decide)]
    unfold Kwargs.get
    rw [hf]
    cases func <;> rfl
  have hge : Kwargs.get (((Kwargs.without kw "base_dir").without "process_func").without "func_kwargs") "errors_to_handle"
      (.errors []) = .errors (errs.getD []) := by
    rw [get_without _ (by decide), get_without _ (by decide), get_without _ (by decide)]
    unfold Kwargs.get
    rw [he]
    cases errs <;> rfl
  set rest := (((Kwargs.without kw "base_dir").without "process_func").without "func_kwargs").without "errors_to_handle" with hrest
  have hlook : ∀ k, k ∉ ["base_dir", "process_func", "func_kwargs", "errors_to_handle"] → rest.lookup k = kw.lookup k := by
    intro k hk
    simp only [List.mem_cons, List.not_mem_nil, or_false, not_or] at hk
    rw [hrest, lookup_without, if_neg hk.2.2.2, lookup_without, if_neg hk.2.2.1, lookup_without, if_neg hk.2.1, lookup_without,
      if_neg hk.1]
  have hmem : ∀ p ∈ rest, p.1 ∈ ["max_workers", "parallel", "parallel_warning", "func_pre_args", "tqdm_kwargs"] := by
    intro p hp
    rw [hrest] at hp
    simp only [mem_without] at hp
    have := h' p hp.1.1.1.1
    simpa [batchOpts, hp.1.1.1.2, hp.1.1.2, hp.1.2, hp.2] using this
  have hgiven : rest.any (fun p => p.1 ∈ batchGiven) = false := by
    rw [List.any_eq_false]
    intro p hp
    have := hmem p hp
    simp only [List.mem_cons, List.not_mem_nil, or_false] at this
    rcases this with e | e | e | e | e <;> simp [e, batchGiven]
  have hlk : ∀ k, k ≠ "func_kwargs" → (("func_kwargs", Val.dict (setKey (func.getD []) "errors_to_handle"
      (.errors (errs.getD [])))) :: rest).lookup k = rest.lookup k := by
    intro k hk
    have : (k == "func_kwargs") = false := by simpa using hk
    rw [List.lookup_cons, this]
  have hrun := fun f : List Val → String → List Val → Kwargs → M σ (Item β) => C90_apply f roots
    (kw := ("func_kwargs", Val.dict (setKey (func.getD []) "errors_to_handle" (.errors (errs.getD [])))) :: rest) (by
      rintro ⟨p, hp, hu⟩
      rcases List.mem_cons.mp hp with rfl | hp
      · exact hu (show "func_kwargs" ∈ applyOpts by decide)
      · have := hmem p hp
        apply hu
        simp only [List.mem_cons, List.not_mem_nil, or_false] at this
        rcases this with e | e | e | e | e <;> rw [e] <;> decide)
    (args := none) (pre := none) (func := some (setKey (func.getD []) "errors_to_handle" (.errors (errs.getD []))))
    (by
      rw [hlk _ (by decide), hrest]
      simp only [lookup_without, if_neg (show ¬ "func_args" = "errors_to_handle" by decide),
        if_neg (show ¬ "func_args" = "func_kwargs" by decide), if_neg (show ¬ "func_args" = "process_func" by decide),
        if_neg (show ¬ "func_args" = "base_dir" by decide)]
      rw [Option.map_none, ← Option.not_isSome_iff_eq_none, lookup_isSome]
      rintro ⟨p, hp, e⟩
      have := h' p hp
      rw [e] at this
      revert this
      decide)
    (by rw [hlk _ (by decide), hlook _ (by decide), hpre]; rfl) (by simp) S
  have hfl : ∀ k d, k ≠ "func_kwargs" → k ∉ ["base_dir", "process_func", "func_kwargs", "errors_to_handle"] →
      flag (("func_kwargs", Val.dict (setKey (func.getD []) "errors_to_handle" (.errors (errs.getD [])))) :: rest) k d =
        flag kw k d := by
    intro k d h1 h2
    unfold flag
    rw [hlk _ h1, hlook _ h2]
  have hhelp : ∀ root, processErrorHelperKw (proc (kw.get "process_func" (.func "process_polychord_run"))
        (kw.get "base_dir" (.str "chains".toList))) root
        (setKey (func.getD []) "errors_to_handle" (.errors (errs.getD []))) =
      processErrorHelper (fun root => proc (kw.get "process_func" (.func "process_polychord_run"))
          (kw.get "base_dir" (.str "chains".toList)) root (Kwargs.without (func.getD []) "errors_to_handle"))
        (fun e => e ∈ errs.getD []) root := by
    intro root
    unfold processErrorHelperKw
    rw [if_neg]
    · have : Kwargs.get (setKey (func.getD []) "errors_to_handle" (.errors (errs.getD []))) "errors_to_handle" (.errors []) =
          .errors (errs.getD []) := by
        unfold Kwargs.get
        rw [setKey_lookup, if_pos rfl]
        rfl
      rw [this, setKey_without]
    · simp only [List.any_eq_true, decide_eq_true_eq]
      rintro ⟨p, hp, e⟩
      have : p.1 ∈ ["root", "base_dir", "process_func"] := by simpa using e
      rcases (setKey_keys _ _ _ _).mp ⟨p, hp, rfl⟩ with e' | ⟨q, hq, e'⟩
      · rw [e'] at this
        revert this
        decide
      · exact hfn q hq (by rw [e']; exact this)
  unfold batchProcessKw batchProcess
  simp only [hg, hge, ← hrest, hgiven, get_without _ (show "process_func" ≠ "base_dir" by decide), hrun,
    hfl "parallel" true (by decide) (by decide), hfl "parallel_warning" true (by decide) (by decide)]
  funext w
  rw [M.bind_ok (M.lift_apply _ _)]
  simp only [Bool.false_eq_true, if_false, hrun, hfl "parallel" true (by decide) (by decide),
    hfl "parallel_warning" true (by decide) (by decide), Option.getD_none, List.isEmpty_nil, if_true, Option.getD_some,
    hhelp]

/-- Values made by the tasks. -/
theorem parallelApply_forall {f : α → M σ β} {xs : List α} {P : β → Prop} (hP : ∀ x w y w', f x w = (.ok y, w') → P y)
    {parallel warn : Bool} {S : Schedule σ xs.length} {w w' : World σ} {ys : List β}
    (h : parallelApply f xs parallel warn S w = (.ok ys, w')) : ys.length = xs.length ∧ ∀ y ∈ ys, P y := by
  have hseq : ∀ (xs : List α) (w w' : World σ) (ys : List β), mapSeq f xs w = (.ok ys, w') →
      ys.length = xs.length ∧ ∀ y ∈ ys, P y := by
    intro xs
    induction xs with
    | nil =>
      intro w w' ys h
      cases h
      simp
    | cons x xs ih =>
      intro w w' ys h
      unfold mapSeq at h
      obtain ⟨y, w1, h1, h⟩ := M.bind_eq_ok.mp h
      obtain ⟨zs, w2, h2, h⟩ := M.bind_eq_ok.mp h
      cases h
      obtain ⟨hl, hz⟩ := ih _ _ _ h2
      refine ⟨by simp [hl], ?_⟩
      intro z hz'
      rcases List.mem_cons.mp hz' with rfl | hz'
      · exact hP _ _ _ _ h1
      · exact hz z hz'
  have htask : ∀ (r : Py β) (worlds : Nat → World σ) (xs : List α) (k : Nat), r ∈ taskResults f worlds k xs →
      ∀ y, r = .ok y → P y := by
    intro r worlds xs
    induction xs with
    | nil => intro k h; cases h
    | cons x xs ih =>
      intro k h y hy
      rcases List.mem_cons.mp h with rfl | h
      · exact hP x (worlds k) y (f x (worlds k)).2 (by rw [← hy])
      · exact ih _ h y hy
  unfold parallelApply at h
  cases parallel with
  | false =>
    simp only [Bool.false_eq_true, if_false] at h
    obtain ⟨_, w1, -, h⟩ := M.bind_eq_ok.mp h
    exact hseq _ _ _ _ h
  | true =>
    simp only [if_true, M.lift_apply, Prod.mk.injEq] at h
    obtain ⟨h, -⟩ := h
    have hcol : ∀ (is : List Nat) (ys : List β), collect (taskResults f S.worlds 0 xs) is = .ok ys →
        ys.length = is.length ∧ ∀ y ∈ ys, P y := by
      intro is
      induction is with
      | nil => intro ys h; cases h; simp
      | cons i is ih =>
        intro ys h
        unfold collect at h
        split at h
        · cases h
        · cases h
        · rename_i y hy
          split at h
          · cases h
          · rename_i zs hz
            cases h
            obtain ⟨hl, hz'⟩ := ih _ hz
            refine ⟨by simp [hl], ?_⟩
            intro z hzm
            rcases List.mem_cons.mp hzm with rfl | hzm
            · exact htask _ _ _ _ (List.mem_of_getElem? hy) _ rfl
            · exact hz' z hzm
    obtain ⟨hl, hy⟩ := hcol _ _ h
    refine ⟨?_, hy⟩
    rw [hl, S.complete.length_eq, List.length_range]

/-- C90: an option in `func_kwargs` which the process function refuses.  No run is returned; if there are files at all,
there is an exception or a report. -/
theorem batch_refused {f : String → M σ β} (hf : ∀ root, Refused (f root)) (rootOf : β → Option String)
    (handled : PyErr → Bool) (roots : List String) (parallel warn : Bool) (S : Schedule σ roots.length) {w w' : World σ}
    {report : List (PyErr × List Nat)} {runs : List β}
    (h : batchProcess f rootOf handled roots parallel warn S w = (.ok (report, runs), w')) :
    runs = [] ∧ (roots ≠ [] → report ≠ []) := by
  unfold batchProcess at h
  obtain ⟨data, w1, h1, h⟩ := M.bind_eq_ok.mp h
  obtain ⟨ks, w2, h2, h⟩ := M.bind_eq_ok.mp h
  obtain ⟨hlen, hall⟩ := parallelApply_forall (P := fun y => ∃ root e, y = Item.failed root e) (by
    intro root w y w' hy
    obtain ⟨e, he⟩ := hf root w
    unfold processErrorHelper M.tryExcept at hy
    rw [M.bind_error he] at hy
    dsimp only at hy
    split at hy
    · cases hy
      exact ⟨_, _, rfl⟩
    · cases hy) h1
  have hk : ∀ (data : List (Item β)) (ks : List (Nat × Item β)), keyed roots rootOf data = .ok ks → ks.map Prod.snd = data := by
    intro data
    induction data with
    | nil => intro ks h; cases h; rfl
    | cons x xs ih =>
      intro ks h
      unfold keyed at h
      split at h
      · cases h
      · split at h
        · cases h
        · rename_i ys hy
          cases h
          rw [List.map_cons, ih _ hy]
  have hks := hk _ _ (by simpa using congrArg Prod.fst h2)
  have hperm : (sortItems ks).Perm data := by
    rw [← hks]
    exact (List.perm_insertionSort _ ks).map Prod.snd
  have hsf : ∀ y ∈ sortItems ks, ∃ root e, y = Item.failed root e := fun y hy => hall y (hperm.mem_iff.mp hy)
  cases h
  constructor
  · have hgood : ∀ l : List (Item β), (∀ y ∈ l, ∃ root e, y = Item.failed root e) → goodRuns l = [] := by
      intro l
      induction l with
      | nil => intro _; rfl
      | cons y l ih =>
        intro hl
        obtain ⟨root, e, rfl⟩ := hl y List.mem_cons_self
        exact ih fun z hz => hl z (List.mem_cons_of_mem _ hz)
    exact hgood _ hsf
  · intro hr
    have hadd : ∀ (e : PyErr) (i : Nat) (d : List (PyErr × List Nat)), addError e i d ≠ [] := by
      intro e i d
      cases d with
      | nil => simp [addError]
      | cons p d =>
        unfold addError
        split_ifs <;> simp
    have hrep : ∀ (l : List (Item β)) (i : Nat) (d : List (PyErr × List Nat)), d ≠ [] → errorReport i l d ≠ [] := by
      intro l
      induction l with
      | nil => intro i d hd; exact hd
      | cons y l ih =>
        intro i d hd
        cases y with
        | done r => exact ih _ _ hd
        | failed root e => exact ih _ _ (hadd _ _ _)
    cases hs : sortItems ks with
    | nil =>
      have := hperm.length_eq
      rw [hs, hlen] at this
      exact absurd (List.length_eq_zero_iff.mp this.symm) hr
    | cons y l =>
      obtain ⟨root, e, rfl⟩ := hsf y (by rw [hs]; exact List.mem_cons_self)
      exact hrep l _ _ (hadd _ _ _)

/-- C90: an option in `func_kwargs` which the process function does not know. -/
theorem C90_func_unknown {opts : List String} {proc : Val → Val → String → Kwargs → M σ β}
    (hproc : ∀ name dir root k, Unknown opts k → Refused (proc name dir root k)) (rootOf : β → Option String)
    (roots : List String) {kw func : Kwargs} (h : ¬ Unknown batchOpts kw)
    (hf : kw.lookup "func_kwargs" = some (.dict func))
    (hfn : ∀ p ∈ func, p.1 ∉ ["root", "base_dir", "process_func"]) (hu : Unknown ("errors_to_handle" :: opts) func)
    {errs : Option (List PyErr)} (he : kw.lookup "errors_to_handle" = errs.map Val.errors)
    (hpre : kw.lookup "func_pre_args" = none) (S : Schedule σ roots.length) {w w' : World σ}
    {report : List (PyErr × List Nat)} {runs : List β}
    (hr : batchProcessKw proc rootOf roots kw S w = (.ok (report, runs), w')) :
    runs = [] ∧ (roots ≠ [] → report ≠ []) := by
  rw [C90_batch proc rootOf roots h (func := some func) hf hfn he hpre] at hr
  refine batch_refused (fun root => hproc _ _ _ _ ?_) rootOf _ roots _ _ S hr
  obtain ⟨p, hp, hu⟩ := hu
  rw [List.mem_cons, not_or] at hu
  exact ⟨p, mem_without.mpr ⟨hp, hu.1⟩, hu.2⟩

/-- C90: without files the options in `func_kwargs` are not looked at. -/
theorem C90_no_files (proc : Val → Val → String → Kwargs → M σ β) (rootOf : β → Option String) {kw : Kwargs}
    (h : ¬ Unknown batchOpts kw) {func : Option Kwargs} (hf : kw.lookup "func_kwargs" = func.map Val.dict)
    (hfn : ∀ p ∈ func.getD [], p.1 ∉ ["root", "base_dir", "process_func"])
    {errs : Option (List PyErr)} (he : kw.lookup "errors_to_handle" = errs.map Val.errors)
    (hpre : kw.lookup "func_pre_args" = none) (S : Schedule σ ([] : List String).length) (w : World σ) :
    (batchProcessKw proc rootOf [] kw S w).1 = .ok ([], []) := by
  rw [C90_batch proc rootOf [] h hf hfn he hpre]
  have hrun : ∃ w', parallelApply (processErrorHelper (fun root => proc (kw.get "process_func" (.func "process_polychord_run"))
      (kw.get "base_dir" (.str "chains".toList)) root (Kwargs.without (func.getD []) "errors_to_handle"))
        (fun e => e ∈ errs.getD [])) [] (flag kw "parallel" true) (flag kw "parallel_warning" true) S w = (.ok [], w') := by
    unfold parallelApply
    cases flag kw "parallel" true with
    | false =>
      simp only [Bool.false_eq_true, if_false]
      cases flag kw "parallel_warning" true <;> exact ⟨_, rfl⟩
    | true =>
      have : S.order = [] := List.length_eq_zero_iff.mp (by rw [S.complete.length_eq]; rfl)
      simp only [if_true, this]
      exact ⟨_, rfl⟩
  obtain ⟨w', hw⟩ := hrun
  unfold batchProcess
  rw [M.bind_ok hw]
  rfl

/-- C90: `batch_process_data` leaves `errors_to_handle` in the dictionary it was given, which a process function then does
not accept. -/
theorem C90_func_kwargs_after {opts : List String} (ho : "errors_to_handle" ∉ opts) {proc : Kwargs → M σ β}
    (hproc : ∀ k, Unknown opts k → Refused (proc k)) {kw func : Kwargs}
    (hf : kw.lookup "func_kwargs" = some (.dict func)) :
    ∃ after, funcKwargsAfter kw = some after ∧
      after.lookup "errors_to_handle" = some (kw.get "errors_to_handle" (.errors [])) ∧
      (∀ k, k ≠ "errors_to_handle" → after.lookup k = func.lookup k) ∧ Refused (proc after) := by
  refine ⟨setKey func "errors_to_handle" (kw.get "errors_to_handle" (.errors [])), ?_, ?_, ?_, ?_⟩
  · unfold funcKwargsAfter
    rw [hf]
  · rw [setKey_lookup, if_pos rfl]
  · intro k hk
    rw [setKey_lookup, if_neg hk]
  · obtain ⟨p, hp, e⟩ := (setKey_keys func "errors_to_handle" (kw.get "errors_to_handle" (.errors [])) _).mpr (.inl rfl)
    exact hproc _ ⟨p, hp, by rw [e]; exact ho⟩

/-- `process_polychord_run` is such a process function. -/
theorem refused_polychord [CommRing K] [LinearOrder K] {A : Argsort K} {R : Rng σ K} {F : Type} {CF : Codec F}
    {CI : Codec Int} (tables : Tables K) (texts : Texts) (fileRoot baseDir : String) (kw : Kwargs)
    (h : Unknown polychordOpts kw) : Refused (processPolychordKw A R CF CI tables texts fileRoot baseDir kw) := by
  intro w
  rcases C90_unknown_polychord (A := A) (R := R) (CF := CF) (CI := CI) tables texts fileRoot baseDir h w with h | ⟨e, -, h⟩
  · exact ⟨_, h⟩
  · exact ⟨_, h⟩

/-! ### Cached results -/

/-- C90: if the result is loaded, options are not looked at. -/
theorem C90_cached (func : Kwargs → M (Disk V τ) V) {kw : Kwargs} {env : CallEnv} {w : World (Disk V τ)} {name : Path}
    {v : V} (hn : kw.lookup "save_name" = some (.str name)) (hl : flag kw "load" true = true)
    (hr : env.unreadable = false) (hv : w.rng.files (name ++ ".pkl".toList) = some (.saved v)) :
    saveLoadKw func kw env w = (.ok v, w) := by
  have ho : cacheOptions kw = .ok { saveName := some name, save := (kw.lookup "save").map Val.truthy, load := (kw.lookup "load").map Val.truthy, overwrite := (kw.get "overwrite_existing" (.bool true)).truthy, warnIfError := (kw.get "warn_if_error" (.bool false)).truthy } := by
    unfold cacheOptions Kwargs.get
    rw [hn]
    rfl
  have hl' : ((kw.lookup "load").map Val.truthy).getD true = true := by
    unfold flag at hl
    cases h : kw.lookup "load" with
    | none => rfl
    | some v => rw [h] at hl; exact hl
  unfold saveLoadKw
  rw [ho, M.bind_ok (M.lift_apply _ _)]
  exact saveLoad_loaded ((tryLoad_some name env _ rfl hl' w).1 v hr hv)

/-- C90: otherwise an option which neither the cache nor the function knows is noticed. -/
theorem C90_uncached {opts : List String} {func : Kwargs → M (Disk V τ) V}
    (hf : ∀ k, Unknown opts k → Refused (func k)) {kw : Kwargs} (h : Unknown (cacheOpts ++ opts) kw) {env : CallEnv}
    {w w' : World (Disk V τ)} {v : V} (hv : saveLoadKw func kw env w = (.ok v, w')) :
    ∃ name, kw.lookup "save_name" = some (.str name) ∧ flag kw "load" true = true ∧ env.unreadable = false ∧
      w.rng.files (name ++ ".pkl".toList) = some (.saved v) ∧ w' = w := by
  obtain ⟨p, hp, hu⟩ := h
  simp only [List.mem_append, not_or] at hu
  have hrest : Unknown opts (cacheRest kw) := by
    refine ⟨p, ?_, hu.2⟩
    have := hu.1
    simp only [cacheOpts, List.mem_cons, List.not_mem_nil, or_false, not_or] at this
    unfold cacheRest
    simp [mem_without, hp, this]
  unfold saveLoadKw at hv
  obtain ⟨o, w1, h1, hv⟩ := M.bind_eq_ok.mp hv
  cases ho : cacheOptions kw with
  | error e => rw [ho] at h1; cases h1
  | ok o' =>
    rw [ho] at h1
    cases h1
    unfold saveLoad at hv
    obtain ⟨l, w2, h2, hv⟩ := M.bind_eq_ok.mp hv
    cases l with
    | none =>
      obtain ⟨x, w3, h3, -⟩ := M.bind_eq_ok.mp hv
      obtain ⟨e, he⟩ := hf _ hrest w2
      rw [he] at h3
      cases h3
    | some u =>
      cases hv
      have hsn : o.saveName.isSome → ∃ name, kw.lookup "save_name" = some (.str name) ∧ o.saveName = some name := by
        unfold cacheOptions Kwargs.get at ho
        intro hs
        cases hk : kw.lookup "save_name" with
        | none =>
          rw [hk] at ho
          cases ho
          cases hs
        | some x =>
          rw [hk] at ho
          cases x with
          | str name => cases ho; exact ⟨name, rfl, rfl⟩
          | none => cases ho; cases hs
          | _ => cases ho
      have hlo : o.load = (kw.lookup "load").map Val.truthy := by
        unfold cacheOptions at ho
        cases hp : (Kwargs.get kw "save_name" .none).toPath with
        | error e => rw [hp] at ho; cases ho
        | ok n => rw [hp] at ho; cases ho; rfl
      by_cases hl : o.load.getD o.saveName.isSome = true
      · cases hs : o.saveName with
        | none =>
          unfold tryLoad at h2
          rw [if_pos hl] at h2
          simp only [hs] at h2
          cases h2
        | some name =>
          obtain ⟨name', hk, hn⟩ := hsn (by rw [hs]; rfl)
          rw [hs] at hn
          cases hn
          have hl' : o.load.getD true = true := by rw [hs] at hl; exact hl
          obtain ⟨t1, t2, t3, t4⟩ := tryLoad_some (V := V) (τ := τ) name env o hs hl' w
          by_cases hc : env.unreadable = true ∨ w.rng.files (name ++ ".pkl".toList) = none
          · rw [t4 hc] at h2
            cases h2
          · rw [not_or, Bool.not_eq_true] at hc
            cases hcon : w.rng.files (name ++ ".pkl".toList) with
            | none => exact absurd hcon hc.2
            | some c =>
              cases c with
              | saved x =>
                rw [t1 x hc.1 hcon] at h2
                cases h2
                refine ⟨name, hk, ?_, hc.1, hcon, rfl⟩
                unfold flag
                rw [hlo] at hl'
                cases hq : kw.lookup "load" with
                | none => rfl
                | some x => rw [hq] at hl'; exact hl'
              | empty => rw [t2 hc.1 hcon] at h2; cases h2
              | truncated => rw [t3 hc.1 hcon] at h2; cases h2
      · unfold tryLoad at h2
        rw [if_neg hl] at h2
        cases h2

/-- C90 for `run_list_error_summary`: an option which it does not know is noticed unless the table of values is loaded. -/
theorem C90_summary_uncached {A : Argsort ℝ} {R : Rng (Disk ErrTable τ) ℝ} {N : NormalRng (Disk ErrTable τ)} {nsim : Nat}
    {D : Distances (List Cell) Cell} {runs : List (Run ℝ)} {ests : List (EstFunc (Disk ErrTable τ))}
    {names : List String} {nSim : Nat} {kw : Kwargs} (h : Unknown (summaryOpts ++ (cacheOpts ++ errorValuesOpts)) kw)
    {env : CallEnv} {S1 S2 S3 : Schedule (Disk ErrTable τ) runs.length} {w w' : World (Disk ErrTable τ)} {t : SumTable}
    (ht : runListErrorSummaryKw A R N nsim D runs ests names nSim kw env S1 S2 S3 w = (.ok t, w')) :
    ∃ name v, kw.lookup "save_name" = some (.str name) ∧ flag kw "load" true = true ∧ env.unreadable = false ∧
      w.rng.files (name ++ ".pkl".toList) = some (.saved v) := by
  obtain ⟨p, hp, hu⟩ := h
  rw [List.mem_append, not_or] at hu
  obtain ⟨hs, hu⟩ := hu
  simp only [summaryOpts, List.mem_cons, List.not_mem_nil, or_false, not_or] at hs
  unfold runListErrorSummaryKw at ht
  obtain ⟨v, w1, h1, -⟩ := M.bind_eq_ok.mp ht
  obtain ⟨name, e1, e2, e3, e4, -⟩ := C90_uncached (opts := errorValuesOpts) (by
    rintro k ⟨q, hq, hqu⟩ w
    exact ⟨_, C90_unknown_error_values D runs ests names ⟨q, List.mem_cons_of_mem _ hq, hqu⟩ S1 S2 S3 w⟩)
    ⟨p, by simp [mem_without, hp, hs], hu⟩ h1
  refine ⟨name, v, ?_, ?_, e3, e4⟩
  · simpa [lookup_without] using e1
  · unfold flag at e2 ⊢
    simpa [lookup_without] using e2

/-- C90: the options of `run_list_error_summary` without caching: those of the summary and those of the values. -/
theorem C90_error_summary {A : Argsort ℝ} {R : Rng (Disk ErrTable τ) ℝ} {N : NormalRng (Disk ErrTable τ)} {nsim : Nat}
    {D : Distances (List Cell) Cell} {runs : List (Run ℝ)} {ests : List (EstFunc (Disk ErrTable τ))}
    {names : List String} {nSim : Nat} {kw : Kwargs}
    (h : ¬ Unknown (summaryOpts ++ ["thread_pvalue", "bs_stat_dist", "parallel"]) kw) {tv : Option (List ℝ)}
    (ht : kw.lookup "true_values" = tv.map Val.reals) (env : CallEnv) (S1 S2 S3 : Schedule (Disk ErrTable τ) runs.length) :
    runListErrorSummaryKw A R N nsim D runs ests names nSim kw env S1 S2 S3 = (do
      let t ← runListErrorValues A R D runs ests names nSim (flag kw "thread_pvalue" false) (flag kw "bs_stat_dist" false)
        (flag kw "parallel" true) S1 S2 S3
      errorValuesSummary R N nsim t tv (flag kw "include_true_values" false) (flag kw "include_rmse" false)) := by
  have h' := not_unknown h
  have hg : (Kwargs.get kw "true_values" .none).toReals = .ok tv := by
    unfold Kwargs.get
    rw [ht]
    cases tv <;> rfl
  set rest := ((Kwargs.without kw "true_values").without "include_true_values").without "include_rmse" with hrest
  have hmem : ∀ p ∈ rest, p.1 ∈ ["thread_pvalue", "bs_stat_dist", "parallel"] := by
    intro p hp
    rw [hrest] at hp
    simp only [mem_without] at hp
    have := h' p hp.1.1.1
    simpa [summaryOpts, hp.1.1.2, hp.1.2, hp.2] using this
  have hnone : ∀ k, k ∉ ["thread_pvalue", "bs_stat_dist", "parallel"] → rest.lookup k = none := by
    intro k hk
    rw [← Option.not_isSome_iff_eq_none, lookup_isSome]
    rintro ⟨p, hp, rfl⟩
    exact hk (hmem p hp)
  have hkeep : ∀ k, k ∈ ["thread_pvalue", "bs_stat_dist", "parallel"] → rest.lookup k = kw.lookup k := by
    intro k hk
    rw [hrest, lookup_without, lookup_without, lookup_without, if_neg, if_neg, if_neg]
    all_goals
      rintro rfl
      revert hk
      decide
  have hc : ∀ k, k ∈ ["thread_pvalue", "bs_stat_dist", "parallel"] → (cacheRest rest).lookup k = kw.lookup k := by
    intro k hk
    unfold cacheRest
    rw [lookup_without, lookup_without, lookup_without, lookup_without, lookup_without, if_neg, if_neg, if_neg, if_neg, if_neg,
      hkeep k hk]
    all_goals
      rintro rfl
      revert hk
      decide
  have hfl : ∀ k d, k ∈ ["thread_pvalue", "bs_stat_dist", "parallel"] →
      flag (("n_simulate", .nat nSim) :: cacheRest rest) k d = flag kw k d := by
    intro k d hk
    unfold flag
    have : (k == "n_simulate") = false := by
      rw [beq_eq_false_iff_ne]
      rintro rfl
      revert hk
      decide
    rw [List.lookup_cons, this, hc k hk]
  have hvals := C90_error_values (A := A) (R := R) D runs ests names (kw := ("n_simulate", .nat nSim) :: cacheRest rest) (by
      rintro ⟨p, hp, hu⟩
      rcases List.mem_cons.mp hp with rfl | hp
      · exact hu (show "n_simulate" ∈ errorValuesOpts by decide)
      · unfold cacheRest at hp
        simp only [mem_without] at hp
        have := hmem p hp.1.1.1.1.1
        apply hu
        simp only [List.mem_cons, List.not_mem_nil, or_false] at this
        rcases this with e | e | e <;> rw [e] <;> decide) (n := some nSim) rfl S1 S2 S3
  rw [hfl _ _ (by decide), hfl _ _ (by decide), hfl _ _ (by decide), Option.getD_some] at hvals
  have ho : cacheOptions rest = .ok { saveName := none, save := none, load := none, overwrite := true, warnIfError := false } := by
    unfold cacheOptions Kwargs.get
    rw [hnone _ (by decide), hnone _ (by decide), hnone _ (by decide), hnone _ (by decide), hnone _ (by decide)]
    rfl
  unfold runListErrorSummaryKw saveLoadKw
  dsimp only
  rw [← hrest, ho, get_without _ (by decide), get_without _ (by decide), get_without _ (by decide), truthy_get, truthy_get, hg,
    hvals]
  funext w
  have hs := C60_no_name (runListErrorValues A R D runs ests names nSim (flag kw "thread_pvalue" false)
    (flag kw "bs_stat_dist" false) (flag kw "parallel" true) S1 S2 S3) true false env w
  rw [M.bind_apply, M.bind_apply, M.bind_apply]
  simp only [M.lift_apply, hs]
  rfl

/-! ### Concrete cases -/

/-- A misspelt option. -/
def exMisspelt : Kwargs := [("n_simulate", .nat 10), ("flip_skw", .bool false)]

example : Unknown bootstrapOpts exMisspelt := ⟨("flip_skw", .bool false), by simp [exMisspelt], by decide⟩

example (r : Run ℝ) (ests : List (EstFunc σ)) (A : Argsort ℝ) (R : Rng σ ℝ) :
    Refused (runBootstrapValuesKw A R r none ests exMisspelt) :=
  C90_unknown_bootstrap r none ests ⟨("flip_skw", .bool false), by simp [exMisspelt], by decide⟩

example : ¬ Unknown bootstrapOpts [("n_simulate", .nat 10), ("flip_skew", .bool false)] := by
  rintro ⟨p, hp, hu⟩
  simp only [List.mem_cons, List.not_mem_nil, or_false] at hp
  rcases hp with rfl | rfl <;> exact absurd hu (by simp [bootstrapOpts])

example : SameOptions [("n_simulate", .nat 10), ("flip_skew", .bool false)] [("flip_skew", .bool false), ("n_simulate", .nat 10)] :=
  C90_order (List.Perm.swap _ _ _) (by decide)

example : flag [("flip_skew", .bool false)] "flip_skew" true = false ∧ flag [] "flip_skew" true = true ∧
    flag [("parallel", .nat 0)] "parallel" true = false := ⟨rfl, rfl, rfl⟩

/-- `errors_to_handle` among the options of the process function is replaced. -/
def exBatch : Kwargs :=
  [("func_kwargs", .dict [("dup_asert", .bool true), ("errors_to_handle", .errors [.os])]), ("parallel", .bool false)]

example : funcKwargsAfter exBatch = some [("dup_asert", .bool true), ("errors_to_handle", .errors [])] := by
  rfl

theorem exBatch_known : ¬ Unknown batchOpts exBatch := by
  rintro ⟨p, hp, hu⟩
  simp only [exBatch, List.mem_cons, List.not_mem_nil, or_false] at hp
  rcases hp with rfl | rfl <;> exact absurd hu (by simp [batchOpts])

/-- A misspelt option of `process_polychord_run` given to `batch_process_data`. -/
example [CommRing K] [LinearOrder K] {A : Argsort K} {R : Rng σ K} {F : Type} {CF : Codec F} {CI : Codec Int}
    (tables : Tables K) (texts : Texts) (roots : List String) (S : Schedule σ roots.length) {w w' : World σ}
    {report : List (PyErr × List Nat)} {runs : List (Run K × RunOutput F)}
    (hr : batchProcessKw (fun _ _ root k => processPolychordKw A R CF CI tables texts root "chains" k)
      (fun _ => some "root") roots exBatch S w = (.ok (report, runs), w')) :
    runs = [] ∧ (roots ≠ [] → report ≠ []) := by
  refine C90_func_unknown (opts := polychordOpts) (fun _ _ root k h => refused_polychord tables texts root "chains" k h)
    _ roots exBatch_known (func := [("dup_asert", .bool true), ("errors_to_handle", .errors [.os])]) rfl ?_
    ⟨("dup_asert", .bool true), by simp, by decide⟩ (errs := none) rfl rfl S hr
  intro p hp
  simp only [List.mem_cons, List.not_mem_nil, or_false] at hp
  rcases hp with rfl | rfl <;> simp

/-- A misspelt option which is not noticed. -/
example (func : Kwargs → M (Disk Nat Nat) Nat) :
    saveLoadKw func [("save_name", .str "a".toList), ("n_simulat", .nat 10)] ⟨false, ⟨[], .none⟩⟩
      ⟨⟨fun p => if p = "a.pkl".toList then some (.saved 7) else none, fun _ => true, [], 0⟩, []⟩ =
      (.ok 7, ⟨⟨fun p => if p = "a.pkl".toList then some (.saved 7) else none, fun _ => true, [], 0⟩, []⟩) :=
  C90_cached (name := "a".toList) func rfl rfl rfl rfl

end
end Nestcheck
