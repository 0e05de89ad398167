import Verif.Model.Cache
import Verif.Spec.Run
import Verif.Props.Stats

/-
C43, C44, C45, C60: the decorators and pickle functions of io_utils.py.
-/

namespace Nestcheck
open Spec
variable {V τ α : Type}

/-! ### The steps of a save -/

theorem dirname_append {s : Path} (hs : '/' ∉ s) (name : Path) : dirname (name ++ s) = dirname (name ++ []) := by
  have h : (name ++ s).reverse.dropWhile (· ≠ '/') = (name ++ []).reverse.dropWhile (· ≠ '/') := by
    rw [List.append_nil, List.reverse_append, List.dropWhile_append_of_pos]
    intro c hc
    have : c ≠ '/' := by rintro rfl; exact hs (List.mem_reverse.mp hc)
    simpa using this
  unfold dirname
  rw [h]

theorem pkl_solid : '/' ∉ ".pkl".toList := by decide

theorem dirname_stamped {name time : Path} (ht : '/' ∉ time) :
    dirname (stamped name time) = dirname (name ++ ".pkl".toList) := by
  rw [dirname_append pkl_solid name]
  unfold stamped
  rw [List.append_assoc, dirname_append]
  intro hc
  rw [List.cons_append, List.mem_cons, List.mem_append, List.mem_map] at hc
  rcases hc with hc | ⟨c, hc, he⟩ | hc
  · exact absurd hc (by decide)
  · by_cases h : c = ' '
    · rw [if_pos h] at he; exact absurd he (by decide)
    · rw [if_neg h] at he; subst he; exact ht hc
  · exact pkl_solid hc

theorem self_mem_ancestors {p : Path} (h : p ≠ []) : p ∈ ancestors p.length p := by
  cases p with
  | nil => exact absurd rfl h
  | cons c p => simp [ancestors]

/-- The file that `pickle_save` writes to. -/
def Spec.saveTarget (d : Disk V τ) (name : Path) (overwrite : Bool) (time : Path) : Path :=
  if (d.files (name ++ ".pkl".toList)).isSome ∧ overwrite = false then stamped name time else name ++ ".pkl".toList

/-- A disk differs from another one in what is stored in one file, in the directories there are and
in what was printed. -/
def Spec.Touches (d d' : Disk V τ) (p : Path) (c : Option (Content V)) : Prop :=
  d'.rest = d.rest ∧ d'.files p = c ∧ ∀ q, q ≠ p → d'.files q = d.files q

theorem touches_write (d : Disk V τ) (p : Path) (c : Content V) : Touches d (d.write p c) p (some c) := by
  refine ⟨rfl, by simp [Disk.write], fun q hq => by simp [Disk.write, hq]⟩

theorem touches_self (d : Disk V τ) (p : Path) : Touches d d p (d.files p) := ⟨rfl, rfl, fun _ _ => rfl⟩

/-- The disks that a save passes through: nothing was changed in the file, it is incomplete, or it
is complete. -/
def Spec.SaveStage (d d' : Disk V τ) (p : Path) (v : V) : Prop :=
  Touches d d' p (d.files p) ∨ Touches d d' p (some .empty) ∨ Touches d d' p (some .truncated) ∨
    Touches d d' p (some (.saved v))

theorem writePickle_stage {v : V} {target : Path} {fault : Fault} {w w' : World (Disk V τ)} {r : Py Unit}
    (h : writePickle v target fault w = (r, w')) :
    SaveStage w.rng w'.rng target v ∧ w'.warns = w.warns := by
  unfold writePickle at h
  rw [M.bind_ok (M.getState_apply w)] at h
  by_cases hf : fault = .opening ∨ (w.rng.dirs (dirname target) = false ∧ dirname target ≠ [])
  · rw [if_pos hf, M.bind_error (M.raise_apply _ _)] at h
    cases h
    exact ⟨Or.inl (touches_self _ _), rfl⟩
  · rw [if_neg hf] at h
    have hs : ∀ c : Content V, Touches w.rng (w.rng.write target c) target (some c) := touches_write _ _
    cases fault with
    | none => cases h; exact ⟨Or.inr (Or.inr (Or.inr (hs _))), rfl⟩
    | mkdir => cases h; exact ⟨Or.inr (Or.inr (Or.inr (hs _))), rfl⟩
    | opening => exact absurd (Or.inl rfl) hf
    | dump e part =>
      cases h
      refine ⟨?_, rfl⟩
      cases part
      · exact Or.inr (Or.inl (hs _))
      · exact Or.inr (Or.inr (Or.inl (hs _)))
    | closing part =>
      cases h
      refine ⟨?_, rfl⟩
      cases part
      · exact Or.inr (Or.inl (hs _))
      · exact Or.inr (Or.inr (Or.inl (hs _)))

theorem makeDirs_apply {dir : Path} {fault : Fault} {w w' : World (Disk V τ)} {r : Py Unit}
    (h : makeDirs dir fault w = (r, w')) :
    w'.rng.rest = w.rng.rest ∧ w'.rng.files = w.rng.files ∧ w'.warns = w.warns ∧
      ((fault = .mkdir ∧ r = .error .os ∧ w' = w) ∨
        (fault ≠ .mkdir ∧ r = .ok () ∧ (dir ≠ [] → w'.rng.dirs dir = true))) := by
  unfold makeDirs at h
  by_cases hf : fault = .mkdir
  · rw [if_pos hf, M.bind_error (M.raise_apply _ _)] at h
    cases h
    exact ⟨rfl, rfl, rfl, Or.inl ⟨hf, rfl, rfl⟩⟩
  · rw [if_neg hf] at h
    cases h
    refine ⟨rfl, rfl, rfl, Or.inr ⟨hf, rfl, fun hd => ?_⟩⟩
    simp [self_mem_ancestors hd]

theorem touches_of_files {d d₁ d' : Disk V τ} (h1 : d₁.rest = d.rest) (h2 : d₁.files = d.files) {p : Path}
    {c : Option (Content V)} (h : Touches d₁ d' p c) : Touches d d' p c :=
  ⟨h.1.trans h1, h.2.1, fun q hq => by rw [h.2.2 q hq, h2]⟩

theorem saveStage_of_files {d d₁ d' : Disk V τ} (h1 : d₁.rest = d.rest) (h2 : d₁.files = d.files) {p : Path}
    {v : V} (h : SaveStage d₁ d' p v) : SaveStage d d' p v := by
  have := @touches_of_files V τ d d₁ d' h1 h2 p
  unfold SaveStage at *
  rw [h2] at h
  exact h.imp this (Or.imp this (Or.imp this this))

/-- The last part of `pickle_save`: the writing and its handler. -/
def handledWrite (v : V) (target : Path) (fault : Fault) : M (Disk V τ) Unit :=
  M.tryExcept (writePickle v target fault) (fun e => e == .memory || e == .os) (fun _ => M.warn .saveFailed)

theorem handledWrite_stage {v : V} {target : Path} {fault : Fault} {w w' : World (Disk V τ)} {r : Py Unit}
    (h : handledWrite v target fault w = (r, w')) : SaveStage w.rng w'.rng target v := by
  rcases hw : writePickle v target fault w with ⟨r', w₁⟩
  have hs := (writePickle_stage hw).1
  unfold handledWrite at h
  cases r' with
  | ok a => rw [M.tryExcept_ok hw] at h; cases h; exact hs
  | error e =>
    by_cases he : (e == .memory || e == .os) = true
    · rw [M.tryExcept_handled hw he] at h; cases h; exact hs
    · unfold M.tryExcept at h
      rw [hw] at h
      simp only [if_neg he] at h
      cases h
      exact hs

/-- `pickle_save` in terms of the two parts: what precedes the writing does not change files or
fails, and then the target is written. -/
theorem pickleSave_cases (v : V) (name : Path) (overwrite : Bool) (env : SaveEnv) (w : World (Disk V τ)) :
    (env.fault = .mkdir ∧ w.rng.dirs (dirname (name ++ ".pkl".toList)) = false ∧
      dirname (name ++ ".pkl".toList) ≠ [] ∧ pickleSave v name overwrite env w = (.error .os, w)) ∨
    ∃ w₁ : World (Disk V τ), w₁.rng.rest = w.rng.rest ∧ w₁.rng.files = w.rng.files ∧ w₁.warns = w.warns ∧
      (dirname (name ++ ".pkl".toList) ≠ [] → w₁.rng.dirs (dirname (name ++ ".pkl".toList)) = true) ∧
      pickleSave v name overwrite env w =
        handledWrite v (saveTarget w.rng name overwrite env.time) env.fault w₁ := by
  have second : ∀ w₀ : World (Disk V τ), w₀.rng.rest = w.rng.rest → w₀.rng.files = w.rng.files →
      w₀.warns = w.warns →
      (dirname (name ++ ".pkl".toList) ≠ [] → w₀.rng.dirs (dirname (name ++ ".pkl".toList)) = true) →
      ∃ w₁ : World (Disk V τ), w₁.rng.rest = w.rng.rest ∧ w₁.rng.files = w.rng.files ∧ w₁.warns = w.warns ∧
      (dirname (name ++ ".pkl".toList) ≠ [] → w₁.rng.dirs (dirname (name ++ ".pkl".toList)) = true) ∧
      (if (w.rng.files (name ++ ".pkl".toList)).isSome ∧ overwrite = false then do
        printLine (name ++ ".pkl".toList ++ " already exists! Saving with time appended".toList)
        handledWrite v (stamped name env.time) env.fault
      else handledWrite v (name ++ ".pkl".toList) env.fault) w₀ =
        handledWrite v (saveTarget w.rng name overwrite env.time) env.fault w₁ := by
    intro w₀ h1 h2 h3 h4
    unfold saveTarget
    by_cases hc : (w.rng.files (name ++ ".pkl".toList)).isSome ∧ overwrite = false
    · rw [if_pos hc, if_pos hc]
      exact ⟨⟨{ w₀.rng with out := w₀.rng.out ++
        [name ++ ".pkl".toList ++ " already exists! Saving with time appended".toList] }, w₀.warns⟩, h1, h2, h3, h4, rfl⟩
    · rw [if_neg hc, if_neg hc]
      exact ⟨w₀, h1, h2, h3, h4, rfl⟩
  by_cases hd : w.rng.dirs (dirname (name ++ ".pkl".toList)) = false ∧ dirname (name ++ ".pkl".toList) ≠ []
  · rcases hm : makeDirs (dirname (name ++ ".pkl".toList)) env.fault w with ⟨r, w₀⟩
    obtain ⟨h1, h2, h3, ⟨hf, rfl, rfl⟩ | ⟨hf, rfl, h4⟩⟩ := makeDirs_apply hm
    · left
      refine ⟨hf, hd.1, hd.2, ?_⟩
      unfold pickleSave
      rw [M.bind_ok (M.getState_apply _), if_pos hd, M.bind_error hm]
    · right
      obtain ⟨w₁, a, b, c, d, e⟩ := second w₀ h1 h2 h3 h4
      refine ⟨w₁, a, b, c, d, ?_⟩
      rw [← e]
      unfold pickleSave
      rw [M.bind_ok (M.getState_apply _), if_pos hd, M.bind_ok hm]
      rfl
  · right
    obtain ⟨w₁, a, b, c, d, e⟩ := second w rfl rfl rfl (fun hne => by
      by_contra hx
      exact hd ⟨by simpa using hx, hne⟩)
    refine ⟨w₁, a, b, c, d, ?_⟩
    rw [← e]
    unfold pickleSave
    rw [M.bind_ok (M.getState_apply _), if_neg hd]
    rfl

/-- A save changes at most the file it writes to, whatever fails. -/
theorem pickleSave_stage {v : V} {name : Path} {overwrite : Bool} {env : SaveEnv} {w w' : World (Disk V τ)}
    {r : Py Unit} (h : pickleSave v name overwrite env w = (r, w')) :
    SaveStage w.rng w'.rng (saveTarget w.rng name overwrite env.time) v := by
  rcases pickleSave_cases v name overwrite env w with ⟨-, -, -, hc⟩ | ⟨w₁, h1, h2, -, -, hc⟩
  · rw [hc] at h
    cases h
    exact Or.inl (touches_self _ _)
  · rw [hc] at h
    exact saveStage_of_files h1 h2 (handledWrite_stage h)

theorem dirname_target {d : Disk V τ} {name : Path} {overwrite : Bool} {time : Path} (ht : '/' ∉ time) :
    dirname (saveTarget d name overwrite time) = dirname (name ++ ".pkl".toList) := by
  unfold saveTarget
  split
  · exact dirname_stamped ht
  · rfl

/-- A save without faults. -/
theorem pickleSave_ok (v : V) (name : Path) (overwrite : Bool) {env : SaveEnv} (hf : env.fault = .none)
    (ht : '/' ∉ env.time) (w : World (Disk V τ)) :
    ∃ w' : World (Disk V τ), pickleSave v name overwrite env w = (.ok (), w') ∧ w'.warns = w.warns ∧
      Touches w.rng w'.rng (saveTarget w.rng name overwrite env.time) (some (.saved v)) := by
  rcases pickleSave_cases v name overwrite env w with ⟨hm, -⟩ | ⟨w₁, h1, h2, h3, h4, hc⟩
  · rw [hf] at hm; cases hm
  · have hopen : ¬ (env.fault = .opening ∨ (w₁.rng.dirs (dirname (saveTarget w.rng name overwrite env.time)) = false ∧
        dirname (saveTarget w.rng name overwrite env.time) ≠ [])) := by
      rw [hf, dirname_target ht]
      rintro (h | ⟨h, hne⟩)
      · cases h
      · rw [h4 hne] at h; cases h
    refine ⟨⟨w₁.rng.write (saveTarget w.rng name overwrite env.time) (.saved v), w₁.warns⟩, ?_, h3,
      touches_of_files h1 h2 (touches_write _ _ _)⟩
    rw [hc]
    unfold handledWrite
    apply M.tryExcept_ok
    unfold writePickle
    rw [M.bind_ok (M.getState_apply _), if_neg hopen, hf]
    rfl

/-! ### C60 -/

/-- C60, `timing_decorator`: the result or exception and everything done are those of the
function; with `print_time` one line is printed if the function returns. -/
theorem C60_timing (func : M (Disk V τ) α) (line : Path) (w : World (Disk V τ)) :
    timing func false line w = func w ∧
    (∀ a w', func w = (.ok a, w') →
      timing func true line w = (.ok a, ⟨{ w'.rng with out := w'.rng.out ++ [line] }, w'.warns⟩)) ∧
    (∀ e w', func w = (.error e, w') → timing func true line w = (.error e, w')) := by
  refine ⟨rfl, ?_, ?_⟩
  · intro a w' h
    unfold timing
    rw [if_pos rfl, M.bind_ok h]
    rfl
  · intro e w' h
    unfold timing
    rw [if_pos rfl, M.bind_error h]

theorem saveLoad_loaded {func : M (Disk V τ) V} {o : CacheOpts} {env : CallEnv} {w w' : World (Disk V τ)} {v : V}
    (h : tryLoad o env w = (.ok (some v), w')) : saveLoad func o env w = (.ok v, w') := by
  unfold saveLoad
  rw [M.bind_ok h]
  rfl

theorem saveLoad_unloadable {func : M (Disk V τ) V} {o : CacheOpts} {env : CallEnv} {w w' : World (Disk V τ)}
    {e : PyErr} (h : (tryLoad o env w : Py (Option V) × _) = (.error e, w')) :
    saveLoad func o env w = (.error e, w') := by
  unfold saveLoad
  rw [M.bind_error h]

theorem saveLoad_call {func : M (Disk V τ) V} {o : CacheOpts} {env : CallEnv} {w w' : World (Disk V τ)}
    (h : (tryLoad o env w : Py (Option V) × _) = (.ok none, w')) :
    (∀ e w₁, func w' = (.error e, w₁) → saveLoad func o env w = (.error e, w₁)) ∧
    (∀ v w₁ w₂, func w' = (.ok v, w₁) → trySave v o env w₁ = (.ok (), w₂) → saveLoad func o env w = (.ok v, w₂)) ∧
    (∀ v w₁ e w₂, func w' = (.ok v, w₁) → trySave v o env w₁ = (.error e, w₂) →
      saveLoad func o env w = (.error e, w₂)) := by
  have key : saveLoad func o env w = (do
      let result ← func
      trySave result o env
      pure result : M (Disk V τ) V) w' := by
    unfold saveLoad
    rw [M.bind_ok h]
  refine ⟨?_, ?_, ?_⟩
  · intro e w₁ h1
    rw [key, M.bind_error h1]
  · intro v w₁ w₂ h1 h2
    rw [key, M.bind_ok h1, M.bind_ok h2, M.pure_apply]
  · intro v w₁ e w₂ h1 h2
    rw [key, M.bind_ok h1, M.bind_error h2]

/-- C60, `save_load_result` without save_name: exactly the function. -/
theorem C60_no_name (func : M (Disk V τ) V) (overwrite warnIfError : Bool) (env : CallEnv) (w : World (Disk V τ)) :
    saveLoad func ⟨none, none, none, overwrite, warnIfError⟩ env w = func w := by
  obtain ⟨h1, h2, -⟩ := saveLoad_call (func := func) (o := ⟨none, none, none, overwrite, warnIfError⟩) (env := env)
    (w := w) (w' := w) rfl
  rcases hf : func w with ⟨_ | v, w'⟩
  · exact h1 _ _ hf
  · exact h2 _ _ _ hf rfl

/-- C60, asking for loading or saving without save_name: the function is called, and there is a
warning before it (`load`) and after it if it returns (`save`). -/
theorem C60_no_name_warns (func : M (Disk V τ) V) (save load : Bool) (overwrite warnIfError : Bool) (env : CallEnv)
    (w : World (Disk V τ)) :
    let w₀ : World (Disk V τ) := ⟨w.rng, w.warns ++ if load then [.loadNoName] else []⟩
    let r := func w₀
    saveLoad func ⟨none, some save, some load, overwrite, warnIfError⟩ env w =
      (r.1, ⟨r.2.rng, r.2.warns ++ if save ∧ r.1.isOk then [.saveNoName] else []⟩) := by
  intro w₀ r
  obtain ⟨h1, h2, -⟩ := saveLoad_call (func := func) (o := ⟨none, some save, some load, overwrite, warnIfError⟩)
    (env := env) (w := w) (w' := w₀) (by
    cases load
    · simp only [tryLoad, w₀, Option.getD_some, Bool.false_eq_true, if_false, List.append_nil]; rfl
    · rfl)
  rcases hf : func w₀ with ⟨_ | v, w'⟩
  · rw [h1 _ _ hf]
    simp [r, hf, Except.isOk, Except.toBool]
  · simp only [r, hf, Except.isOk, Except.toBool]
    cases save
    · rw [h2 _ _ _ hf rfl]; simp
    · rw [h2 _ _ _ hf rfl]; simp

/-! ### C43 -/

/-- The pickles on the disk are those of the map. -/
def Spec.Holds (d : Disk V τ) (m : Path → Option V) : Prop :=
  ∀ n, d.files (n ++ ".pkl".toList) = (m n).map .saved

/-- A call with a write-once map: the function is called unless a value is stored under the
name, and what it returns is stored. -/
def Spec.onceStep (f : M τ V) (name : Option Path) (m : Path → Option V) (w : World τ) :
    Py V × (Path → Option V) × World τ :=
  match name with
  | none => ((f w).1, m, (f w).2)
  | some n =>
    match m n with
    | some v => (.ok v, m, w)
    | none =>
      match f w with
      | (.error e, w') => (.error e, m, w')
      | (.ok v, w') => (.ok v, fun q => if q = n then some v else m q, w')

theorem onceStep_stored (f : M τ V) {m : Path → Option V} {n : Path} {v : V} (h : m n = some v) (w : World τ) :
    onceStep f (some n) m w = (.ok v, m, w) := by
  simp only [onceStep, h]

/-- A call of a decorated function with at most save_name given. -/
structure Spec.DefaultCall (V τ : Type) where
  func : M τ V
  name : Option Path
  env : CallEnv

/-- Nothing goes wrong with the disk. -/
def Spec.DefaultCall.Faultless (c : DefaultCall V τ) : Prop :=
  c.env.unreadable = false ∧ c.env.saving.fault = .none ∧ '/' ∉ c.env.saving.time

/-- Make the call. -/
def Spec.DefaultCall.run (c : DefaultCall V τ) : M (Disk V τ) V := saveLoad (onRest c.func) { saveName := c.name } c.env

/-- The part of the state that belongs to the functions. -/
def Spec.restOf (w : World (Disk V τ)) : World τ := ⟨w.rng.rest, w.warns⟩

theorem onRest_apply (f : M τ V) (w : World (Disk V τ)) {r : Py V} {w' : World τ} (h : f (restOf w) = (r, w')) :
    onRest f w = (r, ⟨{ w.rng with rest := w'.rng }, w'.warns⟩) := by
  unfold onRest
  simp only [restOf] at h
  rw [h]

theorem pkl_inj {n q : Path} (h : n ++ ".pkl".toList = q ++ ".pkl".toList) : n = q := List.append_cancel_right h

theorem tryLoad_some (name : Path) (env : CallEnv) (o : CacheOpts) (ho : o.saveName = some name)
    (hl : o.load.getD true = true) (w : World (Disk V τ)) :
    (∀ v, env.unreadable = false → w.rng.files (name ++ ".pkl".toList) = some (.saved v) →
      tryLoad o env w = (.ok (some v), w)) ∧
    (env.unreadable = false → w.rng.files (name ++ ".pkl".toList) = some .empty →
      (tryLoad o env w : Py (Option V) × _) = (.error .eof, w)) ∧
    (env.unreadable = false → w.rng.files (name ++ ".pkl".toList) = some .truncated →
      (tryLoad o env w : Py (Option V) × _) = (.error .unpickling, w)) ∧
    (env.unreadable = true ∨ w.rng.files (name ++ ".pkl".toList) = none →
      tryLoad o env w = (.ok none, ⟨w.rng, w.warns ++ if o.warnIfError then [.loadFailed] else []⟩)) := by
  have hcond : o.load.getD o.saveName.isSome = true := by rw [ho]; exact hl
  have hload : (tryLoad o env : M (Disk V τ) (Option V)) =
      M.tryExcept (do
          let v ← pickleLoad name env.unreadable
          pure (some v))
        (fun e => e == .os)
        (fun _ => do
          if o.warnIfError then M.warn .loadFailed
          pure none) := by
    unfold tryLoad
    rw [if_pos hcond]
    simp only [ho]
  rw [hload]
  refine ⟨?_, ?_, ?_, ?_⟩
  · intro v hu h
    apply M.tryExcept_ok
    rw [M.bind_ok (a := v) (w' := w)]
    · rfl
    · unfold pickleLoad
      rw [M.bind_ok (M.getState_apply _), if_neg (by simp [hu])]
      simp only [h]
      rfl
  · intro hu h
    have : pickleLoad name env.unreadable w = (.error .eof, w) := by
      unfold pickleLoad
      rw [M.bind_ok (M.getState_apply _), if_neg (by simp [hu])]
      simp only [h]
      rfl
    unfold M.tryExcept
    rw [M.bind_error this]
    rfl
  · intro hu h
    have : pickleLoad name env.unreadable w = (.error .unpickling, w) := by
      unfold pickleLoad
      rw [M.bind_ok (M.getState_apply _), if_neg (by simp [hu])]
      simp only [h]
      rfl
    unfold M.tryExcept
    rw [M.bind_error this]
    rfl
  · intro h
    have : pickleLoad name env.unreadable w = (.error .os, w) := by
      unfold pickleLoad
      rw [M.bind_ok (M.getState_apply _)]
      by_cases hu : env.unreadable = true
      · rw [if_pos hu]; rfl
      · rw [if_neg hu]
        simp only [h.resolve_left hu]
        rfl
    rw [M.tryExcept_handled (M.bind_error this) rfl]
    cases o.warnIfError
    · simp only [Bool.false_eq_true, if_false, List.append_nil]; rfl
    · rfl

/-- C43, one call: with the files of a map on the disk, a faultless call with default options
does what a call with the write-once map does. -/
theorem C43_step (c : DefaultCall V τ) (hc : c.Faultless) {m : Path → Option V} {w : World (Disk V τ)}
    (h : Holds w.rng m) :
    (c.run w).1 = (onceStep c.func c.name m (restOf w)).1 ∧
    Holds (c.run w).2.rng (onceStep c.func c.name m (restOf w)).2.1 ∧
    restOf (c.run w).2 = (onceStep c.func c.name m (restOf w)).2.2 := by
  obtain ⟨func, name, env⟩ := c
  obtain ⟨hu, hf, ht⟩ := hc
  simp only at hu hf ht
  simp only [DefaultCall.run]
  cases name with
  | none =>
    rw [C60_no_name]
    exact ⟨rfl, h, rfl⟩
  | some n =>
    obtain ⟨t1, -, -, t4⟩ := tryLoad_some (V := V) n env { saveName := some n } rfl rfl w
    cases hm : m n with
    | some v =>
      rw [saveLoad_loaded (t1 v hu (by rw [h n, hm]; rfl)), onceStep_stored _ hm]
      exact ⟨rfl, h, rfl⟩
    | none =>
      have t4' := t4 (Or.inr (by rw [h n, hm]; rfl))
      simp only [Bool.false_eq_true, if_false, List.append_nil] at t4'
      obtain ⟨s1, s2, -⟩ := saveLoad_call (func := onRest func) t4'
      simp only [onceStep, hm]
      rcases hr : func (restOf w) with ⟨e | v, w₁⟩
      · rw [s1 _ _ (onRest_apply func w hr)]
        exact ⟨rfl, h, rfl⟩
      · obtain ⟨w₂, a, b, c⟩ := pickleSave_ok v n true (env := env.saving) hf ht
          ⟨{ w.rng with rest := w₁.rng }, w₁.warns⟩
        rw [s2 _ _ w₂ (onRest_apply func w hr) a]
        refine ⟨rfl, ?_, ?_⟩
        · intro q
          have htar : saveTarget (V := V) (τ := τ) { w.rng with rest := w₁.rng } n true env.saving.time =
              n ++ ".pkl".toList := by simp [saveTarget]
          rw [htar] at c
          by_cases hq : q = n
          · subst hq
            simpa using c.2.1
          · have : q ++ ".pkl".toList ≠ n ++ ".pkl".toList := fun he => hq (pkl_inj he)
            rw [c.2.2 _ this]
            simpa [hq] using h q
        · simp only [restOf, b, c.1]

/-- A sequence of calls, whose exceptions are caught. -/
def Spec.history : List (DefaultCall V τ) → World (Disk V τ) → List (Py V) × World (Disk V τ)
  | [], w => ([], w)
  | c :: cs, w => ((c.run w).1 :: (history cs (c.run w).2).1, (history cs (c.run w).2).2)

/-- The same sequence with the write-once map. -/
def Spec.onceHistory : List (DefaultCall V τ) → (Path → Option V) → World τ →
    List (Py V) × (Path → Option V) × World τ
  | [], m, w => ([], m, w)
  | c :: cs, m, w =>
    let r := onceStep c.func c.name m w
    (r.1 :: (onceHistory cs r.2.1 r.2.2).1, (onceHistory cs r.2.1 r.2.2).2)

/-- C43: in every sequence of faultless calls with default options, of any decorated functions
with any arguments and under any names, the results, exceptions, side effects of the functions and
the contents of the disk are those of a write-once map. -/
theorem C43 (calls : List (DefaultCall V τ)) (hc : ∀ c ∈ calls, c.Faultless) {m : Path → Option V}
    {w : World (Disk V τ)} (h : Holds w.rng m) :
    (history calls w).1 = (onceHistory calls m (restOf w)).1 ∧
    Holds (history calls w).2.rng (onceHistory calls m (restOf w)).2.1 ∧
    restOf (history calls w).2 = (onceHistory calls m (restOf w)).2.2 := by
  induction calls generalizing m w with
  | nil => exact ⟨rfl, h, rfl⟩
  | cons c cs ih =>
    obtain ⟨h1, h2, h3⟩ := C43_step c (hc c (by simp)) h
    obtain ⟨i1, i2, i3⟩ := ih (fun c hc' => hc c (by simp [hc'])) h2
    simp only [history, onceHistory]
    rw [h3] at i1 i2 i3
    exact ⟨by rw [h1, i1], i2, i3⟩

theorem onceStep_keeps (f : M τ V) (name : Option Path) (m : Path → Option V) (w : World τ) {n : Path} {v : V}
    (h : m n = some v) : (onceStep f name m w).2.1 n = some v := by
  cases name with
  | none => exact h
  | some q =>
    simp only [onceStep]
    cases hq : m q with
    | some u => exact h
    | none =>
      rcases f w with ⟨e | u, w'⟩
      · exact h
      · have : n ≠ q := by rintro rfl; rw [hq] at h; cases h
        simp [this, h]

theorem onceHistory_keeps (calls : List (DefaultCall V τ)) (m : Path → Option V) (w : World τ) {n : Path} {v : V}
    (h : m n = some v) : (onceHistory calls m w).2.1 n = some v := by
  induction calls generalizing m w with
  | nil => exact h
  | cons c cs ih => exact ih _ _ (onceStep_keeps c.func c.name m w h)

/-- C43, spelled out: once a call under a name has returned a value, every later call under this
name returns the same value, whatever the function and its arguments, without calling the
function. -/
theorem C43_once {c₁ c₂ : DefaultCall V τ} {n : Path} (hn₁ : c₁.name = some n) (hn₂ : c₂.name = some n)
    (calls : List (DefaultCall V τ)) (h₁ : c₁.Faultless) (h₂ : c₂.Faultless) (hc : ∀ c ∈ calls, c.Faultless)
    {m : Path → Option V} {w w₁ : World (Disk V τ)} (h : Holds w.rng m) {v : V} (hv : c₁.run w = (.ok v, w₁)) :
    let w₂ := (history calls w₁).2
    (c₂.run w₂).1 = .ok v ∧ restOf (c₂.run w₂).2 = restOf w₂ := by
  intro w₂
  obtain ⟨a1, a2, a3⟩ := C43_step c₁ h₁ h
  rw [hv] at a1 a2 a3
  have hmap : (onceStep c₁.func c₁.name m (restOf w)).2.1 n = some v := by
    rw [hn₁] at a1 ⊢
    simp only [onceStep] at a1 ⊢
    cases hm : m n with
    | some u => rw [hm] at a1; cases a1; exact hm
    | none =>
      rw [hm] at a1
      rcases hf : c₁.func (restOf w) with ⟨e | u, w'⟩
      · rw [hf] at a1; cases a1
      · rw [hf] at a1; cases a1; simp
  obtain ⟨b1, b2, b3⟩ := C43 calls hc a2
  have hmap₂ := onceHistory_keeps calls _ (restOf w₁) hmap
  obtain ⟨c1, -, c3⟩ := C43_step c₂ h₂ b2
  rw [hn₂, onceStep_stored _ hmap₂] at c1 c3
  exact ⟨c1, c3⟩

/-! ### C44 -/

/-- C44, what is guaranteed: with overwrite_existing=False no existing file is changed, whatever
fails, except a file which has the time-stamped name already. -/
theorem C44_keeps {v : V} {name : Path} {env : SaveEnv} {w w' : World (Disk V τ)} {r : Py Unit}
    (h : pickleSave v name false env w = (r, w')) {p : Path} {c : Content V} (hp : w.rng.files p = some c)
    (hne : p ≠ stamped name env.time ∨ w.rng.files (name ++ ".pkl".toList) = none) :
    w'.rng.files p = some c := by
  have hs := pickleSave_stage h
  have hpt : p ≠ saveTarget w.rng name false env.time := by
    unfold saveTarget
    by_cases hf : (w.rng.files (name ++ ".pkl".toList)).isSome ∧ false = false
    · rw [if_pos hf]
      rcases hne with hne | hne
      · exact hne
      · rw [hne] at hf; simp at hf
    · rw [if_neg hf]
      rintro rfl
      rw [hp] at hf
      simp at hf
  rcases hs with hs | hs | hs | hs <;> rw [hs.2.2 p hpt, hp]

/-- C44, the data are saved: without faults they are in the file itself if there was none, and in
the file with the time-stamped name otherwise. -/
theorem C44_saves (v : V) (name : Path) {env : SaveEnv} (hf : env.fault = .none) (ht : '/' ∉ env.time)
    (w : World (Disk V τ)) :
    ∃ w', pickleSave v name false env w = (.ok (), w') ∧
      (w.rng.files (name ++ ".pkl".toList) = none → w'.rng.files (name ++ ".pkl".toList) = some (.saved v)) ∧
      (w.rng.files (name ++ ".pkl".toList) ≠ none → w'.rng.files (stamped name env.time) = some (.saved v)) := by
  obtain ⟨w', h1, -, h3⟩ := pickleSave_ok v name false hf ht w
  refine ⟨w', h1, ?_, ?_⟩
  · intro hn
    have := h3.2.1
    unfold saveTarget at this
    rw [if_neg (by rw [hn]; simp)] at this
    exact this
  · intro hn
    have := h3.2.1
    unfold saveTarget at this
    rw [if_pos ⟨Option.isSome_iff_ne_none.mpr hn, rfl⟩] at this
    exact this

/-- C44, the defect: another save in the same second overwrites the previous one, so that data
are lost. -/
theorem C44_collision (v : V) (name : Path) {env : SaveEnv} (hf : env.fault = .none) (ht : '/' ∉ env.time)
    {w : World (Disk V τ)} {c c' : Content V} (h : w.rng.files (name ++ ".pkl".toList) = some c)
    (h' : w.rng.files (stamped name env.time) = some c') (hne : c' ≠ .saved v) :
    ∃ w', pickleSave v name false env w = (.ok (), w') ∧
      w'.rng.files (stamped name env.time) ≠ w.rng.files (stamped name env.time) := by
  obtain ⟨w', h1, -, h3⟩ := C44_saves v name hf ht w
  refine ⟨w', h1, ?_⟩
  rw [h3 (by rw [h]; simp), h']
  exact fun hc => hne (Option.some.inj hc).symm

/-- Saves under one name with overwrite_existing=False, one after the other. -/
def saveAll (name : Path) : List (V × SaveEnv) → M (Disk V τ) Unit
  | [] => pure ()
  | x :: xs => do
    pickleSave x.1 name false x.2
    saveAll name xs

theorem stamped_ne (name time : Path) : stamped name time ≠ name ++ ".pkl".toList := by
  intro h
  have := congrArg List.length h
  simp [stamped] at this

theorem saveAll_keeps (name : Path) (xs : List (V × SaveEnv))
    (hf : ∀ x ∈ xs, x.2.fault = .none ∧ '/' ∉ x.2.time) (hd : (xs.map (fun x => stamped name x.2.time)).Nodup)
    (w : World (Disk V τ)) {c : Content V} (h : w.rng.files (name ++ ".pkl".toList) = some c) :
    ∃ w', saveAll name xs w = (.ok (), w') ∧
      (∀ p, p ∉ xs.map (fun x => stamped name x.2.time) → w'.rng.files p = w.rng.files p) ∧
      ∀ x ∈ xs, w'.rng.files (stamped name x.2.time) = some (.saved x.1) := by
  induction xs generalizing w with
  | nil => exact ⟨w, rfl, fun _ _ => rfl, by simp⟩
  | cons x xs ih =>
    rw [List.map_cons, List.nodup_cons] at hd
    obtain ⟨w₁, h1, -, h3⟩ := pickleSave_ok x.1 name false (hf x (by simp)).1 (hf x (by simp)).2 w
    have htar : saveTarget w.rng name false x.2.time = stamped name x.2.time := by
      unfold saveTarget
      rw [if_pos ⟨by rw [h]; rfl, rfl⟩]
    rw [htar] at h3
    obtain ⟨w₂, i1, i2, i3⟩ := ih (fun y hy => hf y (by simp [hy])) hd.2 w₁
      (by rw [h3.2.2 _ (stamped_ne name x.2.time).symm, h])
    refine ⟨w₂, by rw [saveAll, M.bind_ok h1, i1], ?_, ?_⟩
    · intro p hp
      rw [List.map_cons, List.mem_cons, not_or] at hp
      rw [i2 p hp.2, h3.2.2 p hp.1]
    · intro y hy
      rcases List.mem_cons.mp hy with rfl | hy
      · rw [i2 _ hd.1, h3.2.1]
      · exact i3 y hy

/-- C44, several saves: if the times at which they are made are different, then nothing is
lost: the first one is in the file itself, the others in files of their own, and the other files
are as before. -/
theorem C44_history (name : Path) (x : V × SaveEnv) (xs : List (V × SaveEnv))
    (hf : ∀ y ∈ x :: xs, y.2.fault = .none ∧ '/' ∉ y.2.time) (hd : (xs.map (fun y => stamped name y.2.time)).Nodup)
    (w : World (Disk V τ)) (h : w.rng.files (name ++ ".pkl".toList) = none) :
    ∃ w', saveAll name (x :: xs) w = (.ok (), w') ∧
      w'.rng.files (name ++ ".pkl".toList) = some (.saved x.1) ∧
      (∀ y ∈ xs, w'.rng.files (stamped name y.2.time) = some (.saved y.1)) ∧
      ∀ p, p ≠ name ++ ".pkl".toList → p ∉ xs.map (fun y => stamped name y.2.time) →
        w'.rng.files p = w.rng.files p := by
  obtain ⟨w₁, h1, -, h3⟩ := pickleSave_ok x.1 name false (hf x (by simp)).1 (hf x (by simp)).2 w
  have htar : saveTarget w.rng name false x.2.time = name ++ ".pkl".toList := by
    unfold saveTarget
    rw [if_neg (by rw [h]; simp)]
  rw [htar] at h3
  obtain ⟨w₂, i1, i2, i3⟩ := saveAll_keeps name xs (fun y hy => hf y (by simp [hy])) hd w₁ h3.2.1
  refine ⟨w₂, by rw [saveAll, M.bind_ok h1, i1], ?_, i3, ?_⟩
  · rw [i2, h3.2.1]
    intro hc
    obtain ⟨y, -, hy⟩ := List.mem_map.mp hc
    exact stamped_ne _ _ hy
  · intro p hp hp'
    rw [i2 p hp', h3.2.2 p hp]

/-! ### C45 -/

/-- Where a call can be interrupted by a crash of the process while it saves `v`: the disk is
that of one of the stages of the save. -/
def Spec.Crashed (w w' : World (Disk V τ)) (v : V) (name : Path) (time : Path) (overwrite : Bool) : Prop :=
  SaveStage w.rng w'.rng (saveTarget w.rng name overwrite time) v

/-- Every save that ends in whatever way leaves one of those disks. -/
theorem crashed_of_save {v : V} {name : Path} {overwrite : Bool} {env : SaveEnv} {w w' : World (Disk V τ)}
    {r : Py Unit} (h : pickleSave v name overwrite env w = (r, w')) : Crashed w w' v name env.time overwrite :=
  pickleSave_stage h

/-- C45, a failed or interrupted save never leads to a wrong result: after a save of `v` which
failed, was interrupted at any point or was completed, a call which loads (with a readable disk)
returns the value that was stored before the save, or `v`, or it calls the function, or it raises
EOFError or UnpicklingError. -/
theorem C45_safe {v : V} {name : Path} {overwrite : Bool} {time : Path} {w w' : World (Disk V τ)}
    (h : Crashed w w' v name time overwrite) (func : M (Disk V τ) V) (o : CacheOpts) (ho : o.saveName = some name)
    (hl : o.load.getD true = true) (env : CallEnv) (hu : env.unreadable = false) :
    (∃ u, w.rng.files (name ++ ".pkl".toList) = some (.saved u) ∧ saveLoad func o env w' = (.ok u, w')) ∨
    saveLoad func o env w' = (.ok v, w') ∨
    ((w.rng.files (name ++ ".pkl".toList) = none ∧ w'.rng.files (name ++ ".pkl".toList) = none) ∧
      (tryLoad o env w' : Py (Option V) × _) =
        (.ok none, ⟨w'.rng, w'.warns ++ if o.warnIfError then [.loadFailed] else []⟩)) ∨
    (w'.rng.files (name ++ ".pkl".toList) = some .empty ∧ saveLoad func o env w' = (.error .eof, w')) ∨
    (w'.rng.files (name ++ ".pkl".toList) = some .truncated ∧ saveLoad func o env w' = (.error .unpickling, w')) := by
  obtain ⟨t1, t2, t3, t4⟩ := tryLoad_some (V := V) name env o ho hl w'
  have hcases : w'.rng.files (name ++ ".pkl".toList) = w.rng.files (name ++ ".pkl".toList) ∨
      w'.rng.files (name ++ ".pkl".toList) = some .empty ∨ w'.rng.files (name ++ ".pkl".toList) = some .truncated ∨
      w'.rng.files (name ++ ".pkl".toList) = some (.saved v) := by
    by_cases hp : name ++ ".pkl".toList = saveTarget w.rng name overwrite time
    · unfold Crashed SaveStage at h
      rw [← hp] at h
      rcases h with h | h | h | h
      · exact Or.inl h.2.1
      · exact Or.inr (Or.inl h.2.1)
      · exact Or.inr (Or.inr (Or.inl h.2.1))
      · exact Or.inr (Or.inr (Or.inr h.2.1))
    · left
      rcases h with h | h | h | h <;> exact h.2.2 _ hp
  rcases hcases with hc | hc | hc | hc
  · cases hw : w.rng.files (name ++ ".pkl".toList) with
    | none =>
      rw [hw] at hc
      exact Or.inr (Or.inr (Or.inl ⟨⟨rfl, hc⟩, t4 (Or.inr hc)⟩))
    | some c =>
      rw [hw] at hc
      cases c with
      | saved u => exact Or.inl ⟨u, rfl, saveLoad_loaded (t1 u hu hc)⟩
      | empty => exact Or.inr (Or.inr (Or.inr (Or.inl ⟨hc, saveLoad_unloadable (t2 hu hc)⟩)))
      | truncated => exact Or.inr (Or.inr (Or.inr (Or.inr ⟨hc, saveLoad_unloadable (t3 hu hc)⟩)))
  · exact Or.inr (Or.inr (Or.inr (Or.inl ⟨hc, saveLoad_unloadable (t2 hu hc)⟩)))
  · exact Or.inr (Or.inr (Or.inr (Or.inr ⟨hc, saveLoad_unloadable (t3 hu hc)⟩)))
  · exact Or.inr (Or.inl (saveLoad_loaded (t1 v hu hc)))

/-- C45, if the file cannot be opened for writing, the result is returned with a warning, and no
file is changed. -/
theorem C45_opening (v : V) (name : Path) (overwrite : Bool) {env : SaveEnv} (hf : env.fault = .opening)
    (w : World (Disk V τ)) :
    ∃ w', pickleSave v name overwrite env w = (.ok (), w') ∧ w'.warns = w.warns ++ [.saveFailed] ∧
      w'.rng.files = w.rng.files ∧ w'.rng.rest = w.rng.rest := by
  rcases pickleSave_cases v name overwrite env w with ⟨hm, -⟩ | ⟨w₁, h1, h2, h3, -, hc⟩
  · rw [hf] at hm; cases hm
  · refine ⟨⟨w₁.rng, w₁.warns ++ [.saveFailed]⟩, ?_, by rw [h3], h2, h1⟩
    rw [hc]
    unfold handledWrite
    rw [M.tryExcept_handled (e := .os) (w' := w₁) _ rfl]
    · rfl
    · unfold writePickle
      rw [M.bind_ok (M.getState_apply _), if_pos (Or.inl hf), M.bind_error (M.raise_apply _ _)]

/-- C45, the defect: if memory or disk space run out while the result is pickled, the caller gets
the result and a warning, but the incomplete file stays, and every later call which loads raises
EOFError or UnpicklingError instead of calling the function, however often it is repeated. -/
theorem C45_poisoned (v : V) (name : Path) {env : SaveEnv} {e : PyErr} {part : Bool} (hf : env.fault = .dump e part)
    (he : e = .memory ∨ e = .os) (w : World (Disk V τ)) :
    ∃ w', pickleSave v name true env w = (.ok (), w') ∧ w'.warns = w.warns ++ [.saveFailed] ∧
      ∀ (func : M (Disk V τ) V) (o : CacheOpts) (env' : CallEnv), o.saveName = some name → o.load.getD true = true →
        env'.unreadable = false →
        saveLoad func o env' w' = (.error (if part then .unpickling else .eof), w') := by
  rcases pickleSave_cases v name true env w with ⟨hm, -⟩ | ⟨w₁, h1, h2, h3, h4, hc⟩
  · rw [hf] at hm; cases hm
  · have htar : saveTarget w.rng name true env.time = name ++ ".pkl".toList := by simp [saveTarget]
    rw [htar] at hc
    have hopen : ¬ (env.fault = .opening ∨ (w₁.rng.dirs (dirname (name ++ ".pkl".toList)) = false ∧
        dirname (name ++ ".pkl".toList) ≠ [])) := by
      rw [hf]
      rintro (h | ⟨h, hne⟩)
      · cases h
      · rw [h4 hne] at h; cases h
    refine ⟨⟨w₁.rng.write (name ++ ".pkl".toList) (leftover part), w₁.warns ++ [.saveFailed]⟩, ?_, by rw [h3], ?_⟩
    · rw [hc]
      unfold handledWrite
      rw [M.tryExcept_handled (e := e) (w' := ⟨w₁.rng.write (name ++ ".pkl".toList) (leftover part), w₁.warns⟩) _
        (by rcases he with rfl | rfl <;> rfl)]
      · rfl
      · unfold writePickle
        rw [M.bind_ok (M.getState_apply _), if_neg hopen, hf]
        rfl
    · intro func o env' ho hl hu
      obtain ⟨-, t2, t3, -⟩ := tryLoad_some (V := V) name env' o ho hl
        ⟨w₁.rng.write (name ++ ".pkl".toList) (leftover part), w₁.warns ++ [.saveFailed]⟩
      cases part with
      | false => exact saveLoad_unloadable (t2 hu (by simp [Disk.write, leftover]))
      | true => exact saveLoad_unloadable (t3 hu (by simp [Disk.write, leftover]))

/-- C45, another defect: if a directory has to be made and cannot, the OSError is not caught and
the result is lost. -/
theorem C45_mkdir (func : M (Disk V τ) V) (name : Path) {env : CallEnv} (hf : env.saving.fault = .mkdir)
    {v : V} {w w₁ : World (Disk V τ)} (hno : w.rng.files (name ++ ".pkl".toList) = none)
    (hv : func w = (.ok v, w₁)) (hd : w₁.rng.dirs (dirname (name ++ ".pkl".toList)) = false)
    (hne : dirname (name ++ ".pkl".toList) ≠ []) :
    saveLoad func { saveName := some name } env w = (.error .os, w₁) := by
  obtain ⟨-, -, -, t4⟩ := tryLoad_some (V := V) name env { saveName := some name } rfl rfl w
  have t4' := t4 (Or.inr hno)
  simp only [Bool.false_eq_true, if_false, List.append_nil] at t4'
  obtain ⟨-, -, s3⟩ := saveLoad_call (func := func) t4'
  refine s3 v w₁ .os w₁ hv ?_
  show pickleSave v name true env.saving w₁ = _
  have hm : (makeDirs (dirname (name ++ ".pkl".toList)) env.saving.fault : M (Disk V τ) Unit) w₁ =
      (.error .os, w₁) := by
    unfold makeDirs
    rw [if_pos hf, M.bind_error (M.raise_apply _ _)]
  unfold pickleSave
  rw [M.bind_ok (M.getState_apply _), if_pos ⟨hd, hne⟩, M.bind_error hm]

/-- C45, the way out: a faultless call with load=False calls the function, returns its result
and repairs the file, so that later calls load it. -/
theorem C45_repair (c : DefaultCall V τ) (hc : c.Faultless) (name : Path) {v : V} {w : World (Disk V τ)}
    {w₁ : World τ} (hv : c.func (restOf w) = (.ok v, w₁)) :
    ∃ w', saveLoad (onRest c.func) { saveName := some name, load := some false } c.env w = (.ok v, w') ∧
      restOf w' = w₁ ∧
      ∀ (func : M (Disk V τ) V) (env' : CallEnv), env'.unreadable = false →
        saveLoad func { saveName := some name } env' w' = (.ok v, w') := by
  obtain ⟨-, s2, -⟩ := saveLoad_call (func := onRest c.func) (o := { saveName := some name, load := some false })
    (env := c.env) (w := w) (w' := w) rfl
  obtain ⟨w₂, a, b, d⟩ := pickleSave_ok v name true hc.2.1 hc.2.2 ⟨{ w.rng with rest := w₁.rng }, w₁.warns⟩
  refine ⟨w₂, s2 v _ w₂ (onRest_apply c.func w hv) a, ?_, ?_⟩
  · simp only [restOf, b, d.1]
  · intro func env' hu
    have htar : saveTarget (V := V) (τ := τ) { w.rng with rest := w₁.rng } name true c.env.saving.time =
        name ++ ".pkl".toList := by simp [saveTarget]
    rw [htar] at d
    exact saveLoad_loaded ((tryLoad_some (V := V) name env' { saveName := some name } rfl rfl w₂).1 v hu d.2.1)

theorem dirname_length (p : Path) : dirname p = p ∨ (dirname p).length < p.length := by
  have h1 : ∀ (q : Char → Bool) (l : Path), (l.reverse.dropWhile q).reverse.length ≤ l.length := by
    intro q l
    rw [List.length_reverse]
    exact (List.dropWhile_suffix _).sublist.length_le.trans (by simp)
  by_cases hl : (p.reverse.dropWhile (· ≠ '/')).reverse.length < p.length
  · right
    unfold dirname
    dsimp only
    split
    · exact hl
    · exact lt_of_le_of_lt (h1 _ _) hl
  · have he : (p.reverse.dropWhile (· ≠ '/')).reverse = p := by
      have hs : p.reverse.dropWhile (· ≠ '/') <:+ p.reverse := List.dropWhile_suffix _
      have := hs.eq_of_length_le (by rw [List.length_reverse] at hl ⊢; omega)
      rw [this, List.reverse_reverse]
    unfold dirname
    dsimp only
    rw [he]
    split
    · exact Or.inl rfl
    · by_cases h2 : (p.reverse.dropWhile (· = '/')).reverse.length < p.length
      · exact Or.inr h2
      · left
        have hs : p.reverse.dropWhile (· = '/') <:+ p.reverse := List.dropWhile_suffix _
        have := hs.eq_of_length_le (by rw [List.length_reverse] at h2 ⊢; omega)
        rw [this, List.reverse_reverse]

theorem dirname_nil : dirname [] = [] := by decide

/-- C43: the directory of a path is what comes before the slashes in front of the last part, or these slashes if nothing does;
every path is of one of the two forms. -/
theorem C43_dirname {base : Path} (hb : '/' ∉ base) (k : Nat) :
    dirname (List.replicate k '/' ++ base) = List.replicate k '/' ∧
    (∀ (dir : Path) (c : Char), c ≠ '/' → 1 ≤ k → dirname (dir ++ c :: (List.replicate k '/' ++ base)) = dir ++ [c]) := by
  have hhead : ∀ q : Path, ((q ++ base).reverse.dropWhile (· ≠ '/')) = q.reverse.dropWhile (· ≠ '/') := by
    intro q
    rw [List.reverse_append, List.dropWhile_append_of_pos]
    intro c hc
    have : c ≠ '/' := by rintro rfl; exact hb (List.mem_reverse.mp hc)
    simpa using this
  have hrep : ∀ q : Path, 1 ≤ k → (q ++ List.replicate k '/').reverse.dropWhile (· ≠ '/') =
      (q ++ List.replicate k '/').reverse := by
    intro q hk
    obtain ⟨k, rfl⟩ : ∃ j, k = j + 1 := ⟨k - 1, by omega⟩
    rw [List.reverse_append, List.reverse_replicate, List.replicate_succ, List.cons_append, List.dropWhile_cons_of_neg (by simp)]
  constructor
  · unfold dirname
    rw [hhead]
    rcases Nat.eq_zero_or_pos k with rfl | hk
    · rfl
    · have := hrep [] hk
      rw [List.nil_append] at this
      rw [this, List.reverse_reverse]
      simp
  · intro dir c hc hk
    have e : dir ++ c :: (List.replicate k '/' ++ base) = ((dir ++ [c]) ++ List.replicate k '/') ++ base := by simp
    unfold dirname
    rw [e, hhead, hrep _ hk, List.reverse_reverse]
    have hall : ((dir ++ [c]) ++ List.replicate k '/').all (· = '/') = false := by
      simp [hc]
    simp only [hall, Bool.false_eq_true, if_false]
    rw [List.reverse_append, List.dropWhile_append_of_pos (by simp)]
    rw [List.reverse_append, List.reverse_singleton, List.singleton_append, List.dropWhile_cons_of_neg (by simpa using hc)]
    simp

theorem mem_ancestors {n k : Nat} {p q : Path} (hn : p.length ≤ n) (hq : q = dirname^[k] p) (h0 : q ≠ []) :
    q ∈ ancestors n p := by
  have hnil : ∀ k, dirname^[k] [] = [] := by
    intro k
    induction k with
    | zero => rfl
    | succ k ih => rw [Function.iterate_succ_apply, dirname_nil, ih]
  have hp0 : p ≠ [] := by
    rintro rfl
    exact h0 (hq.trans (hnil k))
  induction n generalizing p k with
  | zero => exact absurd (List.length_eq_zero_iff.mp (by omega)) hp0
  | succ n ih =>
    rw [ancestors, if_neg hp0]
    rcases dirname_length p with h | h
    · have : q = p := by
        rw [hq]
        clear hq
        induction k with
        | zero => rfl
        | succ k ih' => rw [Function.iterate_succ_apply, h, ih']
      rw [this]; exact List.mem_cons_self
    · cases k with
      | zero => rw [hq]; exact List.mem_cons_self
      | succ k =>
        rw [Function.iterate_succ_apply] at hq
        by_cases hd : dirname p = []
        · rw [hd, hnil] at hq; exact absurd hq h0
        · exact List.mem_cons_of_mem _ (ih (by omega) hq hd)

theorem handledWrite_dirs (v : V) (target : Path) (fault : Fault) (w : World (Disk V τ)) :
    (handledWrite v target fault w).2.rng.dirs = w.rng.dirs := by
  have h : (writePickle v target fault w).2.rng.dirs = w.rng.dirs := by
    unfold writePickle
    rw [M.bind_ok (M.getState_apply w)]
    by_cases hf : fault = .opening ∨ (w.rng.dirs (dirname target) = false ∧ dirname target ≠ [])
    · rw [if_pos hf, M.bind_error (M.raise_apply _ _)]
    · rw [if_neg hf]
      cases fault with
      | none => rfl
      | mkdir => rfl
      | opening => exact absurd (Or.inl rfl) hf
      | dump e part => rfl
      | closing part => rfl
  unfold handledWrite M.tryExcept
  rcases hx : writePickle v target fault w with ⟨_ | _, w'⟩
  · rw [hx] at h
    dsimp only
    split <;> exact h
  · rw [hx] at h; exact h

/-- C43, directories: unless making them fails, saving makes the directory of the file and all those which contain
it, whatever happens afterwards; directories are never removed. -/
theorem C43_dirs (v : V) (name : Path) (overwrite : Bool) {env : SaveEnv} (w : World (Disk V τ)) :
    (∀ p, w.rng.dirs p = true → (pickleSave v name overwrite env w).2.rng.dirs p = true) ∧
    (env.fault ≠ .mkdir → w.rng.dirs (dirname (name ++ ".pkl".toList)) = false →
      ∀ k p, p = dirname^[k] (dirname (name ++ ".pkl".toList)) → p ≠ [] →
        (pickleSave v name overwrite env w).2.rng.dirs p = true) := by
  have second : ∀ w₀ : World (Disk V τ),
      ((if (w.rng.files (name ++ ".pkl".toList)).isSome ∧ overwrite = false then do
        printLine (name ++ ".pkl".toList ++ " already exists! Saving with time appended".toList)
        handledWrite v (stamped name env.time) env.fault
      else handledWrite v (name ++ ".pkl".toList) env.fault) w₀).2.rng.dirs = w₀.rng.dirs := by
    intro w₀
    split
    · exact handledWrite_dirs ..
    · exact handledWrite_dirs ..
  by_cases hd : w.rng.dirs (dirname (name ++ ".pkl".toList)) = false ∧ dirname (name ++ ".pkl".toList) ≠ []
  · by_cases hf : env.fault = .mkdir
    · have e : (pickleSave v name overwrite env w).2 = w := by
        unfold pickleSave
        rw [M.bind_ok (M.getState_apply _), if_pos hd, M.bind_error (w' := w) (e := .os) (by
          unfold makeDirs
          rw [if_pos hf, M.bind_error (M.raise_apply _ _)])]
      rw [e]
      exact ⟨fun _ h => h, fun h => absurd hf h⟩
    · have e : (pickleSave v name overwrite env w).2.rng.dirs = fun p => w.rng.dirs p ||
          decide (p ∈ ancestors (dirname (name ++ ".pkl".toList)).length (dirname (name ++ ".pkl".toList))) := by
        unfold pickleSave
        rw [M.bind_ok (M.getState_apply _), if_pos hd, M.bind_ok (a := ()) (w' := ⟨{ w.rng with
          dirs := fun p => w.rng.dirs p ||
          decide (p ∈ ancestors (dirname (name ++ ".pkl".toList)).length (dirname (name ++ ".pkl".toList))) },
          w.warns⟩) (by unfold makeDirs; rw [if_neg hf]; rfl)]
        exact second _
      rw [e]
      refine ⟨fun p h => by simp [h], fun _ _ k p hp h0 => ?_⟩
      rw [Bool.or_eq_true, decide_eq_true_eq]
      exact Or.inr (mem_ancestors (le_refl _) hp h0)
  · have e : (pickleSave v name overwrite env w).2.rng.dirs = w.rng.dirs := by
      unfold pickleSave
      rw [M.bind_ok (M.getState_apply _), if_neg hd]
      exact second w
    rw [e]
    refine ⟨fun _ h => h, fun _ h1 k p hp h0 => ?_⟩
    have : dirname (name ++ ".pkl".toList) = [] := by
      by_contra h2
      exact hd ⟨h1, h2⟩
    rw [this] at hp
    exfalso
    apply h0
    rw [hp]
    clear hp
    induction k with
    | zero => rfl
    | succ k ih => rw [Function.iterate_succ_apply, dirname_nil, ih]

/-! ### Examples -/

/-- The directories which contain "a/b/c.pkl". -/
example : dirname^[0] (dirname "a/b/c.pkl".toList) = "a/b".toList ∧
    dirname^[1] (dirname "a/b/c.pkl".toList) = "a".toList := by decide

/-- An empty disk with one directory, and a function that counts its calls. -/
def exDisk : World (Disk Nat Nat) := ⟨⟨fun _ => none, fun p => p == "cache".toList, [], 0⟩, []⟩

def exFunc (x : Nat) : M Nat Nat := fun w =>
  if x = 0 then (.error .value, { w with rng := w.rng + 1 }) else (.ok (x * x), { w with rng := w.rng + 1 })

def exEnv (t : String) (f : Fault) : CallEnv := ⟨false, ⟨t.toList, f⟩⟩

def exCall (x : Nat) (name : Option String) : DefaultCall Nat Nat :=
  ⟨exFunc x, name.map String.toList, exEnv "Mon Nov 16 03:00:00 2026" .none⟩

/-- The second call fails and stores nothing, the fourth and fifth load what the third stored. -/
example : (history [exCall 3 none, exCall 0 (some "cache/a"), exCall 4 (some "cache/a"), exCall 5 (some "cache/a"),
    exCall 0 (some "cache/a"), exCall 6 (some "new/dir/b")] exDisk).1 =
    [.ok 9, .error .value, .ok 16, .ok 16, .ok 16, .ok 36] ∧
    (history [exCall 3 none, exCall 0 (some "cache/a"), exCall 4 (some "cache/a"), exCall 5 (some "cache/a"),
    exCall 0 (some "cache/a"), exCall 6 (some "new/dir/b")] exDisk).2.rng.rest = 4 := by decide

example : ∀ c ∈ [exCall 3 none, exCall 0 (some "cache/a"), exCall 4 (some "cache/a")], c.Faultless := by
  intro c hc
  simp only [List.mem_cons, List.not_mem_nil, or_false] at hc
  rcases hc with rfl | rfl | rfl <;> exact ⟨rfl, rfl, by decide⟩

example : Holds exDisk.rng (fun _ => none) := fun _ => rfl

example : dirname "new/dir/b.pkl".toList = "new/dir".toList ∧ dirname "/b.pkl".toList = "/".toList ∧
    dirname "b.pkl".toList = [] ∧ ancestors 7 "new/dir".toList = ["new/dir".toList, "new".toList] := by decide

/-- Three saves in the same second: the second one is lost. -/
example :
    let t : SaveEnv := ⟨"Mon Nov 16 03:00:00 2026".toList, .none⟩
    let w := (saveAll "cache/a".toList [(1, t), (2, t), (3, t)] exDisk).2
    w.rng.files "cache/a.pkl".toList = some (.saved 1) ∧
    w.rng.files "cache/a_Mon_Nov_16_03:00:00_2026.pkl".toList = some (.saved 3) := by decide

/-- A save that runs out of memory poisons the cache. -/
example :
    let w := (saveLoad (onRest (exFunc 3)) { saveName := some "cache/a".toList } (exEnv "" (.dump .memory true)) exDisk)
    w.1 = .ok 9 ∧ w.2.warns = [.saveFailed] ∧
    (saveLoad (onRest (exFunc 3)) { saveName := some "cache/a".toList } (exEnv "" .none) w.2).1 =
      .error .unpickling := by decide

end Nestcheck
