import Verif.Model.CacheExt
import Verif.Props.Cache

/-
C116: pickle_save and pickle_load with any extension.
-/

namespace Nestcheck
open Spec
variable {V τ : Type}

/-- The file that `pickle_save` writes to. -/
def Spec.saveTargetExt (d : Disk V τ) (name ext : Path) (overwrite : Bool) (time : Path) : Path :=
  if (d.files (name ++ ext)).isSome ∧ overwrite = false then stampedExt name time ext else name ++ ext

/-- C116.  The default extension is '.pkl'. -/
theorem C116_default (v : V) (name : Path) (overwrite unreadable : Bool) (env : SaveEnv) (w : World (Disk V τ)) :
    pickleSaveExt v name ".pkl".toList overwrite env w = pickleSave v name overwrite env w ∧
    (pickleLoadExt name ".pkl".toList unreadable w : Py V × _) = pickleLoad name unreadable w := ⟨rfl, rfl⟩

/-- `pickle_save` in terms of the two parts: what precedes the writing does not change files or
fails, and then the target is written. -/
theorem pickleSaveExt_cases (v : V) (name ext : Path) (overwrite : Bool) (env : SaveEnv) (w : World (Disk V τ)) :
    (env.fault = .mkdir ∧ w.rng.dirs (dirname (name ++ ext)) = false ∧
      dirname (name ++ ext) ≠ [] ∧ pickleSaveExt v name ext overwrite env w = (.error .os, w)) ∨
    ∃ w₁ : World (Disk V τ), w₁.rng.rest = w.rng.rest ∧ w₁.rng.files = w.rng.files ∧ w₁.warns = w.warns ∧
      (dirname (name ++ ext) ≠ [] → w₁.rng.dirs (dirname (name ++ ext)) = true) ∧
      pickleSaveExt v name ext overwrite env w =
        handledWrite v (saveTargetExt w.rng name ext overwrite env.time) env.fault w₁ := by
  have second : ∀ w₀ : World (Disk V τ), w₀.rng.rest = w.rng.rest → w₀.rng.files = w.rng.files →
      w₀.warns = w.warns →
      (dirname (name ++ ext) ≠ [] → w₀.rng.dirs (dirname (name ++ ext)) = true) →
      ∃ w₁ : World (Disk V τ), w₁.rng.rest = w.rng.rest ∧ w₁.rng.files = w.rng.files ∧ w₁.warns = w.warns ∧
      (dirname (name ++ ext) ≠ [] → w₁.rng.dirs (dirname (name ++ ext)) = true) ∧
      (if (w.rng.files (name ++ ext)).isSome ∧ overwrite = false then do
        printLine (name ++ ext ++ " already exists! Saving with time appended".toList)
        handledWrite v (stampedExt name env.time ext) env.fault
      else handledWrite v (name ++ ext) env.fault) w₀ =
        handledWrite v (saveTargetExt w.rng name ext overwrite env.time) env.fault w₁ := by
    intro w₀ h1 h2 h3 h4
    unfold saveTargetExt
    by_cases hc : (w.rng.files (name ++ ext)).isSome ∧ overwrite = false
    · rw [if_pos hc, if_pos hc]
      exact ⟨⟨{ w₀.rng with out := w₀.rng.out ++
        [name ++ ext ++ " already exists! Saving with time appended".toList] }, w₀.warns⟩, h1, h2, h3, h4, rfl⟩
    · rw [if_neg hc, if_neg hc]
      exact ⟨w₀, h1, h2, h3, h4, rfl⟩
  by_cases hd : w.rng.dirs (dirname (name ++ ext)) = false ∧ dirname (name ++ ext) ≠ []
  · rcases hm : makeDirs (dirname (name ++ ext)) env.fault w with ⟨r, w₀⟩
    obtain ⟨h1, h2, h3, ⟨hf, rfl, rfl⟩ | ⟨hf, rfl, h4⟩⟩ := makeDirs_apply hm
    · left
      refine ⟨hf, hd.1, hd.2, ?_⟩
      unfold pickleSaveExt
      rw [M.bind_ok (M.getState_apply _), if_pos hd, M.bind_error hm]
    · right
      obtain ⟨w₁, a, b, c, d, e⟩ := second w₀ h1 h2 h3 h4
      refine ⟨w₁, a, b, c, d, ?_⟩
      rw [← e]
      unfold pickleSaveExt
      rw [M.bind_ok (M.getState_apply _), if_pos hd, M.bind_ok hm]
      rfl
  · right
    obtain ⟨w₁, a, b, c, d, e⟩ := second w rfl rfl rfl (fun hne => by
      by_contra hx
      exact hd ⟨by simpa using hx, hne⟩)
    refine ⟨w₁, a, b, c, d, ?_⟩
    rw [← e]
    unfold pickleSaveExt
    rw [M.bind_ok (M.getState_apply _), if_neg hd]
    rfl

/-- C116.  Whatever fails, `pickle_save` changes no file but the one it writes to. -/
theorem C116_untouched {v : V} {name ext : Path} {overwrite : Bool} {env : SaveEnv} {w w' : World (Disk V τ)}
    {r : Py Unit} (h : pickleSaveExt v name ext overwrite env w = (r, w')) :
    SaveStage w.rng w'.rng (saveTargetExt w.rng name ext overwrite env.time) v := by
  rcases pickleSaveExt_cases v name ext overwrite env w with ⟨-, -, -, hc⟩ | ⟨w₁, h1, h2, -, -, hc⟩
  · rw [hc] at h
    cases h
    exact Or.inl (touches_self _ _)
  · rw [hc] at h
    exact saveStage_of_files h1 h2 (handledWrite_stage h)

/-- A save without faults into a directory which exists after line 125. -/
theorem pickleSaveExt_ok (v : V) (name ext : Path) (overwrite : Bool) {env : SaveEnv} (hf : env.fault = .none)
    (w : World (Disk V τ))
    (hd : dirname (saveTargetExt w.rng name ext overwrite env.time) = dirname (name ++ ext)) :
    ∃ w' : World (Disk V τ), pickleSaveExt v name ext overwrite env w = (.ok (), w') ∧ w'.warns = w.warns ∧
      Touches w.rng w'.rng (saveTargetExt w.rng name ext overwrite env.time) (some (.saved v)) := by
  rcases pickleSaveExt_cases v name ext overwrite env w with ⟨hm, -⟩ | ⟨w₁, h1, h2, h3, h4, hc⟩
  · rw [hf] at hm; cases hm
  · have hopen : ¬ (env.fault = .opening ∨ (w₁.rng.dirs (dirname (saveTargetExt w.rng name ext overwrite env.time)) = false ∧
        dirname (saveTargetExt w.rng name ext overwrite env.time) ≠ [])) := by
      rw [hf, hd]
      rintro (h | ⟨h, hne⟩)
      · cases h
      · rw [h4 hne] at h; cases h
    refine ⟨⟨w₁.rng.write (saveTargetExt w.rng name ext overwrite env.time) (.saved v), w₁.warns⟩, ?_, h3,
      touches_of_files h1 h2 (touches_write _ _ _)⟩
    rw [hc]
    unfold handledWrite
    apply M.tryExcept_ok
    unfold writePickle
    rw [M.bind_ok (M.getState_apply _), if_neg hopen, hf]
    rfl

theorem pickleLoadExt_saved {name ext : Path} {w : World (Disk V τ)} {v : V}
    (h : w.rng.files (name ++ ext) = some (.saved v)) : pickleLoadExt name ext false w = (.ok v, w) := by
  unfold pickleLoadExt
  rw [M.bind_ok (M.getState_apply w), if_neg (by simp), h]
  rfl

theorem pickleLoadExt_congr {name ext : Path} {w w' : World (Disk V τ)} (unreadable : Bool)
    (h : w'.rng.files (name ++ ext) = w.rng.files (name ++ ext)) :
    (pickleLoadExt name ext unreadable w' : Py V × _).1 = (pickleLoadExt name ext unreadable w).1 := by
  unfold pickleLoadExt
  rw [M.bind_ok (M.getState_apply w), M.bind_ok (M.getState_apply w'), h]
  cases unreadable
  · rcases w.rng.files (name ++ ext) with _ | c
    · rfl
    · cases c <;> rfl
  · rfl

/-- C116.  What is saved with an extension is loaded again, by whatever name and extension make up the same file name, if
the file is new or overwritten; and what is loaded from all other files is as before.  There are no warnings. -/
theorem C116_round_trip (v : V) (name ext : Path) {overwrite : Bool} {env : SaveEnv} (hf : env.fault = .none)
    (w : World (Disk V τ)) (ho : overwrite = true ∨ w.rng.files (name ++ ext) = none) :
    ∃ w' : World (Disk V τ), pickleSaveExt v name ext overwrite env w = (.ok (), w') ∧ w'.warns = w.warns ∧
      (∀ name' ext', name' ++ ext' = name ++ ext → pickleLoadExt name' ext' false w' = (.ok v, w')) ∧
      ∀ name' ext' unreadable, name' ++ ext' ≠ name ++ ext →
        (pickleLoadExt name' ext' unreadable w' : Py V × _).1 = (pickleLoadExt name' ext' unreadable w).1 := by
  have ht : saveTargetExt w.rng name ext overwrite env.time = name ++ ext := by
    unfold saveTargetExt
    rw [if_neg]
    rintro ⟨h1, h2⟩
    rcases ho with ho | ho
    · rw [ho] at h2; cases h2
    · rw [ho] at h1; simp at h1
  obtain ⟨w', h1, h2, -, h3, h4⟩ := pickleSaveExt_ok v name ext overwrite hf w (by rw [ht])
  rw [ht] at h3 h4
  exact ⟨w', h1, h2, fun n e he => pickleLoadExt_saved (by rw [he]; exact h3),
    fun n e u hne => pickleLoadExt_congr u (h4 _ hne)⟩

theorem stampedExt_ne (name time ext : Path) : stampedExt name time ext ≠ name ++ ext := by
  intro h
  have := congrArg List.length h
  simp [stampedExt] at this
  omega

/-- C116.  With overwrite_existing=False and an existing file, that file is kept, and the value can be loaded with the time
appended to the name and the same extension - if the extension contains no slash. -/
theorem C116_keeps (v : V) (name : Path) {ext : Path} (hx : '/' ∉ ext) {env : SaveEnv} (hf : env.fault = .none)
    (ht : '/' ∉ env.time) (w : World (Disk V τ)) (he : w.rng.files (name ++ ext) ≠ none) :
    ∃ w' : World (Disk V τ), pickleSaveExt v name ext false env w = (.ok (), w') ∧ w'.warns = w.warns ∧
      (∀ unreadable, (pickleLoadExt name ext unreadable w' : Py V × _).1 = (pickleLoadExt name ext unreadable w).1) ∧
      pickleLoadExt (name ++ '_' :: env.time.map (fun c => if c = ' ' then '_' else c)) ext false w' = (.ok v, w') := by
  have htar : saveTargetExt w.rng name ext false env.time = stampedExt name env.time ext := by
    unfold saveTargetExt
    rw [if_pos ⟨Option.isSome_iff_ne_none.mpr he, rfl⟩]
  obtain ⟨w', h1, h2, -, h3, h4⟩ := pickleSaveExt_ok v name ext false hf w (by
    rw [htar, dirname_append hx name]
    unfold stampedExt
    rw [List.append_assoc, dirname_append]
    intro hc
    rw [List.cons_append, List.mem_cons, List.mem_append, List.mem_map] at hc
    rcases hc with hc | ⟨c, hc, he⟩ | hc
    · exact absurd hc (by decide)
    · by_cases h : c = ' '
      · rw [if_pos h] at he; exact absurd he (by decide)
      · rw [if_neg h] at he; subst he; exact ht hc
    · exact hx hc)
  rw [htar] at h3 h4
  exact ⟨w', h1, h2, fun u => pickleLoadExt_congr u (h4 _ (stampedExt_ne _ _ _).symm), pickleLoadExt_saved h3⟩

/-- C116: without that condition.  Only the directory of the original file name is made.  If the directory of the name with
the time appended is another one (the extension contains a slash) and does not exist, nothing is saved: there is a warning,
but no exception, although nothing failed. -/
theorem C116_lost (v : V) (name ext : Path) {env : SaveEnv} (hf : env.fault = .none) (w : World (Disk V τ))
    (he : w.rng.files (name ++ ext) ≠ none) (hx : w.rng.dirs (dirname (name ++ ext)) = true)
    (hd : w.rng.dirs (dirname (stampedExt name env.time ext)) = false) (hne : dirname (stampedExt name env.time ext) ≠ []) :
    ∃ w' : World (Disk V τ), pickleSaveExt v name ext false env w = (.ok (), w') ∧ w'.rng.files = w.rng.files ∧
      w'.warns = w.warns ++ [.saveFailed] := by
  refine ⟨⟨{ w.rng with out := w.rng.out ++ [name ++ ext ++ " already exists! Saving with time appended".toList] },
    w.warns ++ [.saveFailed]⟩, ?_, rfl, rfl⟩
  unfold pickleSaveExt
  rw [M.bind_ok (M.getState_apply _), if_neg (by rw [hx]; simp), if_pos ⟨Option.isSome_iff_ne_none.mpr he, rfl⟩]
  have hpr : printLine (name ++ ext ++ " already exists! Saving with time appended".toList) w = (.ok (),
      ⟨{ w.rng with out := w.rng.out ++ [name ++ ext ++ " already exists! Saving with time appended".toList] }, w.warns⟩) := rfl
  beta_reduce
  rw [M.bind_ok hpr]
  rw [M.tryExcept_handled (e := .os) (w' := ⟨{ w.rng with out := w.rng.out ++
    [name ++ ext ++ " already exists! Saving with time appended".toList] }, w.warns⟩) _ rfl]
  · rfl
  · unfold writePickle
    rw [M.bind_ok (M.getState_apply _), if_pos (.inr ⟨hd, hne⟩), M.bind_error (M.raise_apply _ _)]

/-- C116.  Whatever fails while saving over a file: loading it then gives the new value, or what it gave before - OSError if
there was no file - or EOFError or UnpicklingError, but never another value. -/
theorem C116_after_fault {v : V} {name ext : Path} {env : SaveEnv} {w w' : World (Disk V τ)} {r : Py Unit}
    (h : pickleSaveExt v name ext true env w = (r, w')) :
    let loaded := pickleLoadExt name ext false w'
    loaded = (.ok v, w') ∨ (∃ u, w.rng.files (name ++ ext) = some (.saved u) ∧ loaded = (.ok u, w')) ∨
      (w.rng.files (name ++ ext) = none ∧ loaded = (.error .os, w')) ∨ loaded = (.error .eof, w') ∨
      loaded = (.error .unpickling, w') := by
  intro loaded
  have hs := C116_untouched h
  have ht : saveTargetExt w.rng name ext true env.time = name ++ ext := by
    unfold saveTargetExt
    rw [if_neg (by simp)]
  rw [ht] at hs
  have hl : ∀ c, w'.rng.files (name ++ ext) = c → loaded = (match c with
      | none => (.error .os, w')
      | some (.saved u) => (.ok u, w')
      | some .empty => (.error .eof, w')
      | some .truncated => (.error .unpickling, w')) := by
    intro c hc
    change pickleLoadExt name ext false w' = _
    unfold pickleLoadExt
    rw [M.bind_ok (M.getState_apply w'), if_neg (by simp), hc]
    rcases c with _ | _ | _ | _ <;> rfl
  rcases hs with ⟨-, hs, -⟩ | ⟨-, hs, -⟩ | ⟨-, hs, -⟩ | ⟨-, hs, -⟩
  · have := hl _ hs
    rcases hf : w.rng.files (name ++ ext) with _ | u | _ | _ <;> rw [hf] at this
    · exact .inr (.inr (.inl ⟨rfl, this⟩))
    · exact .inr (.inl ⟨u, rfl, this⟩)
    · exact .inr (.inr (.inr (.inl this)))
    · exact .inr (.inr (.inr (.inr this)))
  · exact .inr (.inr (.inr (.inl (hl _ hs))))
  · exact .inr (.inr (.inr (.inr (hl _ hs))))
  · exact .inl (hl _ hs)

/-- The disk is full while a/b.p is written, and while a/c.p is opened. -/
example (v : Nat) :
    (pickleLoadExt "a/b".toList ".p".toList false (pickleSaveExt v "a/b".toList ".p".toList true
      ⟨[], .dump .os true⟩ ⟨⟨fun _ => some (.saved 7), fun _ => true, [], ()⟩, []⟩ : Py Unit × World (Disk Nat Unit)).2).1 =
      .error .unpickling ∧
    (pickleLoadExt "a/c".toList ".p".toList false (pickleSaveExt v "a/c".toList ".p".toList true
      ⟨[], .opening⟩ ⟨⟨fun _ => none, fun _ => true, [], ()⟩, []⟩ : Py Unit × World (Disk Nat Unit)).2).1 = .error .os := ⟨rfl, rfl⟩

/-- A disk with the file a/b.p. -/
def extDisk : Disk Nat Unit := ⟨fun p => if p = "a/b.p".toList then some (.saved 7) else none, fun p => p = "a".toList, [], ()⟩

/-- The hypotheses can be met: a value saved as a/b.txt, a second one beside a/b.p, and one which is lost since a_now is no
directory. -/
example (v : Nat) : (∃ w', pickleSaveExt v "a/b".toList ".txt".toList true ⟨"now".toList, .none⟩ ⟨extDisk, []⟩ = (.ok (), w') ∧
      pickleLoadExt "a/b.".toList "txt".toList false w' = (.ok v, w')) ∧
    (∃ w', pickleSaveExt v "a/b".toList ".p".toList false ⟨"now".toList, .none⟩ ⟨extDisk, []⟩ = (.ok (), w') ∧
      pickleLoadExt "a/b_now".toList ".p".toList false w' = (.ok v, w')) ∧
    ∃ w', pickleSaveExt v "a".toList "/b.p".toList false ⟨"now".toList, .none⟩ ⟨extDisk, []⟩ = (.ok (), w') ∧
      w'.rng.files = extDisk.files ∧ w'.warns = [.saveFailed] := by
  refine ⟨?_, ?_, ?_⟩
  · obtain ⟨w', h1, -, h2, -⟩ := C116_round_trip v "a/b".toList ".txt".toList (overwrite := true)
      (env := ⟨"now".toList, .none⟩) rfl ⟨extDisk, []⟩ (.inl rfl)
    exact ⟨w', h1, h2 _ _ (by decide)⟩
  · obtain ⟨w', h1, -, -, h2⟩ := C116_keeps v "a/b".toList (ext := ".p".toList) (by decide)
      (env := ⟨"now".toList, .none⟩) rfl (by decide) ⟨extDisk, []⟩ (by decide)
    exact ⟨w', h1, h2⟩
  · exact C116_lost v "a".toList "/b.p".toList (env := ⟨"now".toList, .none⟩) rfl ⟨extDisk, []⟩ (by decide) (by decide)
      (by decide) (by decide)

end Nestcheck
