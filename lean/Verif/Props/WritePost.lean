import Mathlib.MeasureTheory.Measure.Lebesgue.Basic
import Verif.Props.WriteRun

/-
C72: the posterior files written by write_run_output.  C73: its .stats file.
-/

set_option linter.unusedSectionVars false

namespace Nestcheck
open Spec

section
variable {σ F : Type}

theorem Spec.RelativeWeights.theta_len {run : Run ℝ} {ws : List ℝ} (h : RelativeWeights run ws) (hw : Weighable run)
    (ht : run.theta.length = run.logl.length) : run.theta.length = ws.length := by
  rw [h.length hw, ht]

/-- The array of the posterior files. -/
def postRows (run : Run ℝ) (ws : List ℝ) : List (List ℝ) :=
  List.zipWith (fun w (p : ℝ × List ℝ) => w :: (-2 * p.1) :: p.2) ws (run.logl.zip run.theta)

theorem length_postRows {run : Run ℝ} {ws : List ℝ} (h : ws.length = run.logl.length)
    (ht : run.theta.length = run.logl.length) : (postRows run ws).length = run.logl.length := by
  simp [postRows, h, ht]

theorem postRows_get {run : Run ℝ} {ws : List ℝ} {i : Nat} {v l : ℝ} {t : List ℝ} (hv : ws[i]? = some v)
    (hl : run.logl[i]? = some l) (ht : run.theta[i]? = some t) :
    (postRows run ws)[i]? = some (v :: (-2 * l) :: t) := by
  simp [postRows, List.getElem?_zipWith, List.zip, hv, hl, ht]

/-- The first steps of `write_run_output`. -/
theorem writeRun_front (A : Argsort ℝ) (R : Rng σ ℝ) (rd : ℝ → ℝ) (fl : Option ℝ → F) (CF : Codec F) (CI : Codec Int)
    {run : Run ℝ} (hw : Weighable run) (ht : run.theta.length = run.logl.length) (settings : Option Settings)
    (opts : WriteOpts) (hset : opts.writeDead = true → settings = none) (hdead : opts.writeDead = true →
      ∃ S, ∀ v : World σ, runDeadBirth A run opts.loglInit false false v = (.ok S, v))
    {w : World (Written σ F)} {root dir : String}
    (hroot : w.rng.output.fileRoot = some root) (hdir : w.rng.output.baseDir = some dir) :
    ∃ (ws : List ℝ) (w1 : World (Written σ F)), RelativeWeights run ws ∧ ws.length = run.logl.length ∧
      writeRun A R rd fl CF CI run settings opts w = writeStatsPart A R fl CF CI run settings opts w1 ∧
      w1.warns = w.warns ∧ w1.rng.texts = w.rng.texts ∧
      w1.rng.output = { w.rng.output with
        nposterior := some (if opts.posteriors then (run.logl.length : Int) else 0)
        nequals := some (if opts.equals then
          ((equalInds ws (R.uniform run.logl.length w.rng.rng).1).length : Int) else 0) } ∧
      w1.rng.rng = (if opts.equals then (R.uniform run.logl.length w.rng.rng).2 else w.rng.rng) ∧
      w1.rng.tables (pathJoin dir root ++ ".txt") =
        (if opts.posteriors then some ((postRows run ws).map (·.map rd)) else
          w.rng.tables (pathJoin dir root ++ ".txt")) ∧
      w1.rng.tables (pathJoin dir root ++ "_equal_weights.txt") =
        (if opts.equals then some (((gather (postRows run ws)
            (equalInds ws (R.uniform run.logl.length w.rng.rng).1)).map (·.drop 1)).map (·.map rd)) else
          w.rng.tables (pathJoin dir root ++ "_equal_weights.txt")) := by
  have hrt : outputRoot w.rng.output = .ok (pathJoin dir root) := by unfold outputRoot; rw [hroot, hdir]
  generalize pathJoin dir root = rt at *
  -- the files of dead points
  obtain ⟨wd, hwd, d1, d2, d3, d4, d5⟩ : ∃ wd : World (Written σ F),
      (if opts.writeDead then writeDeadFiles A rd run settings opts.loglInit rt else pure () : M (Written σ F) Unit) w =
        (.ok (), wd) ∧ wd.warns = w.warns ∧ wd.rng.texts = w.rng.texts ∧ wd.rng.output = w.rng.output ∧
      wd.rng.rng = w.rng.rng ∧ ∀ n, n ≠ rt ++ "_dead-birth.txt" → n ≠ rt ++ "_dead.txt" →
        wd.rng.tables n = w.rng.tables n := by
    cases hb : opts.writeDead with
    | false => exact ⟨w, rfl, rfl, rfl, rfl, rfl, fun _ _ _ => rfl⟩
    | true =>
      obtain ⟨S, hS⟩ := hdead hb
      obtain rfl := hset hb
      refine ⟨?_, ?_, ?_, ?_, ?_, ?_, ?_⟩
      rotate_left
      · rw [if_pos rfl]
        unfold writeDeadFiles
        rw [M.bind_ok (show (if (none : Option Settings).isSome then M.raise .assertion else pure () :
          M (Written σ F) Unit) w = (.ok (), w) from rfl), M.bind_ok (onRng_pure (hS _))]
        rfl
      all_goals first | rfl | skip
      intro n h1 h2
      show (if _ = _ then _ else if _ = _ then _ else _) = _
      rw [if_neg h2, if_neg h1]
  -- the weights
  obtain ⟨ws, hws, hrel⟩ := getWRel_false R hw (⟨wd.rng.rng, wd.warns⟩ : World σ)
  have hlen := hrel.length hw
  have hpost : (posteriorArray R run : M (Written σ F) _) wd = (.ok (ws, postRows run ws), wd) := by
    unfold posteriorArray
    rw [M.bind_ok (onRng_pure hws), if_neg (by rw [hrel.theta_len hw ht]; simp)]
    rfl
  have e1 : rt ++ ".txt" ≠ rt ++ "_dead-birth.txt" := append_ne (by decide)
  have e2 : rt ++ ".txt" ≠ rt ++ "_dead.txt" := append_ne (by decide)
  have e3 : rt ++ "_equal_weights.txt" ≠ rt ++ "_dead-birth.txt" := append_ne (by decide)
  have e4 : rt ++ "_equal_weights.txt" ≠ rt ++ "_dead.txt" := append_ne (by decide)
  have e5 : rt ++ "_equal_weights.txt" ≠ rt ++ ".txt" := append_ne (by decide)
  have start : writeRun A R rd fl CF CI run settings opts w =
      ((if opts.equals || opts.posteriors then posteriorArray R run else pure ([], []) :
        M (Written σ F) (List ℝ × List (List ℝ))) >>= fun wp =>
        writePosteriors rd opts.posteriors wp.2 rt >>= fun _ =>
        writeEquals R rd opts.equals wp.1 wp.2 rt >>= fun _ =>
        writeStatsPart A R fl CF CI run settings opts) wd := by
    unfold writeRun
    rw [M.bind_ok (M.getState_apply w), M.bind_ok (show M.lift (outputRoot w.rng.output) w = (.ok rt, w) by
      rw [M.lift_apply, hrt]), M.bind_ok hwd]
  rw [start]
  have hlp : ((postRows run ws).length : Int) = run.logl.length := by rw [length_postRows hlen ht]
  cases hp : opts.posteriors <;> cases he : opts.equals
  · refine ⟨ws, ?_, hrel, hlen, ?_, ?_, ?_, ?_, ?_, ?_, ?_⟩
    rotate_left
    · simp only [Bool.or_self, Bool.false_eq_true, if_false, pure_bind, writePosteriors, writeEquals]
      rfl
    · exact d1
    · exact d2
    · show StatsIn.mk .. = _
      simp [d3]
    · exact d4
    · exact d5 _ e1 e2
    · exact d5 _ e3 e4
  · refine ⟨ws, ?_, hrel, hlen, ?_, ?_, ?_, ?_, ?_, ?_, ?_⟩
    rotate_left
    · simp only [Bool.or_false, Bool.false_eq_true, if_false, if_true, writePosteriors, writeEquals]
      rw [M.bind_ok hpost]
      rfl
    · exact d1
    · exact d2
    · show StatsIn.mk .. = _
      simp [d3, d4, hlen]
    · show (R.uniform ws.length wd.rng.rng).2 = _
      rw [d4, hlen]; rfl
    · show (if _ = _ then _ else _) = _
      rw [if_neg e5.symm]
      exact d5 _ e1 e2
    · show (if _ = _ then _ else _) = _
      rw [if_pos rfl, ← hlen, ← d4]
      rfl
  · refine ⟨ws, ?_, hrel, hlen, ?_, ?_, ?_, ?_, ?_, ?_, ?_⟩
    rotate_left
    · simp only [Bool.or_true, Bool.false_eq_true, if_false, if_true, writePosteriors, writeEquals]
      rw [M.bind_ok hpost]
      rfl
    · exact d1
    · exact d2
    · show StatsIn.mk .. = _
      simp [d3, hlp]
    · exact d4
    · show (if _ = _ then _ else _) = _
      rw [if_pos rfl]
      rfl
    · show (if _ = _ then _ else _) = _
      rw [if_neg e5]
      exact d5 _ e3 e4
  · refine ⟨ws, ?_, hrel, hlen, ?_, ?_, ?_, ?_, ?_, ?_, ?_⟩
    rotate_left
    · simp only [Bool.or_self, if_true, writePosteriors, writeEquals]
      rw [M.bind_ok hpost]
      rfl
    · exact d1
    · exact d2
    · show StatsIn.mk .. = _
      simp [d3, d4, hlen, hlp]
    · show (R.uniform ws.length wd.rng.rng).2 = _
      rw [d4, hlen]; rfl
    · show (if _ = _ then _ else if _ = _ then _ else _) = _
      rw [if_neg e5.symm, if_pos rfl]
      rfl
    · show (if _ = _ then _ else _) = _
      rw [if_pos rfl, ← hlen, ← d4]
      rfl

theorem setOutput_frame {γ : Type} (f : StatsIn F → StatsIn F) (g : StatsIn F → γ) (h : ∀ d, g (f d) = g d) :
    Preserves (setOutput f : M (Written σ F) Unit) (fun s => g s.output) := fun w => h w.rng.output

/-- The .stats part changes no other member of `run['output']`. -/
theorem writeStatsPart_output {γ : Type} (A : Argsort ℝ) (R : Rng σ ℝ) (fl : Option ℝ → F) (CF : Codec F)
    (CI : Codec Int) (run : Run ℝ) (settings : Option Settings) (opts : WriteOpts) (g : StatsIn F → γ)
    (h1 : ∀ d x, g { d with ndead := x } = g d)
    (h2 : ∀ d x y z t, g { d with logZ := x, logZerr := y, paramMeans := z, paramMeanErrs := t } = g d) :
    Preserves (writeStatsPart A R fl CF CI run settings opts) (fun s => g s.output) := by
  unfold writeStatsPart writeMeansErrs
  refine .ite (.bind (setOutput_frame _ g (fun d => h1 d _)) fun _ => .bind (.ite (.bind ((onRng_output _).mono g)
    fun _ => .bind ((onRng_output _).mono g) fun _ => setOutput_frame _ g (fun d => h2 d _ _ _ _)) (.pure _ _))
    fun _ => ?_) (.pure _ _)
  intro w
  rw [M.bind_ok (M.getState_apply w), M.bind_apply]
  rcases hx : (M.lift (writeStats CF CI (fl (some 0)) w.rng.texts w.rng.output) : M (Written σ F) _) w with
    ⟨_ | a, w'⟩ <;> (rw [M.lift_apply] at hx; obtain ⟨-, rfl⟩ := Prod.mk.inj hx; rfl)

/-- The runs which `write_run_output` can weight and, if asked to, write: the members have the same length, the
live counts are positive and `run_dead_birth_array` accepts the run, which includes that it has no key 'settings'. -/
structure Spec.Outputable (opts : WriteOpts) (settings : Option Settings) (run : Run ℝ) : Prop where
  weighable : Weighable run
  theta_len : run.theta.length = run.logl.length
  no_settings : opts.writeDead = true → settings = none
  dead : opts.writeDead = true → ∃ labels tmm, Writable run labels tmm

theorem Spec.Outputable.deadBirth {opts : WriteOpts} {settings : Option Settings} {run : Run ℝ} (h : Outputable opts settings run) (A : Argsort ℝ) :
    opts.writeDead = true → ∃ S, ∀ v : World σ, runDeadBirth A run opts.loglInit false false v = (.ok S, v) := by
  intro hd
  obtain ⟨labels, tmm, hwr⟩ := h.dead hd
  exact ⟨_, fun v => runDeadBirth_ok hwr.toValidWith hwr.strict opts.loglInit false false v⟩

/-- C72, [root].txt: a row for each sample with its relative weight, -2 logl and its parameters.  Without
`posteriors` an existing file is left alone and nposterior is 0. -/
theorem C72_posteriors (A : Argsort ℝ) (R : Rng σ ℝ) (rd : ℝ → ℝ) (fl : Option ℝ → F) (CF : Codec F) (CI : Codec Int)
    {run : Run ℝ} {settings : Option Settings} {opts : WriteOpts} (h : Outputable opts settings run)
    {w : World (Written σ F)} {root dir : String}
    (hroot : w.rng.output.fileRoot = some root) (hdir : w.rng.output.baseDir = some dir) {w' : World (Written σ F)}
    (hw' : w' = (writeRun A R rd fl CF CI run settings opts w).2) :
    (opts.posteriors = true → ∃ (ws : List ℝ) (rows : List (List ℝ)), RelativeWeights run ws ∧
      w'.rng.tables (pathJoin dir root ++ ".txt") = some rows ∧ rows.length = run.logl.length ∧
      (∀ (i : Nat) (v l : ℝ) (t : List ℝ), ws[i]? = some v → run.logl[i]? = some l → run.theta[i]? = some t →
        rows[i]? = some ((v :: (-2 * l) :: t).map rd)) ∧
      w'.rng.output.nposterior = some (run.logl.length : Int)) ∧
    (opts.posteriors = false →
      w'.rng.tables (pathJoin dir root ++ ".txt") = w.rng.tables (pathJoin dir root ++ ".txt") ∧
      w'.rng.output.nposterior = some 0) := by
  obtain ⟨ws, w1, hrel, hlen, e, -, -, ho, -, ht, -⟩ := writeRun_front A R rd fl CF CI h.weighable h.theta_len
    settings opts h.no_settings (h.deadBirth A) hroot hdir
  have k1 : w'.rng.tables (pathJoin dir root ++ ".txt") = w1.rng.tables (pathJoin dir root ++ ".txt") := by
    rw [hw', e]
    exact congrFun (writeStatsPart_tables A R fl CF CI run settings opts w1) _
  have k2 : w'.rng.output.nposterior = w1.rng.output.nposterior := by
    rw [hw', e]
    exact writeStatsPart_output A R fl CF CI run settings opts (·.nposterior) (fun _ _ => rfl)
      (fun _ _ _ _ _ => rfl) w1
  rw [k1, k2, ht, ho]
  constructor
  · intro hp
    rw [if_pos hp]
    refine ⟨ws, _, hrel, rfl, by rw [List.length_map, length_postRows hlen h.theta_len], ?_, by simp [hp]⟩
    intro i v l t hv hl ht'
    rw [List.getElem?_map, postRows_get hv hl ht']
    rfl
  · intro hp
    simp [hp]

theorem mem_equalInds {ws us : List ℝ} {i : Nat} :
    i ∈ equalInds ws us ↔ ∃ v u, ws[i]? = some v ∧ us[i]? = some u ∧ u < v := by
  unfold equalInds
  rw [mem_whereIdx]
  constructor
  · rintro ⟨⟨v, u⟩, h1, h2⟩
    rw [List.getElem?_zip_eq_some] at h1
    exact ⟨v, u, h1.1, h1.2, by simpa using h2⟩
  · rintro ⟨v, u, h1, h2, h3⟩
    exact ⟨(v, u), List.getElem?_zip_eq_some.mpr ⟨h1, h2⟩, by simpa using h3⟩

/-- C72, [root]_equal_weights.txt: it holds, in order and at most once, the samples whose relative weight exceeds
their uniform draw, each with -2 logl and its parameters.  The sample with the largest weight is always one of
them, so the file is not empty.  The draws are the next ones of the random state.
Without `equals` an existing file is left alone and nequals is 0. -/
theorem C72_equals (A : Argsort ℝ) (R : Rng σ ℝ) (rd : ℝ → ℝ) (fl : Option ℝ → F) (CF : Codec F) (CI : Codec Int)
    {run : Run ℝ} {settings : Option Settings} {opts : WriteOpts} (h : Outputable opts settings run)
    {w : World (Written σ F)} {root dir : String}
    (hroot : w.rng.output.fileRoot = some root) (hdir : w.rng.output.baseDir = some dir) {w' : World (Written σ F)}
    (hw' : w' = (writeRun A R rd fl CF CI run settings opts w).2) :
    (opts.equals = true → ∃ (ws : List ℝ) (inds : List Nat) (rows : List (List ℝ)), RelativeWeights run ws ∧
      inds.Pairwise (· < ·) ∧
      (∀ i, i ∈ inds ↔ ∃ v u, ws[i]? = some v ∧ (R.uniform run.logl.length w.rng.rng).1[i]? = some u ∧ u < v) ∧
      (∀ i, ws[i]? = some 1 → i ∈ inds) ∧ inds ≠ [] ∧
      w'.rng.tables (pathJoin dir root ++ "_equal_weights.txt") = some rows ∧ rows.length = inds.length ∧
      (∀ (j i : Nat) (l : ℝ) (t : List ℝ), inds[j]? = some i → run.logl[i]? = some l → run.theta[i]? = some t →
        rows[j]? = some (((-2 * l) :: t).map rd)) ∧
      w'.rng.output.nequals = some (inds.length : Int)) ∧
    (opts.equals = false →
      w'.rng.tables (pathJoin dir root ++ "_equal_weights.txt") =
        w.rng.tables (pathJoin dir root ++ "_equal_weights.txt") ∧
      w'.rng.output.nequals = some 0) := by
  obtain ⟨ws, w1, hrel, hlen, e, -, -, ho, -, -, ht⟩ := writeRun_front A R rd fl CF CI h.weighable h.theta_len
    settings opts h.no_settings (h.deadBirth A) hroot hdir
  have k1 : w'.rng.tables (pathJoin dir root ++ "_equal_weights.txt") =
      w1.rng.tables (pathJoin dir root ++ "_equal_weights.txt") := by
    rw [hw', e]
    exact congrFun (writeStatsPart_tables A R fl CF CI run settings opts w1) _
  have k2 : w'.rng.output.nequals = w1.rng.output.nequals := by
    rw [hw', e]
    exact writeStatsPart_output A R fl CF CI run settings opts (·.nequals) (fun _ _ => rfl)
      (fun _ _ _ _ _ => rfl) w1
  rw [k1, k2, ht, ho]
  constructor
  · intro he
    rw [if_pos he]
    set us := (R.uniform run.logl.length w.rng.rng).1 with hus
    have hul : us.length = run.logl.length := R.uniform_length _ _
    have hmax : ∀ i, ws[i]? = some 1 → i ∈ equalInds ws us := by
      intro i hi
      have hlt : i < us.length := by rw [hul, ← hlen]; exact (List.getElem?_eq_some_iff.mp hi).1
      have hu := List.getElem?_eq_getElem hlt
      exact mem_equalInds.mpr ⟨1, us[i], hi, hu, (R.uniform_range _ _ _ (List.mem_of_getElem? hu)).2⟩
    have hin : ∀ i ∈ equalInds ws us, i < (postRows run ws).length := by
      intro i hi
      obtain ⟨v, u, hv, -⟩ := mem_equalInds.mp hi
      rw [length_postRows hlen h.theta_len, ← hlen]
      exact (List.getElem?_eq_some_iff.mp hv).1
    refine ⟨ws, equalInds ws us, _, hrel, whereIdx_pairwise, fun i => mem_equalInds, hmax, ?_, rfl, ?_, ?_, by simp [he]⟩
    · obtain ⟨i, hi⟩ := List.mem_iff_getElem?.mp hrel.2.1
      exact List.ne_nil_of_mem (hmax i hi)
    · rw [List.length_map, List.length_map, length_gather hin]
    · intro j i l t hj hl ht'
      obtain ⟨v, u, hv, -⟩ := mem_equalInds.mp (List.mem_of_getElem? hj)
      rw [List.getElem?_map, List.getElem?_map, getElem?_gather hin hj, postRows_get hv hl ht']
      rfl
  · intro he
    simp [he]

/-- C72, the meaning of equal weights: if the draws are independent and uniform on [0, 1), each sample is kept
with probability equal to its relative weight, independently of the others. -/
theorem C72_distribution {n : Nat} (ws : Fin n → ℝ) (h : ∀ i, 0 ≤ ws i ∧ ws i ≤ 1) (I : Finset (Fin n)) :
    MeasureTheory.volume {u : Fin n → ℝ | (∀ i, 0 ≤ u i ∧ u i < 1) ∧
      ∀ i : Fin n, (i : Nat) ∈ equalInds (List.ofFn ws) (List.ofFn u) ↔ i ∈ I} =
    ENNReal.ofReal (∏ i, if i ∈ I then ws i else 1 - ws i) := by
  classical
  have hset : {u : Fin n → ℝ | (∀ i, 0 ≤ u i ∧ u i < 1) ∧
      ∀ i : Fin n, (i : Nat) ∈ equalInds (List.ofFn ws) (List.ofFn u) ↔ i ∈ I} =
      Set.pi Set.univ (fun i => Set.Ico (if i ∈ I then 0 else ws i) (if i ∈ I then ws i else 1)) := by
    ext u
    simp only [Set.mem_ofPred_eq, Set.mem_pi, Set.mem_univ, true_implies, Set.mem_Ico]
    have hmem : ∀ i : Fin n, (i : Nat) ∈ equalInds (List.ofFn ws) (List.ofFn u) ↔ u i < ws i := by
      intro i
      rw [mem_equalInds]
      simp
    simp only [hmem]
    constructor
    · rintro ⟨h1, h2⟩ i
      by_cases hi : i ∈ I
      · rw [if_pos hi, if_pos hi]; exact ⟨(h1 i).1, (h2 i).mpr hi⟩
      · rw [if_neg hi, if_neg hi]; exact ⟨not_lt.mp (fun hlt => hi ((h2 i).mp hlt)), (h1 i).2⟩
    · intro h1
      constructor
      · intro i
        have := h1 i
        by_cases hi : i ∈ I
        · rw [if_pos hi, if_pos hi] at this; exact ⟨this.1, lt_of_lt_of_le this.2 (h i).2⟩
        · rw [if_neg hi, if_neg hi] at this; exact ⟨(h i).1.trans this.1, this.2⟩
      · intro i
        have := h1 i
        by_cases hi : i ∈ I
        · rw [if_pos hi, if_pos hi] at this; exact ⟨fun _ => hi, fun _ => this.2⟩
        · rw [if_neg hi, if_neg hi] at this; exact ⟨fun hlt => absurd hlt (not_lt.mpr this.1), fun hI => absurd hI hi⟩
  rw [hset, MeasureTheory.volume_pi_pi, ENNReal.ofReal_prod_of_nonneg]
  · apply Finset.prod_congr rfl
    intro i _
    rw [Real.volume_Ico]
    by_cases hi : i ∈ I <;> simp [hi]
  · intro i _
    by_cases hi : i ∈ I <;> simp [hi, (h i).1, (h i).2]

end
end Nestcheck
