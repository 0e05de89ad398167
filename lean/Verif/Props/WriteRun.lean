import Verif.Model.WriteRun
import Verif.Props.DeadBirth
import Verif.Props.Multinest
import Verif.Props.Stats
import Verif.Props.PlotBs

/-
C71: runs written by write_run_output are read back.
-/

set_option linter.unusedSectionVars false

namespace Nestcheck
open Spec

/-! ### Rounding the numbers of a run -/

section rounding
variable {σ K : Type} [CommRing K] [LinearOrder K]

/-- A sample with its numbers rounded. -/
def roundSample (f : K → K) (s : Sample K) : Sample K := ⟨s.theta.map f, f s.logl, f s.birth⟩

/-- A start and an end with their numbers rounded. -/
def roundEnds (f : K → K) (p : WithBot K × K) : WithBot K × K := (p.1.map f, f p.2)

/-- A run with its numbers rounded. -/
def roundRun (f : K → K) (r : Run K) : Run K :=
  { r with theta := r.theta.map (·.map f), logl := r.logl.map f, tmm := r.tmm.map (·.map (roundEnds f)) }

/-- Rounding keeps the order of some numbers. -/
def Spec.KeepsOrder (f : K → K) (xs : List K) : Prop := ∀ x ∈ xs, ∀ y ∈ xs, x < y → f x < f y

theorem Spec.KeepsOrder.le {f : K → K} {xs : List K} (h : KeepsOrder f xs) {x y : K} (hx : x ∈ xs) (hy : y ∈ xs)
    (hxy : x ≤ y) : f x ≤ f y := by
  rcases lt_or_eq_of_le hxy with h1 | h1
  · exact (h x hx y hy h1).le
  · rw [h1]

theorem Spec.KeepsOrder.lt_iff {f : K → K} {xs : List K} (h : KeepsOrder f xs) {x y : K} (hx : x ∈ xs)
    (hy : y ∈ xs) : f x < f y ↔ x < y :=
  ⟨fun h1 => not_le.mp fun h2 => absurd h1 (not_lt.mpr (h.le hy hx h2)), h x hx y hy⟩

theorem Spec.KeepsOrder.le_iff {f : K → K} {xs : List K} (h : KeepsOrder f xs) {x y : K} (hx : x ∈ xs)
    (hy : y ∈ xs) : f x ≤ f y ↔ x ≤ y := by
  rw [← not_lt, ← not_lt, h.lt_iff hy hx]

theorem start_lt_round {f : K → K} {xs : List K} (h : KeepsOrder f xs) {s : WithBot K} {l : K} (hl : l ∈ xs)
    (hs : ∀ x : K, s = (x : WithBot K) → x ∈ xs) : s.map f < ((f l : K) : WithBot K) ↔ s < (l : WithBot K) := by
  cases s with
  | bot => exact ⟨fun _ => WithBot.bot_lt_coe l, fun _ => WithBot.bot_lt_coe _⟩
  | coe x =>
    rw [WithBot.map_coe, WithBot.coe_lt_coe, WithBot.coe_lt_coe]
    exact h.lt_iff (hs x rfl) hl

theorem Spec.Writable.round {r : Run K} {labels : List Int} {tmm : List (WithBot K × K)} (h : Writable r labels tmm)
    {f : K → K} (hf : KeepsOrder f r.logl) : Writable (roundRun f r) labels (tmm.map (roundEnds f)) where
  labels_eq := h.labels_eq
  tmm_eq := by show r.tmm.map _ = _; rw [h.tmm_eq]; rfl
  nlive_len := by show r.nlive.length = (r.logl.map f).length; rw [List.length_map, h.nlive_len]
  labels_len := by show _ = (r.logl.map f).length; rw [List.length_map, h.labels_len]
  theta_len := by
    show (r.theta.map _).length = (r.logl.map f).length
    rw [List.length_map, List.length_map, h.theta_len]
  sorted := by
    intro i j x y hij hx hy
    simp only [roundRun, List.getElem?_map, Option.map_eq_some_iff] at hx hy
    obtain ⟨a, ha, rfl⟩ := hx
    obtain ⟨b, hb, rfl⟩ := hy
    exact hf.le (List.mem_of_getElem? ha) (List.mem_of_getElem? hb) (h.sorted i j a b hij ha hb)
  labels_range := by intro k; rw [List.length_map]; exact h.labels_range k
  init := by
    obtain ⟨p, hp, e⟩ := h.init
    exact ⟨_, List.mem_map_of_mem hp, by simp [roundEnds, e]⟩
  start_le := by
    intro k mm i l hk hi hl
    simp only [roundRun, List.getElem?_map, Option.map_eq_some_iff] at hk hl
    obtain ⟨mm, hk, rfl⟩ := hk
    obtain ⟨l, hl, rfl⟩ := hl
    have := h.start_le k mm i l hk hi hl
    rcases lt_or_eq_of_le this with h1 | h1
    · exact ((start_lt_round hf (List.mem_of_getElem? hl)
        (fun x hx => h.starts mm (List.mem_of_getElem? hk) x hx)).mpr h1).le
    · simp [roundEnds, h1]
  end_eq := by
    intro k mm i l hk hi hl
    simp only [roundRun, List.getElem?_map, Option.map_eq_some_iff] at hk hl
    obtain ⟨mm, hk, rfl⟩ := hk
    obtain ⟨l, hl, rfl⟩ := hl
    simp only [roundEnds]
    rw [h.end_eq k mm i l hk hi hl]
  distinct := by
    intro i j x y hij hx hy
    simp only [roundRun, List.getElem?_map, Option.map_eq_some_iff] at hx hy
    obtain ⟨a, ha, rfl⟩ := hx
    obtain ⟨b, hb, rfl⟩ := hy
    exact ne_of_lt (hf a (List.mem_of_getElem? ha) b (List.mem_of_getElem? hb)
      (lt_of_le_of_ne (h.sorted i j a b hij ha hb) (h.distinct i j a b hij ha hb)))
  born := by
    intro k mm hk l hl
    simp only [List.getElem?_map, Option.map_eq_some_iff] at hk
    obtain ⟨mm, hk, rfl⟩ := hk
    simp only [roundRun, pick_map, List.mem_map] at hl
    obtain ⟨l, hl, rfl⟩ := hl
    obtain ⟨i, -, hi⟩ := mem_pick.mp hl
    exact (start_lt_round hf (List.mem_of_getElem? hi)
        (fun x hx => h.starts mm (List.mem_of_getElem? hk) x hx)).mpr (h.born k mm hk l hl)
  starts := by
    intro mm hmm s hs
    rw [List.mem_map] at hmm
    obtain ⟨mm, hmm, rfl⟩ := hmm
    obtain ⟨st, en⟩ := mm
    cases st with
    | bot => simp [roundEnds] at hs
    | coe x =>
      have hx := h.starts _ hmm x rfl
      have : f x = s := by simpa [roundEnds] using hs
      rw [← this]
      exact List.mem_map_of_mem hx

theorem Spec.Writable.strict {r : Run K} {labels : List Int} {tmm : List (WithBot K × K)} (h : Writable r labels tmm) :
    r.logl.Pairwise (· < ·) := by
  rw [pairwise_iff_getElem?]
  intro i j x y hij hx hy
  exact lt_of_le_of_ne (h.sorted i j x y hij hx hy) (h.distinct i j x y hij hx hy)

theorem chain_round (f : K → K) (b : K) (start : WithBot K) (ts : List (List K)) (xs : List K) :
    chain (f b) (start.map f) (ts.map (·.map f)) (xs.map f) = (chain b start ts xs).map (roundSample f) := by
  have hfb : firstBirth (f b) (start.map f) = f (firstBirth b start) := by cases start <;> rfl
  unfold chain
  rw [hfb, ← List.map_dropLast, ← List.map_cons, List.zip_map, List.zipWith_map, List.map_zipWith]
  rfl

/-- The dead-birth array of a run with rounded numbers is that of the run, rounded. -/
theorem runDeadBirth_round {r : Run K} {labels : List Int} {tmm : List (WithBot K × K)} (h : Writable r labels tmm)
    {f : K → K} (hf : KeepsOrder f r.logl) (A : Argsort K) (init : K) (da dw : Bool) :
    ∃ S : List (Sample K), (∀ w : World σ, runDeadBirth A r init da dw w = (.ok S, w)) ∧
      (∀ w : World σ, runDeadBirth A (roundRun f r) (f init) da dw w = (.ok (S.map (roundSample f)), w)) ∧
      (S.map (fun s => (s.logl, s.theta))) = r.logl.zip r.theta := by
  set C : Nat → List (Sample K) := fun k => chain init (tmm.getD k (⊥, 0)).1 (pick labels k r.theta)
    (pick labels k r.logl) with hC
  have hlenp : ∀ k : Int, (pick labels k r.theta).length = (pick labels k r.logl).length := fun k => by
    rw [length_pick (by rw [h.labels_len, h.theta_len]), length_pick (by rw [h.labels_len])]
  have hz : (((List.range tmm.length).flatMap C).map (fun s => (s.logl, s.theta))).Perm (r.logl.zip r.theta) := by
    rw [List.map_flatMap]
    have : (fun k : Nat => (C k).map (fun s => (s.logl, s.theta))) =
        fun k : Nat => pick labels k (r.logl.zip r.theta) := by
      funext k
      rw [hC, (chain_map (hlenp k)).2.2, pick_zip (by rw [h.labels_len]) (by rw [h.labels_len, h.theta_len])]
    rw [this]
    exact pick_perm (fun k hk => (h.labels_range k).mp hk) (by rw [List.length_zip, h.theta_len, h.labels_len]; simp)
  have hlog : (((List.range tmm.length).flatMap C).map (·.logl)).Perm r.logl := by
    have := hz.map (·.1)
    rwa [List.map_map, List.map_fst_zip (by rw [h.theta_len])] at this
  have hnd : (((List.range tmm.length).flatMap C).map (·.logl)).Nodup :=
    hlog.nodup_iff.mpr (h.strict.imp (fun hlt => ne_of_lt hlt))
  set S := sortBy A (·.logl) ((List.range tmm.length).flatMap C) with hS
  have hSp : S.Perm ((List.range tmm.length).flatMap C) := sortBy_perm A _ _
  have hstr : S.Pairwise (fun a b => a.logl < b.logl) := sortBy_strict hnd
  refine ⟨S, fun w => runDeadBirth_ok h.toValidWith h.strict init da dw w, fun w => ?_, ?_⟩
  · have hr := h.round hf
    rw [runDeadBirth_ok hr.toValidWith hr.strict (f init) da dw w, List.length_map]
    congr 2
    apply sortBy_eq_of_perm
    · have : ((List.range tmm.length).flatMap fun k : Nat => chain (f init) ((tmm.map (roundEnds f)).getD k (⊥, 0)).1
          (pick labels k (roundRun f r).theta) (pick labels k (roundRun f r).logl)) =
          ((List.range tmm.length).flatMap C).map (roundSample f) := by
        rw [List.map_flatMap]
        apply List.flatMap_congr
        intro k hk
        rw [List.mem_range] at hk
        have e1 : ((tmm.map (roundEnds f)).getD k (⊥, 0)).1 = (tmm.getD k (⊥, 0)).1.map f := by
          rw [List.getD_eq_getElem?_getD, List.getD_eq_getElem?_getD, List.getElem?_map,
            List.getElem?_eq_getElem hk]
          rfl
        rw [e1, hC]
        simp only [roundRun, pick_map]
        exact chain_round f init _ _ _
      rw [this]
      exact hSp.map _
    · rw [List.pairwise_map]
      refine hstr.imp_of_mem ?_
      intro a b ha hb hab
      have mem : ∀ s ∈ S, s.logl ∈ r.logl := fun s hs =>
        hlog.subset (List.mem_map_of_mem (hSp.subset hs))
      exact hf _ (mem a ha) _ (mem b hb) hab
  · have hz' : (S.map (fun s => (s.logl, s.theta))).Perm (r.logl.zip r.theta) := (hSp.map _).trans hz
    have hmap : S.map (·.logl) = r.logl := by
      have hp : (S.map (·.logl)).Perm r.logl := (hSp.map _).trans hlog
      exact hp.eq_of_pairwise (fun a b _ _ h1 h2 => absurd (lt_trans h1 h2) (lt_irrefl _))
        (List.pairwise_map.mpr hstr) h.strict
    have hzs : (r.logl.zip r.theta).Pairwise (fun a b => a.1 < b.1) := by
      have : ((r.logl.zip r.theta).map (·.1)).Pairwise (· < ·) := by
        rw [List.map_fst_zip (by rw [h.theta_len])]; exact h.strict
      exact List.pairwise_map.mp this
    exact hz'.eq_of_pairwise (le := fun a b => a.1 < b.1)
      (fun a b _ _ h1 h2 => absurd (lt_trans h1 h2) (lt_irrefl _)) (List.pairwise_map.mpr hstr) hzs

end rounding

/-! ### What the parts of write_run_output leave alone -/

section
variable {σ F α β γ : Type}

/-- A computation which does not change a part of the state. -/
def Preserves (m : M (Written σ F) α) (g : Written σ F → γ) : Prop := ∀ w, g (m w).2.rng = g w.rng

theorem Preserves.bind {m : M (Written σ F) α} {f : α → M (Written σ F) β} {g : Written σ F → γ}
    (hm : Preserves m g) (hf : ∀ a, Preserves (f a) g) : Preserves (m >>= f) g := by
  intro w
  have h1 := hm w
  rw [M.bind_apply]
  rcases h : m w with ⟨_ | a, w'⟩
  · rw [h] at h1; exact h1
  · rw [h] at h1; exact (hf a w').trans h1

theorem Preserves.pure (a : α) (g : Written σ F → γ) : Preserves (Pure.pure a : M (Written σ F) α) g := fun _ => rfl
theorem Preserves.lift (x : Py α) (g : Written σ F → γ) : Preserves (M.lift x : M (Written σ F) α) g := fun _ => rfl
theorem Preserves.raise (e : PyErr) (g : Written σ F → γ) : Preserves (M.raise e : M (Written σ F) α) g := fun _ => rfl
theorem Preserves.ite {c : Prop} [Decidable c] {x y : M (Written σ F) α} {g : Written σ F → γ}
    (hx : Preserves x g) (hy : Preserves y g) : Preserves (if c then x else y) g := by
  split
  · exact hx
  · exact hy

theorem onRng_tables (f : M σ α) : Preserves (onRng f : M (Written σ F) α) (·.tables) := fun _ => rfl
theorem onRng_texts (f : M σ α) : Preserves (onRng f : M (Written σ F) α) (·.texts) := fun _ => rfl
theorem onRng_output (f : M σ α) : Preserves (onRng f : M (Written σ F) α) (·.output) := fun _ => rfl

theorem onRng_ok {f : M σ α} {w : World (Written σ F)} {a : α} {s : σ} {ws : List Warn}
    (h : f ⟨w.rng.rng, w.warns⟩ = (.ok a, ⟨s, ws⟩)) :
    (onRng f : M (Written σ F) α) w = (.ok a, ⟨{ w.rng with rng := s }, ws⟩) := by
  unfold onRng; rw [h]

theorem onRng_pure {f : M σ α} {w : World (Written σ F)} {a : α}
    (h : f ⟨w.rng.rng, w.warns⟩ = (.ok a, ⟨w.rng.rng, w.warns⟩)) :
    (onRng f : M (Written σ F) α) w = (.ok a, w) := by
  rw [onRng_ok h]

theorem Preserves.mono {δ : Type} {m : M (Written σ F) α} {g : Written σ F → γ} (h : Preserves m g) (k : γ → δ) :
    Preserves m (fun s => k (g s)) := fun w => congrArg k (h w)

theorem saveTable_frame (rd : ℝ → ℝ) (name : String) (rows : List (List ℝ)) {n : String} (h : n ≠ name) :
    Preserves (saveTable rd name rows : M (Written σ F) Unit) (fun s => s.tables n) := by
  intro w
  show (if n = name then _ else _) = _
  rw [if_neg h]

theorem setOutput_tables (f : StatsIn F → StatsIn F) : Preserves (setOutput f : M (Written σ F) Unit) (·.tables) :=
  fun _ => rfl

theorem writePosteriors_frame (rd : ℝ → ℝ) (b : Bool) (post : List (List ℝ)) (root : String) {n : String}
    (h : n ≠ root ++ ".txt") :
    Preserves (writePosteriors rd b post root : M (Written σ F) Unit) (fun s => s.tables n) := by
  unfold writePosteriors
  refine .ite (.bind (saveTable_frame rd _ _ h) fun _ => ?_) ?_ <;>
    exact (setOutput_tables _).mono (fun t => t n)

theorem writeEquals_frame (R : Rng σ ℝ) (rd : ℝ → ℝ) (b : Bool) (ws : List ℝ) (post : List (List ℝ)) (root : String)
    {n : String} (h : n ≠ root ++ "_equal_weights.txt") :
    Preserves (writeEquals R rd b ws post root : M (Written σ F) Unit) (fun s => s.tables n) := by
  unfold writeEquals
  refine .ite (.bind ((onRng_tables _).mono (fun t => t n)) fun _ => .bind (saveTable_frame rd _ _ h) fun _ => ?_) ?_ <;>
    exact (setOutput_tables _).mono (fun t => t n)

theorem posteriorArray_tables (R : Rng σ ℝ) (run : Run ℝ) :
    Preserves (posteriorArray R run : M (Written σ F) _) (·.tables) := by
  unfold posteriorArray
  exact .bind (onRng_tables _) fun _ => .ite (.raise _ _) (.pure _ _)

theorem writeMeansErrs_tables (A : Argsort ℝ) (R : Rng σ ℝ) (fl : Option ℝ → F) (run : Run ℝ)
    (settings : Option Settings) (n : Nat) :
    Preserves (writeMeansErrs A R fl run settings n : M (Written σ F) Unit) (·.tables) := by
  unfold writeMeansErrs
  exact .bind (onRng_tables _) fun _ => .bind (onRng_tables _) fun _ => setOutput_tables _

theorem writeStatsPart_tables (A : Argsort ℝ) (R : Rng σ ℝ) (fl : Option ℝ → F) (CF : Codec F) (CI : Codec Int)
    (run : Run ℝ) (settings : Option Settings) (opts : WriteOpts) :
    Preserves (writeStatsPart A R fl CF CI run settings opts) (·.tables) := by
  unfold writeStatsPart
  refine .ite (.bind (setOutput_tables _) fun _ => .bind (.ite (writeMeansErrs_tables A R fl run settings opts.nSim) (.pure _ _)) fun _ => ?_)
    (.pure _ _)
  intro w
  rw [M.bind_ok (M.getState_apply w), M.bind_apply]
  rcases hx : (M.lift (writeStats CF CI (fl (some 0)) w.rng.texts w.rng.output) : M (Written σ F) _) w with
    ⟨_ | a, w'⟩ <;> (rw [M.lift_apply] at hx; obtain ⟨-, rfl⟩ := Prod.mk.inj hx; rfl)

theorem append_ne {a b c : String} (h : b ≠ c) : a ++ b ≠ a ++ c := by
  intro e
  apply h
  have := congrArg String.toList e
  rw [String.toList_append, String.toList_append] at this
  exact String.toList_injective (List.append_cancel_left this)

/-- The two files of dead points after `write_run_output`, whether or not it returns. -/
theorem writeRun_dead (A : Argsort ℝ) (R : Rng σ ℝ) (rd : ℝ → ℝ) (fl : Option ℝ → F) (CF : Codec F) (CI : Codec Int)
    (run : Run ℝ) (opts : WriteOpts) (hd : opts.writeDead = true)
    {w : World (Written σ F)} {root dir : String} (h1 : w.rng.output.fileRoot = some root)
    (h2 : w.rng.output.baseDir = some dir) {S : List (Sample ℝ)}
    (hS : ∀ v : World σ, runDeadBirth A run opts.loglInit false false v = (.ok S, v)) :
    (writeRun A R rd fl CF CI run none opts w).2.rng.tables (pathJoin dir root ++ "_dead-birth.txt") =
      some (S.map (fun s => (s.theta ++ [s.logl, s.birth]).map rd)) ∧
    (writeRun A R rd fl CF CI run none opts w).2.rng.tables (pathJoin dir root ++ "_dead.txt") =
      some (S.map (fun s => (s.theta ++ [s.logl]).map rd)) := by
  have hroot : outputRoot w.rng.output = .ok (pathJoin dir root) := by unfold outputRoot; rw [h1, h2]
  generalize hr : pathJoin dir root = rt at *
  obtain ⟨w1, hw1, ht1, ht2⟩ : ∃ w1 : World (Written σ F),
      writeDeadFiles A rd run none opts.loglInit rt w = (.ok (), w1) ∧
      w1.rng.tables (rt ++ "_dead-birth.txt") = some (S.map (fun s => (s.theta ++ [s.logl, s.birth]).map rd)) ∧
      w1.rng.tables (rt ++ "_dead.txt") = some (S.map (fun s => (s.theta ++ [s.logl]).map rd)) := by
    unfold writeDeadFiles
    rw [M.bind_ok (show (if (none : Option Settings).isSome then M.raise .assertion else pure () :
      M (Written σ F) Unit) w = (.ok (), w) from rfl), M.bind_ok (onRng_pure (hS _))]
    refine ⟨_, rfl, ?_, ?_⟩
    · show (if _ = _ then _ else if _ = _ then _ else _) = _
      rw [if_neg (append_ne (by decide)), if_pos rfl, List.map_map]
      rfl
    · show (if _ = _ then _ else if _ = _ then _ else _) = _
      rw [if_pos rfl]
      congr 1
      rw [dropCols, List.map_map, List.map_map]
      apply List.map_congr_left
      intro s _
      simp only [Function.comp, sampleRow]
      congr 1
      rw [show s.theta ++ [s.logl, s.birth] = (s.theta ++ [s.logl]) ++ [s.birth] by simp, List.take_left']
      simp
  have hrest : ∀ n, n ≠ rt ++ ".txt" → n ≠ rt ++ "_equal_weights.txt" →
      (writeRun A R rd fl CF CI run none opts w).2.rng.tables n = w1.rng.tables n := by
    intro n hn1 hn2
    unfold writeRun
    rw [M.bind_ok (M.getState_apply w), M.bind_ok (show M.lift (outputRoot w.rng.output) w = (.ok rt, w) by
      rw [M.lift_apply, hroot])]
    rw [if_pos hd, M.bind_ok hw1]
    refine Preserves.bind (g := fun s => s.tables n) ?_ (fun wp => .bind ?_ fun _ => .bind ?_ fun _ => ?_) w1
    · exact .ite ((posteriorArray_tables R run).mono (fun t => t n)) (.pure _ _)
    · exact writePosteriors_frame rd _ _ _ hn1
    · exact writeEquals_frame R rd _ _ _ _ hn2
    · exact (writeStatsPart_tables A R fl CF CI run none opts).mono (fun t => t n)
  exact ⟨(hrest _ (append_ne (by decide)) (append_ne (by decide))).trans ht1,
    (hrest _ (append_ne (by decide)) (append_ne (by decide))).trans ht2⟩

theorem rowOf_zero_round (rd : ℝ → ℝ) (S : List (Sample ℝ)) :
    List.Forall₂ (RowOf 0) (S.map (fun s => (s.theta ++ [s.logl, s.birth]).map rd)) (S.map (roundSample rd)) := by
  induction S with
  | nil => exact .nil
  | cons s S ih => exact .cons ⟨[], rfl, by simp [roundSample]⟩ ih

/-- Reading a file of dead points. -/
theorem read_dead {tables : Tables ℝ} {name : String} {rd : ℝ → ℝ} {S : List (Sample ℝ)}
    (ht : tables name = some (S.map (fun s => (s.theta ++ [s.logl, s.birth]).map rd)))
    (h2 : 2 ≤ S.length) (hd : ∀ s ∈ S, ∀ t ∈ S, s.theta.length = t.theta.length) :
    (loadTable tables name >>= tableSamples) = .ok (S.map (roundSample rd)) := by
  have hr := rowOf_zero_round rd S
  have hl := loadTable_holds (k := 0) ht hr (by simpa using h2) (by
    intro a ha b hb
    obtain ⟨s, hs, rfl⟩ := List.mem_map.mp ha
    obtain ⟨t, ht, rfl⟩ := List.mem_map.mp hb
    simpa [roundSample] using hd s hs t ht)
  rw [hl, Py.ok_bind, ← tableSamples_ok.mpr hr]
  congr 1
  rw [dropCols]
  simp

/-- C71.  After `write_run_output` with `write_dead=True`, whether or not it goes on to fail,
`process_polychord_run` reads from the files a run of the documented format with the samples of
the run, rounded to the digits written, and its live counts are the numbers of threads of the run
present at each sample.  The rounding must keep distinct logls distinct.  (A run with the key
'settings' is rejected: `C73_rejects`.) -/
theorem C71_round_trip (A : Argsort ℝ) (R : Rng σ ℝ) {rd : ℝ → ℝ} (fl : Option ℝ → F) (CF : Codec F) (CI : Codec Int)
    {run : Run ℝ} {labels : List Int} {tmm : List (WithBot ℝ × ℝ)} (h : Writable run labels tmm)
    (h2 : 2 ≤ run.logl.length) (hdim : SameDim run.theta) (opts : WriteOpts)
    (hd : opts.writeDead = true) (hi : ∀ l ∈ run.logl, opts.loglInit < l)
    (hf : KeepsOrder rd (opts.loglInit :: run.logl)) {w : World (Written σ F)} {root dir : String}
    (hroot : w.rng.output.fileRoot = some root) (hdir : w.rng.output.baseDir = some dir) (da dw : Bool) :
    ∃ r' : Run ℝ, Valid r' ∧ r'.logl = run.logl.map rd ∧ r'.theta = run.theta.map (·.map rd) ∧
      r'.nlive.length = run.logl.length ∧
      (∀ (i : Nat) (l : ℝ), run.logl[i]? = some l → r'.nlive[i]? =
        some (tmm.countP (fun p => decide (p.1 < (l : WithBot ℝ) ∧ l ≤ p.2)) : Int)) ∧
      ∀ v : World σ, processPolychord A R CF CI (writeRun A R rd fl CF CI run none opts w).2.rng.tables
        (writeRun A R rd fl CF CI run none opts w).2.rng.texts root dir false da dw v =
        (.ok (r', .source ⟨root, dir⟩), v) := by
  have hf' : KeepsOrder rd run.logl := fun x hx y hy => hf x (by simp [hx]) y (by simp [hy])
  obtain ⟨S, hS, hSr, hz⟩ := runDeadBirth_round (σ := σ) h hf' A opts.loglInit false false
  obtain ⟨ht, -⟩ := writeRun_dead A R rd fl CF CI run opts hd hroot hdir hS
  have hlen : S.length = run.logl.length := by
    have := congrArg List.length hz
    simpa [h.theta_len] using this
  have hth : ∀ s ∈ S, s.theta ∈ run.theta := by
    intro s hs
    have : (s.logl, s.theta) ∈ run.logl.zip run.theta := by rw [← hz]; exact List.mem_map.mpr ⟨s, hs, rfl⟩
    exact (List.of_mem_zip this).2
  have hread := read_dead ht (by omega) (fun s hs t ht => hdim _ (hth s hs) _ (hth t ht))
  obtain ⟨r', hr', hv, e1, e2, e3, e4⟩ := C16_rewrite R (h.round hf') (init := rd opts.loglInit) (by
    intro l hl
    obtain ⟨x, hx, rfl⟩ := List.mem_map.mp (show l ∈ run.logl.map rd from hl)
    exact hf _ (by simp) _ (by simp [hx]) (hi x hx)) A da dw false false (σ := σ)
  refine ⟨r', hv, e1, e2, by rw [e3]; simp [roundRun], ?_, ?_⟩
  · intro i l hl
    have := e4 i (rd l) (by simp [roundRun, hl])
    rw [this, List.countP_map]
    congr 2
    apply List.countP_congr
    intro p hp
    have hlm := List.mem_of_getElem? hl
    have hend : p.2 ∈ run.logl := by
      obtain ⟨k, hk⟩ := List.mem_iff_getElem?.mp hp
      have hkr : (k : Int) ∈ labels := (h.labels_range k).mpr ⟨by omega, by
        exact_mod_cast (List.getElem?_eq_some_iff.mp hk).1⟩
      obtain ⟨-, -, q3⟩ := (threadsOK_iff_pick (h.strict.imp le_of_lt) (by rw [h.labels_len])).mp
        (validWith_iff.mp h.toValidWith).2.2.2.2.2.2
      obtain ⟨i, -, hi⟩ := mem_pick.mp (q3 k p hk).2
      exact List.mem_of_getElem? hi
    simp only [Function.comp_apply, decide_eq_true_eq]
    exact and_congr (start_lt_round hf' hlm (fun x hx => h.starts p hp x hx)) (hf'.le_iff hlm hend)
  · intro v
    have hp := hr' v
    rw [M.bind_ok (hSr v)] at hp
    exact (((C62_stats_never_fail A R CF CI _ _ root dir false da dw hread v).2 r' v hp).1 rfl)

/-- C71, the live counts are reproduced if they were the numbers of threads present. -/
theorem C71_nlive (A : Argsort ℝ) (R : Rng σ ℝ) {rd : ℝ → ℝ} (fl : Option ℝ → F) (CF : Codec F) (CI : Codec Int)
    {run : Run ℝ} {labels : List Int} {tmm : List (WithBot ℝ × ℝ)} (h : Writable run labels tmm)
    (h2 : 2 ≤ run.logl.length) (hdim : SameDim run.theta) (opts : WriteOpts)
    (hd : opts.writeDead = true) (hi : ∀ l ∈ run.logl, opts.loglInit < l)
    (hf : KeepsOrder rd (opts.loglInit :: run.logl))
    (hlive : ∀ (i : Nat) (l : ℝ), run.logl[i]? = some l → run.nlive[i]? =
      some (tmm.countP (fun p => decide (p.1 < (l : WithBot ℝ) ∧ l ≤ p.2)) : Int))
    {w : World (Written σ F)} {root dir : String}
    (hroot : w.rng.output.fileRoot = some root) (hdir : w.rng.output.baseDir = some dir) (da dw : Bool) :
    ∃ r' : Run ℝ, Valid r' ∧ r'.logl = run.logl.map rd ∧ r'.theta = run.theta.map (·.map rd) ∧
      r'.nlive = run.nlive ∧
      ∀ v : World σ, processPolychord A R CF CI (writeRun A R rd fl CF CI run none opts w).2.rng.tables
        (writeRun A R rd fl CF CI run none opts w).2.rng.texts root dir false da dw v =
        (.ok (r', .source ⟨root, dir⟩), v) := by
  obtain ⟨r', h1, h3, h4, h5, h6, h7⟩ := C71_round_trip A R fl CF CI h h2 hdim opts hd hi hf hroot hdir da dw
  refine ⟨r', h1, h3, h4, ?_, h7⟩
  apply List.ext_getElem?
  intro i
  rcases lt_or_ge i run.logl.length with hil | hil
  · rw [h6 i _ (List.getElem?_eq_getElem hil), hlive i _ (List.getElem?_eq_getElem hil)]
  · rw [List.getElem?_eq_none (by omega), List.getElem?_eq_none (by rw [h.nlive_len]; omega)]

/-- C71, starting from a file: writing the run made from a consistent dead-birth array gives
that array, sorted by logl, in the file [root]_dead-birth.txt, and the array without its last column
in [root]_dead.txt. -/
theorem C71_file (A : Argsort ℝ) (R : Rng σ ℝ) {rd : ℝ → ℝ} (fl : Option ℝ → F) (CF : Codec F) (CI : Codec Int)
    {samples : List (Sample ℝ)} (opts : WriteOpts) (hc : Consistent samples opts.loglInit)
    (hd : opts.writeDead = true) (hrd : ∀ s ∈ samples, ∀ x ∈ s.theta ++ [s.logl, s.birth], rd x = x)
    {run : Run ℝ} {da dw : Bool} {v v' : World σ} (hp : processSamples A R samples da dw v = (.ok run, v'))
    {w : World (Written σ F)} {root dir : String}
    (hroot : w.rng.output.fileRoot = some root) (hdir : w.rng.output.baseDir = some dir) :
    ∃ S : List (Sample ℝ), S.Perm samples ∧ S.Pairwise (fun a b => a.logl < b.logl) ∧
      (writeRun A R rd fl CF CI run none opts w).2.rng.tables (pathJoin dir root ++ "_dead-birth.txt") =
        some (S.map (fun s => s.theta ++ [s.logl, s.birth])) ∧
      (writeRun A R rd fl CF CI run none opts w).2.rng.tables (pathJoin dir root ++ "_dead.txt") =
        some (S.map (fun s => s.theta ++ [s.logl])) := by
  have hS : ∀ u : World σ, runDeadBirth A run opts.loglInit false false u =
      (.ok (sortBy A (·.logl) samples), u) := by
    intro u
    obtain ⟨r', h1, -⟩ := C01_nlive_exact R hc A da dw (σ := σ)
    rw [h1 v] at hp
    cases hp
    have := C15_dead_birth_roundtrip R hc A da dw false false u
    rwa [M.bind_ok (h1 u)] at this
  obtain ⟨h1, h2⟩ := writeRun_dead A R rd fl CF CI run opts hd hroot hdir hS
  have hperm := sortBy_perm A (fun s : Sample ℝ => s.logl) samples
  refine ⟨_, hperm, sortBy_strict hc.distinct, ?_, ?_⟩
  · rw [h1]
    congr 1
    apply List.map_congr_left
    intro s hs
    exact (List.map_congr_left (g := id) (hrd s (hperm.subset hs))).trans (List.map_id _)
  · rw [h2]
    congr 1
    apply List.map_congr_left
    intro s hs
    refine (List.map_congr_left (g := id) ?_).trans (List.map_id _)
    intro x hx
    apply hrd s (hperm.subset hs)
    simp only [List.mem_append, List.mem_cons, List.not_mem_nil, or_false] at hx ⊢
    tauto

end
end Nestcheck
