import Verif.Model.Diagnostics
import Verif.Model.Instances
import Verif.Proofs.FrameBootstrap
import Verif.Props.Parallel
import Verif.Props.Pandas
import Verif.Props.Distances

/-
C47, C67, C68: the tables of diagnostics_tables.py.
-/

set_option linter.unusedSectionVars false

namespace Nestcheck
open Spec
noncomputable section
variable {σ : Type} (A : Argsort ℝ) (R : Rng σ ℝ)

/-! ### Functions with the same outcome in every world -/

section
variable {α β : Type}

/-- The order in which results are collected: the order of completion, or the order of the
input without parallelisation. -/
def Spec.rowOrder (parallel : Bool) {n : Nat} (S : Schedule σ n) : List Nat :=
  if parallel then S.order else List.range n

theorem mapSeq_outcome {f : α → M σ β} {v : α → Py β} (hf : ∀ x w, (f x w).1 = v x) (xs : List α) (w : World σ) :
    (mapSeq f xs w).1 = xs.mapM v := by
  induction xs generalizing w with
  | nil => rfl
  | cons x xs ih =>
    rw [mapSeq, List.mapM_cons]
    have hx := hf x w
    rcases hfx : f x w with ⟨e | y, w1⟩
    · rw [hfx] at hx
      rw [← hx, M.bind_error hfx]
      rfl
    · rw [hfx] at hx
      have h := ih w1
      rw [← hx, M.bind_ok hfx, ← h]
      rcases hm : mapSeq f xs w1 with ⟨e | ys, w2⟩
      · rw [M.bind_error hm]; rfl
      · rw [M.bind_ok hm]; rfl

theorem mapSeq_restored {f : α → M σ β} (hf : ∀ x, RngRestored (f x)) (xs : List α) : RngRestored (mapSeq f xs) := by
  induction xs with
  | nil => exact .pure _
  | cons x xs ih => exact .bind (hf x) fun _ => .bind ih fun _ => .pure _

theorem forall₂_mapM {v : α → Py β} {xs : List α} {ys : List β}
    (h : List.Forall₂ (fun x y => v x = .ok y) xs ys) : xs.mapM v = .ok ys := by
  induction h with
  | nil => rfl
  | cons hx _ ih => rw [List.mapM_cons, hx, ih]; rfl

/-- The results of `parallel_apply` for a function with the same outcome in every world. -/
theorem apply_outcome {f : α → M σ β} (hf : ∀ x w w', (f x w).1 = (f x w').1) (hr : ∀ x, RngRestored (f x))
    {xs : List α} {ys : List β} (h : List.Forall₂ (fun x y => ∃ w, (f x w).1 = .ok y) xs ys)
    (parallel warn : Bool) (S : Schedule σ xs.length) (w : World σ) :
    ∃ (zs : List β) (w' : World σ), parallelApply f xs parallel warn S w = (.ok zs, w') ∧ w'.rng = w.rng ∧
      (parallel = true → w' = w) ∧ zs.Perm ys ∧
      ∀ k : Nat, zs[k]? = ((rowOrder parallel S)[k]?).bind (fun i => ys[i]?) := by
  have hl := h.length_eq
  cases parallel with
  | true =>
    obtain ⟨zs, h1, h2, h3⟩ := C46_apply f xs warn S (ys := ys) ⟨hl.symm, by
      intro i x y hx hy
      obtain ⟨hi, ex⟩ := List.getElem?_eq_some_iff.mp hx
      obtain ⟨hi', ey⟩ := List.getElem?_eq_some_iff.mp hy
      obtain ⟨w', h'⟩ := (List.forall₂_iff_get.mp h).2 i hi hi'
      simp only [List.get_eq_getElem, ex, ey] at h'
      rw [hf x _ w', h']⟩ w
    exact ⟨zs, w, h1, rfl, fun _ => rfl, h2, h3⟩
  | false =>
    set v : α → Py β := fun x => (f x w).1 with hv
    have hm : xs.mapM v = .ok ys := forall₂_mapM (h.imp (fun x y ⟨w', h'⟩ => by rw [← h', hf x w' w]))
    have hs := mapSeq_outcome (f := f) (v := v) (fun x w' => hf x w' w) xs (warned warn w)
    rw [hm] at hs
    have he : parallelApply f xs false warn S w = (.ok ys, (mapSeq f xs (warned warn w)).2) := by
      rw [(C46_sequential f xs warn S 1 (fun _ => w) w).1]
      exact Prod.ext hs rfl
    refine ⟨ys, (mapSeq f xs (warned warn w)).2, he, ?_, (by simp), List.Perm.refl _, ?_⟩
    · rw [mapSeq_restored hr xs (warned warn w) ys _ (Prod.ext hs rfl)]
      cases warn <;> rfl
    · intro k
      rw [rowOrder, if_neg (by simp)]
      by_cases hk : k < xs.length
      · rw [List.getElem?_range hk]; rfl
      · rw [List.getElem?_eq_none (by omega), List.getElem?_eq_none (by simp; omega)]; rfl

/-- If the function fails on an item, so does `parallel_apply`. -/
theorem apply_outcome_error {f : α → M σ β} (hf : ∀ x w w', (f x w).1 = (f x w').1)
    {xs : List α} {x : α} (hx : x ∈ xs) {w0 : World σ} {e : PyErr} (he : (f x w0).1 = .error e)
    (parallel warn : Bool) (S : Schedule σ xs.length) (w : World σ) :
    ∃ (y : α) (e' : PyErr), y ∈ xs ∧ (f y w0).1 = .error e' ∧
      (parallelApply f xs parallel warn S w).1 = .error e' := by
  cases parallel with
  | true =>
    obtain ⟨i, hi⟩ := List.mem_iff_getElem?.mp hx
    obtain ⟨_, _, j, y, e', -, -, h3, h4, h5⟩ := C46_apply_error f xs warn S hi (by rw [hf x _ w0, he]) w
    exact ⟨y, e', List.mem_of_getElem? h3, by rw [hf y w0 _, h4], by rw [h5]⟩
  | false =>
    rw [(C46_sequential f xs warn S 1 (fun _ => w) w).1,
      mapSeq_outcome (v := fun x => (f x w0).1) (fun x w' => hf x w' w0)]
    clear S
    induction xs with
    | nil => simp at hx
    | cons z zs ih =>
      rw [List.mapM_cons]
      cases hz : (f z w0).1 with
      | error e' => exact ⟨z, e', by simp, hz, rfl⟩
      | ok b =>
        rcases List.mem_cons.mp hx with rfl | hx
        · rw [hz] at he; cases he
        · obtain ⟨y, e', h1, h2, h3⟩ := ih hx
          refine ⟨y, e', by simp [h1], h2, ?_⟩
          show ((zs.mapM fun x => (f x w0).1) >>= fun ys => pure (b :: ys)) = _
          rw [h3]; rfl

end

/-! ### C47: `estimator_values_df` -/

/-- C47.  `estimator_values_df` with deterministic estimators which return on all the runs: one
row for each run with the values of its estimators, in the order in which the workers complete
(in the order of the runs without parallelisation).  So the rows are the same for every
schedule up to their order. -/
theorem C47_values {fs : List (EstFunc σ)} (hf : ∀ f ∈ fs, Deterministic f) {names : List String}
    (hn : names.length = fs.length) {runs : List (Run ℝ)} (hr : runs ≠ []) {ys : List (List Cell)}
    (hy : List.Forall₂ (fun r y => ∃ w : World σ, (runEstimators R r fs false w).1 = .ok y) runs ys)
    (parallel : Bool) (S : Schedule σ runs.length) (w : World σ) :
    ∃ (zs : List (List Cell)) (w' : World σ),
      estimatorValuesDf R runs fs names parallel S w = (.ok ⟨fs.length, zs⟩, w') ∧ w'.rng = w.rng ∧
      zs.Perm ys ∧ ∀ k : Nat, zs[k]? = ((rowOrder parallel S)[k]?).bind (fun i => ys[i]?) := by
  have hfix := fun r => runEstimators_fixed R hf r
  obtain ⟨zs, w', h1, h2, -, h3, h4⟩ := apply_outcome (f := fun r => runEstimators R r fs false)
    (fun r w1 w2 => by obtain ⟨v, hv⟩ := hfix r; rw [hv, hv]) (fun r => (hfix r).restored) hy parallel true S w
  refine ⟨zs, w', ?_, h2, h3, h4⟩
  unfold estimatorValuesDf
  rw [M.bind_ok h1, if_neg, if_neg (by simp [hn])]
  · rfl
  · intro h0
    rw [h0] at h3
    have := h3.length_eq
    rw [← hy.length_eq] at this
    exact hr (List.length_eq_zero_iff.mp this.symm)

/-- C47.  If the estimators fail on one of the runs, `estimator_values_df` fails for every
schedule, with the error of one of the runs. -/
theorem C47_values_error {fs : List (EstFunc σ)} (hf : ∀ f ∈ fs, Deterministic f) (names : List String)
    {runs : List (Run ℝ)} {r : Run ℝ} (hr : r ∈ runs) {w0 : World σ} {e : PyErr}
    (he : (runEstimators R r fs false w0).1 = .error e) (parallel : Bool) (S : Schedule σ runs.length) (w : World σ) :
    ∃ (r' : Run ℝ) (e' : PyErr), r' ∈ runs ∧ (runEstimators R r' fs false w0).1 = .error e' ∧
      (estimatorValuesDf R runs fs names parallel S w).1 = .error e' := by
  have hfix := fun r => runEstimators_fixed R hf r
  obtain ⟨y, e', h1, h2, h3⟩ := apply_outcome_error (f := fun r => runEstimators R r fs false)
    (fun r w1 w2 => by obtain ⟨v, hv⟩ := hfix r; rw [hv, hv]) hr he parallel true S w
  refine ⟨y, e', h1, h2, ?_⟩
  unfold estimatorValuesDf
  rw [M.bind_error (Prod.ext h3 rfl)]

/-! ### Tables of arrays -/

/-- `df` has the given columns, and column `i` holds element `i` of each array. -/
def Spec.CellsOf {β : Type} (df : DF β) (names : List String) (arrs : List (List β)) : Prop :=
  df.names = names ∧ ∀ (i : Nat) (c : String × List β), df.cols[i]? = some c →
    List.Forall₂ (fun cell arr => arr[i]? = some cell) c.2 arrs

theorem pyMap_getElem {β : Type} (arrs : List (List β)) (i : Nat) (h : ∀ a ∈ arrs, i < a.length) :
    ∃ col, pyMap (arrRow i) arrs = .ok col ∧ List.Forall₂ (fun cell arr => arr[i]? = some cell) col arrs := by
  induction arrs with
  | nil => exact ⟨[], rfl, .nil⟩
  | cons a as ih =>
    obtain ⟨col, h1, h2⟩ := ih (fun b hb => h b (by simp [hb]))
    have hi : i < a.length := h a (by simp)
    have ha : a[i]? = some a[i] := List.getElem?_eq_getElem hi
    refine ⟨a[i] :: col, ?_, .cons ha h2⟩
    simp only [pyMap, arrRow, ha, h1]
    rfl

theorem cellColumns_ok {β : Type} (arrs : List (List β)) : ∀ (names : List String) (i : Nat) (df : DF β),
    df.cols.length = i → (df.names ++ names).Nodup → (∀ a ∈ arrs, i + names.length ≤ a.length) →
    CellsOf df df.names arrs →
    ∃ df', cellColumns arrs i names df = .ok df' ∧ CellsOf df' (df.names ++ names) arrs := by
  intro names
  induction names with
  | nil => intro i df _ _ _ h; exact ⟨df, rfl, by simpa using h⟩
  | cons name names ih =>
    intro i df hi hn hl hc
    obtain ⟨col, h1, h2⟩ := pyMap_getElem arrs i (fun a ha => by have := hl a ha; simp at this; omega)
    have hnot : name ∉ df.names := by
      intro hm
      exact (List.nodup_append.mp hn).2.2 name hm name (by simp) rfl
    have hset : df.setCol name col = ⟨df.cols ++ [(name, col)]⟩ := by rw [DF.setCol, if_neg hnot]
    have hnames : (df.setCol name col).names = df.names ++ [name] := by rw [hset]; simp [DF.names]
    obtain ⟨df', h3, h4⟩ := ih (i + 1) (df.setCol name col) (by rw [hset]; simp [hi])
      (by rw [hnames]; simpa using hn) (fun a ha => by have := hl a ha; simp at this; omega) (by
        refine ⟨rfl, ?_⟩
        intro j c hjc
        rw [hset] at hjc
        simp only at hjc
        by_cases hj : j < df.cols.length
        · rw [List.getElem?_append_left hj] at hjc
          exact hc.2 j c hjc
        · rw [List.getElem?_append_right (by omega), List.getElem?_singleton] at hjc
          have hj0 : j - df.cols.length = 0 := by by_contra hne; simp [hne] at hjc
          rw [if_pos hj0] at hjc
          simp only [Option.some.injEq] at hjc
          subst hjc
          have : j = i := by omega
          subst this
          exact h2)
    refine ⟨df', ?_, ?_⟩
    · rw [cellColumns, h1]; exact h3
    · rw [hnames] at h4; simpa using h4

/-- The table made of arrays with distinct names, and its first row. -/
theorem table_of_arrays {β : Type} {names : List String} (hn : names.Nodup) (h0 : names ≠ [])
    {arrs : List (List (List β))} (hl : ∀ a ∈ arrs, a.length = names.length) {a0 : List (List β)}
    (ha0 : arrs.head? = some a0) :
    ∃ df, cellColumns arrs 0 names ⟨[]⟩ = .ok df ∧ CellsOf df names arrs ∧ df.row0 = .ok a0 := by
  obtain ⟨df, h1, h2⟩ := cellColumns_ok arrs names 0 ⟨[]⟩ rfl (by simpa [DF.names] using hn)
    (fun a ha => by rw [hl a ha]; omega) ⟨rfl, by simp⟩
  have h2 : CellsOf df names arrs := by simpa [DF.names] using h2
  refine ⟨df, h1, h2, ?_⟩
  obtain ⟨a, as, rfl⟩ : ∃ a as, arrs = a :: as := by
    cases arrs with
    | nil => simp at ha0
    | cons a as => exact ⟨a, as, rfl⟩
  simp only [List.head?_cons, Option.some.injEq] at ha0
  subst ha0
  have hlen : df.cols.length = a.length := by
    rw [hl a (by simp), ← h2.1, DF.names, List.length_map]
  have key : ∀ (cols : List (String × List (List β))) (b : List (List β)), cols.length = b.length →
      (∀ (i : Nat) (c : String × List (List β)), cols[i]? = some c → ∃ x xs, c.2 = x :: xs ∧ b[i]? = some x) →
      pyMap firstCell cols = .ok b := by
    intro cols
    induction cols with
    | nil => intro b hb _; have : b = [] := List.length_eq_zero_iff.mp hb.symm; subst this; rfl
    | cons c cs ih =>
      intro b hb hc
      obtain ⟨y, ys, rfl⟩ : ∃ y ys, b = y :: ys := by
        cases b with
        | nil => simp at hb
        | cons y ys => exact ⟨y, ys, rfl⟩
      obtain ⟨x, xs, e1, e2⟩ := hc 0 c rfl
      simp only [List.getElem?_cons_zero, Option.some.injEq] at e2
      subst e2
      simp only [pyMap, firstCell, e1, ih ys (by simpa using hb) (fun i c' hc' => by
        have := hc (i + 1) c' (by simpa using hc')
        simpa using this)]
      rfl
  have hcn : df.cols ≠ [] := by
    intro h
    have := congrArg List.length h
    rw [hlen, hl a (by simp)] at this
    exact h0 (List.length_eq_zero_iff.mp this)
  unfold DF.row0
  split
  · rename_i h; exact absurd h hcn
  · apply key df.cols a hlen
    intro i c hic
    have := h2.2 i c hic
    cases hc : c.2 with
    | nil => rw [hc] at this; cases this
    | cons x xs =>
      rw [hc] at this
      cases this with
      | cons hx _ => exact ⟨x, xs, rfl, hx⟩

theorem flipRow_length (row : List (Option ℝ)) : (flipRow row).length = row.length := by simp [flipRow]

/-- The shape of the array of `run_bootstrap_values`. -/
theorem bootstrapValues_shape {r : Run ℝ} {settings : Option Settings} {fs : List (EstFunc σ)} {n : Nat}
    {sep flip : Bool} {seeds : Option (List Seed)} {w : World σ} {vals : List (List (Option ℝ))}
    (h : (runBootstrapValues A R r settings fs n sep flip seeds w).1 = .ok vals) :
    vals.length = fs.length ∧ ∀ row ∈ vals, row.length = n := by
  obtain ⟨w', h⟩ : ∃ w', runBootstrapValues A R r settings fs n sep flip seeds w = (.ok vals, w') :=
    ⟨_, Prod.ext h rfl⟩
  cases flip with
  | false =>
    obtain ⟨_, _, -, -, -, h1, h2, -⟩ := C61_values A R h
    exact ⟨h1, h2⟩
  | true =>
    unfold runBootstrapValues at h
    dsimp only at h
    obtain ⟨_, w1, h1, h⟩ := M.bind_eq_ok.mp h
    obtain ⟨ts, w2, h2, h⟩ := M.bind_eq_ok.mp h
    obtain ⟨cols, w3, h3, h⟩ := M.bind_eq_ok.mp h
    rw [M.pure_apply, if_pos rfl] at h
    cases h
    have h' : runBootstrapValues A R r settings fs n sep false seeds w = (.ok (fromColumns fs.length cols), w') := by
      unfold runBootstrapValues
      dsimp only
      rw [M.bind_ok h1, M.bind_ok h2, M.bind_ok h3]
      rfl
    obtain ⟨_, _, -, -, -, e1, e2, -⟩ := C61_values A R h'
    refine ⟨by rw [List.length_map, e1], ?_⟩
    intro row hr
    obtain ⟨row', hr', rfl⟩ := List.mem_map.mp hr
    rw [flipRow_length]
    exact e2 row' hr'

/-! ### C47: `bs_values_df` -/

/-- C47.  `bs_values_df` with deterministic estimators for which `run_bootstrap_values` returns
on all the runs: cell (k, i) is row i of the bootstrap values of the k-th run to be completed.
The rows are the same for every schedule up to their order. -/
theorem C47_bootstrap {fs : List (EstFunc σ)} (hf : ∀ f ∈ fs, Deterministic f) {names : List String}
    (hn : names.length = fs.length) (hnd : names.Nodup) (h0 : names ≠ []) {runs : List (Run ℝ)} (hr : runs ≠ [])
    {nSim : Nat} {arrs : List (List (List Cell))}
    (hy : List.Forall₂ (fun r a => ∃ w : World σ,
      (runBootstrapValues A R r none fs nSim false true none w).1 = .ok a) runs arrs)
    (parallel : Bool) (S : Schedule σ runs.length) (w : World σ) :
    ∃ (df : DF (List Cell)) (zs : List (List (List Cell))) (w' : World σ),
      bsValuesDf A R runs fs names nSim parallel S w = (.ok df, w') ∧ w'.rng = w.rng ∧ CellsOf df names zs ∧
      zs.Perm arrs ∧ ∀ k : Nat, zs[k]? = ((rowOrder parallel S)[k]?).bind (fun i => arrs[i]?) := by
  have hc := fun r => C35_values A R hf r none nSim false true (seeds := none) (by simp) 0
  obtain ⟨zs, w', h1, h2, -, h3, h4⟩ := apply_outcome
    (f := fun r => runBootstrapValues A R r none fs nSim false true none)
    (fun r w1 w2 => outcome_const (runBootstrapValues_frame A R hf r none nSim false true none) (hc r).1.2 w1 w2)
    (fun r => (hc r).1.1) hy parallel true S w
  have hshape : ∀ a ∈ zs, a.length = names.length ∧ ∀ row ∈ a, row.length = nSim := by
    intro a ha
    obtain ⟨i, hi⟩ := List.mem_iff_getElem?.mp (h3.mem_iff.mp ha)
    obtain ⟨hil, hia⟩ := List.getElem?_eq_some_iff.mp hi
    obtain ⟨w1, hw1⟩ := (List.forall₂_iff_get.mp hy).2 i (by rw [hy.length_eq]; exact hil) hil
    simp only [List.get_eq_getElem, hia] at hw1
    have := bootstrapValues_shape A R hw1
    rw [hn]; exact this
  have hzne : zs ≠ [] := by
    intro h
    rw [h] at h3
    have := h3.length_eq
    rw [← hy.length_eq] at this
    exact hr (List.length_eq_zero_iff.mp this.symm)
  obtain ⟨a0, as, hz⟩ := List.exists_cons_of_ne_nil hzne
  obtain ⟨df, e1, e2, e3⟩ := table_of_arrays hnd h0 (fun a ha => (hshape a ha).1) (a0 := a0) (by rw [hz]; rfl)
  refine ⟨df, zs, w', ?_, h2, e2, h3, h4⟩
  unfold bsValuesDf
  rw [M.bind_ok (a := ()) (w' := w) (by rw [M.assert_apply]; simp [hn]), M.bind_ok h1,
    M.bind_ok (a := df) (w' := w') (by rw [M.lift_apply, e1]),
    M.bind_ok (a := ()) (w' := w') ?_]
  · rfl
  · rw [M.lift_apply]
    unfold checkCells
    rw [e3]
    have : a0.all (fun c => decide (c.length = nSim)) = true := by
      rw [List.all_eq_true]
      intro c hc
      simpa using (hshape a0 (by rw [hz]; simp)).2 c hc
    show ((if a0.all (fun c => decide (c.length = nSim)) = true then Except.ok () else Except.error PyErr.assertion : Py Unit), w') = _
    rw [if_pos this]

/-! ### C47: `thread_values_df` -/

theorem getThreadsLoop_length {rows : List (Row ℝ)} {tmm : List (WithBot ℝ × ℝ)} : ∀ {labs : List Int} {i : Nat}
    {w w' : World σ} {ts : List (Run ℝ)}, getThreadsLoop rows tmm i labs w = (.ok ts, w') → ts.length = labs.length := by
  intro labs
  induction labs with
  | nil => intro i w w' ts h; cases h; rfl
  | cons l ls ih =>
    intro i w w' ts h
    obtain ⟨t, w1, h1, h⟩ := M.bind_eq_ok.mp h
    obtain ⟨us, w2, h2, h⟩ := M.bind_eq_ok.mp h
    cases h
    simp [ih h2]

theorem getRunThreads_length {r : Run ℝ} {w : World σ} {ts : List (Run ℝ)} (h : (getRunThreads r w).1 = .ok ts) :
    ∃ tmm, r.tmm = some tmm ∧ ts.length = tmm.length := by
  obtain ⟨w', h⟩ : ∃ w', getRunThreads r w = (.ok ts, w') := ⟨_, Prod.ext h rfl⟩
  unfold getRunThreads at h
  obtain ⟨rows, w1, h1, h⟩ := M.bind_eq_ok.mp h
  rcases hl : r.labels with _ | labels
  · rw [hl] at h; cases h
  · rcases ht : r.tmm with _ | tmm
    · rw [hl, ht] at h; cases h
    · rw [hl, ht] at h
      obtain ⟨_, w2, h2, h⟩ := M.bind_eq_ok.mp h
      refine ⟨tmm, rfl, ?_⟩
      rw [getThreadsLoop_length h]
      rw [M.assert_apply] at h2
      by_cases hc : tmm.length = (unique labels).length
      · exact hc.symm
      · simp [hc] at h2

/-- The number of threads of a run. -/
def Spec.threadNumber (r : Run ℝ) : Nat := (r.tmm.getD []).length

theorem threadValues_shape {r : Run ℝ} {fs : List (EstFunc σ)} {w : World σ} {vals : List (List (Option ℝ))}
    (h : (runThreadValues R r fs w).1 = .ok vals) :
    vals.length = fs.length ∧ (∀ row ∈ vals, row.length = threadNumber r) ∧ ∃ tmm, r.tmm = some tmm := by
  obtain ⟨w', h⟩ : ∃ w', runThreadValues R r fs w = (.ok vals, w') := ⟨_, Prod.ext h rfl⟩
  obtain ⟨ts, h1, h2, h3, -⟩ := C58_threads R h
  obtain ⟨tmm, e1, e2⟩ := getRunThreads_length h1
  refine ⟨h2, fun row hr => ?_, tmm, e1⟩
  rw [h3 row hr, threadNumber, e1, e2]; rfl

theorem getRunThreads_rngRestored (r : Run ℝ) : RngRestored (getRunThreads r : M σ (List (Run ℝ))) :=
  rngRestored_threads r

theorem threadColumns_fixed {fs : List (EstFunc σ)} (hf : ∀ f ∈ fs, Deterministic f) (ts : List (Run ℝ)) :
    Fixed (threadColumns R fs ts) := by
  induction ts with
  | nil => exact .pure _
  | cons t ts ih => exact .bind (runEstimators_fixed R hf t) fun _ => .bind ih fun _ => .pure _

theorem runThreadValues_const {fs : List (EstFunc σ)} (hf : ∀ f ∈ fs, Deterministic f) (r : Run ℝ) :
    Frame (runThreadValues R r fs) ∧ RngIndependent (runThreadValues R r fs) ∧ RngRestored (runThreadValues R r fs) := by
  have hc := fun ts => threadColumns_fixed R hf ts
  have hrest : ∀ (ts : List (Run ℝ)) (cols : List (List (Option ℝ))), Fixed (σ := σ)
      (if cols.isEmpty = true then M.raise PyErr.value else do
        M.assert ((fromColumns fs.length cols).length = fs.length ∧
          (fromColumns fs.length cols).all (fun row => decide (row.length = ts.length)))
        pure (fromColumns fs.length cols)) := by
    intro ts cols
    exact .ite (.raise _) (.bind (.assert _) fun _ => .pure _)
  refine ⟨?_, ?_, ?_⟩
  · exact .bind (getRunThreads_frame r) fun ts => .bind (.of_fixed (hc ts)) fun cols => .of_fixed (hrest ts cols)
  · exact .bind (rngIndependent_threads r) fun ts => .bind (hc ts).independent fun cols => (hrest ts cols).independent
  · exact .bind (rngRestored_threads r) fun ts => .bind (hc ts).restored fun cols => (hrest ts cols).restored

/-- C47.  `thread_values_df` with deterministic estimators which return on all threads of all
runs.  Let `first` be the first run to be completed (the first of the list without
parallelisation).  If it has as many threads as the first run of the list, cell (k, i) is row i
of the thread values of the k-th run to be completed; otherwise the call raises
`AssertionError`.  So if the runs have different numbers of threads, it depends on the schedule
whether the call succeeds. -/
theorem C47_threads {fs : List (EstFunc σ)} (hf : ∀ f ∈ fs, Deterministic f) {names : List String}
    (hn : names.length = fs.length) (hnd : names.Nodup) (h0 : names ≠ []) {runs : List (Run ℝ)} {r0 : Run ℝ}
    (hr0 : runs.head? = some r0) {arrs : List (List (List Cell))}
    (hy : List.Forall₂ (fun r a => ∃ w : World σ, (runThreadValues R r fs w).1 = .ok a) runs arrs)
    (parallel : Bool) (S : Schedule σ runs.length) {i : Nat} (hi : (rowOrder parallel S).head? = some i)
    {first : Run ℝ} (hfirst : runs[i]? = some first) (w : World σ) :
    (threadNumber first = threadNumber r0 → ∃ (df : DF (List Cell)) (zs : List (List (List Cell))) (w' : World σ),
      threadValuesDf R runs fs names parallel S w = (.ok df, w') ∧ w'.rng = w.rng ∧ CellsOf df names zs ∧
      zs.Perm arrs ∧ ∀ k : Nat, zs[k]? = ((rowOrder parallel S)[k]?).bind (fun i => arrs[i]?)) ∧
    (threadNumber first ≠ threadNumber r0 → (threadValuesDf R runs fs names parallel S w).1 = .error .assertion) := by
  have hc := fun r => runThreadValues_const R hf r
  obtain ⟨zs, w', h1, h2, -, h3, h4⟩ := apply_outcome (f := fun r => runThreadValues R r fs)
    (fun r w1 w2 => outcome_const (hc r).1 (hc r).2.1 w1 w2) (fun r => (hc r).2.2) hy parallel true S w
  have hshape : ∀ (k : Nat) (r : Run ℝ) (a : List (List Cell)), runs[k]? = some r → arrs[k]? = some a →
      a.length = names.length ∧ (∀ row ∈ a, row.length = threadNumber r) ∧ ∃ tmm, r.tmm = some tmm := by
    intro k r a hkr hka
    obtain ⟨hk1, e1⟩ := List.getElem?_eq_some_iff.mp hkr
    obtain ⟨hk2, e2⟩ := List.getElem?_eq_some_iff.mp hka
    obtain ⟨w1, hw1⟩ := (List.forall₂_iff_get.mp hy).2 k hk1 hk2
    simp only [List.get_eq_getElem, e1, e2] at hw1
    rw [hn]
    exact threadValues_shape R hw1
  have hil : i < arrs.length := by
    rw [← hy.length_eq]; exact (List.getElem?_eq_some_iff.mp hfirst).1
  have hz0 : zs.head? = some arrs[i] := by
    rw [List.head?_eq_getElem?, h4 0, ← List.head?_eq_getElem?, hi]
    exact List.getElem?_eq_getElem hil
  have hlen : ∀ a ∈ zs, a.length = names.length := by
    intro a ha
    obtain ⟨k, hk⟩ := List.mem_iff_getElem?.mp (h3.mem_iff.mp ha)
    have hkl := (List.getElem?_eq_some_iff.mp hk).1
    rw [← hy.length_eq] at hkl
    exact (hshape k _ a (List.getElem?_eq_getElem hkl) hk).1
  obtain ⟨df, e1, e2, e3⟩ := table_of_arrays hnd h0 hlen hz0
  obtain ⟨s1, s2, -⟩ := hshape i first _ hfirst (List.getElem?_eq_getElem hil)
  have hruns : ∃ rs, runs = r0 :: rs := by
    cases runs with
    | nil => simp at hr0
    | cons r rs => simp only [List.head?_cons, Option.some.injEq] at hr0; exact ⟨rs, by rw [hr0]⟩
  obtain ⟨rs, hruns⟩ := hruns
  have hf0 : firstThreads runs = .ok (threadNumber r0) := by
    have h0l : 0 < arrs.length := by omega
    obtain ⟨-, -, tmm, ht⟩ := hshape 0 r0 arrs[0] (by rw [hruns]; rfl) (List.getElem?_eq_getElem h0l)
    rw [hruns]
    simp only [firstThreads, ht, threadNumber, Option.getD_some]
  have hcheck : checkCells df (threadNumber r0) =
      if threadNumber first = threadNumber r0 then .ok () else .error .assertion := by
    unfold checkCells
    rw [e3]
    show (if (arrs[i]).all (fun c => decide (c.length = threadNumber r0)) = true then Except.ok () else Except.error PyErr.assertion : Py Unit) = _
    by_cases h : threadNumber first = threadNumber r0
    · rw [if_pos h, if_pos]
      rw [List.all_eq_true]
      intro c hc
      simpa [← h] using s2 c hc
    · rw [if_neg h, if_neg]
      intro hall
      rw [List.all_eq_true] at hall
      obtain ⟨c, hc⟩ := List.exists_mem_of_ne_nil (arrs[i]) (by
        intro h'
        rw [h'] at s1
        exact h0 (List.length_eq_zero_iff.mp s1.symm))
      have := hall c hc
      rw [decide_eq_true_eq, s2 c hc] at this
      exact h this
  have heq : threadValuesDf R runs fs names parallel S w = (M.lift (checkCells df (threadNumber r0)) >>= fun _ => pure df) w' := by
    unfold threadValuesDf
    rw [M.bind_ok (a := ()) (w' := w) (by rw [M.assert_apply]; simp [hn]), M.bind_ok h1,
      M.bind_ok (a := df) (w' := w') (by rw [M.lift_apply, e1]),
      M.bind_ok (a := _) (w' := w') (by rw [M.lift_apply, e3]),
      M.bind_ok (a := _) (w' := w') (by rw [M.lift_apply, hf0])]
  constructor
  · intro h
    refine ⟨df, zs, w', ?_, h2, e2, h3, h4⟩
    rw [heq, hcheck, if_pos h]
    rfl
  · intro h
    rw [heq, hcheck, if_neg h]
    rfl

theorem thread_weighable {r : Run ℝ} {labels : List Int} {tmm : List (WithBot ℝ × ℝ)} (h : ValidWith r labels tmm)
    {w : World σ} {ts : List (Run ℝ)} (hts : (getRunThreads r w).1 = .ok ts) : ∀ t ∈ ts, Weighable t := by
  rw [getRunThreads_ok h w] at hts
  simp only [Except.ok.injEq] at hts
  subst hts
  intro t ht
  obtain ⟨k, hk, rfl⟩ := List.mem_map.mp ht
  rw [List.mem_range] at hk
  refine ⟨?_, ?_, ?_⟩
  · have hm : (k : Int) ∈ labels := (h.labels_range k).mpr ⟨by omega, by omega⟩
    obtain ⟨i, hi⟩ := List.mem_iff_getElem?.mp hm
    obtain ⟨hil, hik⟩ := List.getElem?_eq_some_iff.mp hi
    have hil' : i < r.logl.length := by rw [← h.labels_len]; exact hil
    apply List.ne_nil_of_mem (a := r.logl[i])
    show r.logl[i] ∈ pick labels k r.logl
    unfold pick
    rw [List.mem_map]
    refine ⟨(labels[i], r.logl[i]), ?_, rfl⟩
    rw [List.mem_filter]
    refine ⟨?_, by simp [hik]⟩
    rw [List.mem_iff_getElem]
    exact ⟨i, by simp; omega, by simp⟩
  · intro n hn
    have : n = 1 := List.eq_of_mem_replicate hn
    omega
  · simp [threadRun]

theorem count_value {r : Run ℝ} (h : Weighable r) (w : World σ) :
    runEstimators R r [Estimator.count.call A R] false w = (.ok [some (r.logl.length : ℝ)], w) := by
  obtain ⟨h1, h2, -⟩ := C33_run_estimators R h (fs := [Estimator.count.call A R])
    (by intro f hf; rw [List.mem_singleton] at hf; rw [hf]; exact C33_builtin A R _ _) false w (by simp)
  refine Prod.ext ((h2 _).mpr (.cons ?_ .nil)) h1
  simp [Estimator.call, countSamples]

theorem count_threads {r : Run ℝ} {labels : List Int} {tmm : List (WithBot ℝ × ℝ)} (h : ValidWith r labels tmm)
    (w : World σ) : ∃ vals, (runThreadValues R r [Estimator.count.call A R] w).1 = .ok vals := by
  obtain ⟨-, vals, hv⟩ := C58_returns R h (fs := [Estimator.count.call A R])
    (by intro f hf; rw [List.mem_singleton] at hf; rw [hf]; exact C35_builtin A R _) w
    (by rw [getRunThreads_ok h w]) (fun t ht => ⟨_, by
      rw [count_value A R (thread_weighable h (w := w) (by rw [getRunThreads_ok h w]) t ht) w]⟩)
  exact ⟨vals, by rw [hv]⟩

/-- C47.  For two valid runs with different numbers of threads `thread_values_df` succeeds or
raises `AssertionError` depending on which of the two is completed first (already for the
estimator `count_samples`). -/
theorem C47_threads_schedule {r1 r2 : Run ℝ} {l1 l2 : List Int} {t1 t2 : List (WithBot ℝ × ℝ)}
    (h1 : ValidWith r1 l1 t1) (h2 : ValidWith r2 l2 t2) (hne : t1.length ≠ t2.length) (w : World σ) :
    (∀ S : Schedule σ 2, S.order = [0, 1] →
      ∃ df, (threadValuesDf R [r1, r2] [Estimator.count.call A R] ["n"] true S w).1 = .ok df) ∧
    (∀ S : Schedule σ 2, S.order = [1, 0] →
      (threadValuesDf R [r1, r2] [Estimator.count.call A R] ["n"] true S w).1 = .error .assertion) := by
  obtain ⟨v1, e1⟩ := count_threads A R h1 w
  obtain ⟨v2, e2⟩ := count_threads A R h2 w
  have hd : ∀ f ∈ [Estimator.count.call A R], Deterministic f := by
    intro f hf; rw [List.mem_singleton] at hf; rw [hf]; exact C35_builtin A R _
  have hy : List.Forall₂ (fun r a => ∃ w : World σ, (runThreadValues R r [Estimator.count.call A R] w).1 = .ok a)
      [r1, r2] [v1, v2] := .cons ⟨w, e1⟩ (.cons ⟨w, e2⟩ .nil)
  constructor
  · intro S hS
    obtain ⟨df, _, _, h, -⟩ := (C47_threads R hd (names := ["n"]) rfl (by simp) (by simp) (r0 := r1) rfl hy true S
      (i := 0) (by simp [rowOrder, hS]) (first := r1) rfl w).1 rfl
    exact ⟨df, by rw [h]⟩
  · intro S hS
    refine (C47_threads R hd (names := ["n"]) rfl (by simp) (by simp) (r0 := r1) rfl hy true S
      (i := 1) (by simp [rowOrder, hS]) (first := r2) rfl w).2 ?_
    simp only [threadNumber, h1.tmm_eq, h2.tmm_eq, Option.getD_some]
    exact fun h => hne h.symm

/-! ### C47: no runs or no estimators -/

theorem cellColumns_empty {β : Type} {names : List String} {i : Nat} {df df' : DF β} (hdf : ∀ c ∈ df.cols, c.2 = [])
    (h : cellColumns [] i names df = .ok df') : ∀ c ∈ df'.cols, c.2 = [] := by
  induction names generalizing i df with
  | nil => cases h; exact hdf
  | cons name names ih =>
    refine ih (i := i + 1) (df := df.setCol name []) ?_ h
    intro c hc
    unfold DF.setCol at hc
    split_ifs at hc
    · obtain ⟨c', hc', rfl⟩ := List.mem_map.mp hc
      split_ifs
      · rfl
      · exact hdf c' hc'
    · rcases List.mem_append.mp hc with hc | hc
      · exact hdf c hc
      · rw [List.mem_singleton.mp hc]

theorem row0_empty {β : Type} {df : DF β} (h : ∀ c ∈ df.cols, c.2 = []) : df.row0 = .error .key := by
  unfold DF.row0
  cases hc : df.cols with
  | nil => rfl
  | cons c cs =>
    have : c.2 = [] := h c (by rw [hc]; simp)
    simp only [pyMap, firstCell, this]
    rfl

/-- C47.  Without runs `estimator_values_df` raises `ValueError`, and `bs_values_df` and `thread_values_df` raise `KeyError`. -/
theorem C47_no_runs {fs : List (EstFunc σ)} {names : List String} (hn : names.length = fs.length) (nSim : Nat) (parallel : Bool)
    (S : Schedule σ ([] : List (Run ℝ)).length) (w : World σ) :
    (estimatorValuesDf R [] fs names parallel S w).1 = .error .value ∧
    (bsValuesDf A R [] fs names nSim parallel S w).1 = .error .key ∧
    (threadValuesDf R [] fs names parallel S w).1 = .error .key := by
  have hp : ∀ {α β : Type} (f : α → M σ β), ∃ w', parallelApply f [] parallel true S w = (.ok [], w') := by
    intro α β f
    unfold parallelApply
    cases parallel with
    | true =>
      have ho : S.order = [] := List.perm_nil.mp S.complete
      rw [if_pos rfl, ho]
      exact ⟨w, rfl⟩
    | false => exact ⟨_, rfl⟩
  have hc : ∀ (names : List String) (i : Nat) (df : DF (List Cell)), ∃ df', cellColumns [] i names df = .ok df' := by
    intro names
    induction names with
    | nil => exact fun i df => ⟨df, rfl⟩
    | cons name names ih => exact fun i df => ih (i + 1) (df.setCol name [])
  refine ⟨?_, ?_, ?_⟩
  · obtain ⟨w', h⟩ := hp (fun r => runEstimators R r fs false)
    unfold estimatorValuesDf
    rw [M.bind_ok h]
    rfl
  · obtain ⟨w', h⟩ := hp (fun r => runBootstrapValues A R r none fs nSim false true none)
    obtain ⟨df, hdf⟩ := hc names 0 ⟨[]⟩
    unfold bsValuesDf
    rw [M.bind_ok (a := ()) (w' := w) (by rw [M.assert_apply]; simp [hn]), M.bind_ok h,
      M.bind_ok (a := df) (w' := w') (by rw [M.lift_apply, hdf])]
    rw [M.bind_error (e := .key) (w' := w') (by
      rw [M.lift_apply]
      unfold checkCells
      rw [row0_empty (cellColumns_empty (by simp) hdf)]
      rfl)]
  · obtain ⟨w', h⟩ := hp (fun r => runThreadValues R r fs)
    obtain ⟨df, hdf⟩ := hc names 0 ⟨[]⟩
    unfold threadValuesDf
    rw [M.bind_ok (a := ()) (w' := w) (by rw [M.assert_apply]; simp [hn]), M.bind_ok h,
      M.bind_ok (a := df) (w' := w') (by rw [M.lift_apply, hdf])]
    rw [M.bind_error (e := .key) (w' := w') (by
      rw [M.lift_apply, row0_empty (cellColumns_empty (by simp) hdf)])]

/-- C47.  Without estimators `bs_values_df` and `thread_values_df` never return, and raise `KeyError` if their calculations for the
runs return. -/
theorem C47_no_estimators (runs : List (Run ℝ)) (nSim : Nat) (parallel : Bool) (S : Schedule σ runs.length) (w : World σ) :
    (∀ zs w', parallelApply (fun r => runBootstrapValues A R r none [] nSim false true none) runs parallel true S w = (.ok zs, w') →
      bsValuesDf A R runs [] [] nSim parallel S w = (.error .key, w')) ∧
    (∀ zs w', parallelApply (fun r => runThreadValues R r []) runs parallel true S w = (.ok zs, w') →
      threadValuesDf R runs [] [] parallel S w = (.error .key, w')) := by
  constructor
  · intro zs w' h
    unfold bsValuesDf
    rw [M.bind_ok (a := ()) (w' := w) (by rw [M.assert_apply]; simp), M.bind_ok h]
    rfl
  · intro zs w' h
    unfold threadValuesDf
    rw [M.bind_ok (a := ()) (w' := w) (by rw [M.assert_apply]; simp), M.bind_ok h]
    rfl

/-- C47.  With one run there is no pair of runs to compare: if `thread_pvalue` or `bs_stat_dist` is true,
`run_list_error_values` never returns, and the last step raises `KeyError`. -/
theorem C47_one_run (D : Distances (List Cell) Cell) (r : Run ℝ) (fs : List (EstFunc σ)) (names : List String) (nSim : Nat)
    (parallel : Bool) (S1 S2 S3 : Schedule σ [r].length) (w : World σ) :
    (∀ tv w', threadValuesDf R [r] fs names parallel S3 w = (.ok tv, w') →
      threadPart R D [r] fs names parallel S3 w = (.error .key, w')) ∧
    (∀ bs, distPart D [r].length bs = .error .key) ∧
    (∀ threadP bsDist, threadP = true ∨ bsDist = true →
      ∀ t w', runListErrorValues A R D [r] fs names nSim threadP bsDist parallel S1 S2 S3 w ≠ (.ok t, w')) := by
  have ht : ∀ tv w w', threadValuesDf R [r] fs names parallel S3 w = (.ok tv, w') →
      threadPart R D [r] fs names parallel S3 w = (.error .key, w') := by
    intro tv w w' h
    unfold threadPart
    rw [M.bind_ok h]
    rfl
  refine ⟨fun tv w' => ht tv w w', fun bs => rfl, ?_⟩
  intro threadP bsDist h t w' hr
  unfold runListErrorValues at hr
  obtain ⟨u, w1, -, hr⟩ := M.bind_eq_ok.mp hr
  by_cases hc : ¬ (names.Nodup ∧ "calculation type" ∉ names)
  · rw [if_pos hc] at hr
    cases hr
  · rw [if_neg hc] at hr
    obtain ⟨vals, w2, -, hr⟩ := M.bind_eq_ok.mp hr
    obtain ⟨bs, w3, -, hr⟩ := M.bind_eq_ok.mp hr
    obtain ⟨tp, w4, h4, hr⟩ := M.bind_eq_ok.mp hr
    obtain ⟨bd, w5, h5, hr⟩ := M.bind_eq_ok.mp hr
    rcases h with rfl | rfl
    · rw [if_pos rfl] at h4
      have h4' := h4
      unfold threadPart at h4
      obtain ⟨tv, w6, h6, -⟩ := M.bind_eq_ok.mp h4
      rw [ht _ _ _ h6] at h4'
      cases h4'
    · rw [if_pos rfl] at h5
      cases h5

/-! ### Tables of arrays by rows -/

/-- The columns in terms of the arrays. -/
theorem CellsOf_cols {β : Type} {df : DF (List β)} {names : List String} {zs : List (List (List β))}
    (h : CellsOf df names zs) :
    df.cols.map (fun c => c.2) = (List.range names.length).map (fun i => zs.map (fun a => a.getD i [])) := by
  have hl : df.cols.length = names.length := by rw [← h.1, DF.names, List.length_map]
  apply List.ext_getElem?
  intro i
  rw [List.getElem?_map, List.getElem?_map]
  by_cases hi : i < names.length
  · have hi' : i < df.cols.length := by omega
    rw [List.getElem?_range hi, List.getElem?_eq_getElem hi', Option.map_some, Option.map_some]
    have hc := h.2 i _ (List.getElem?_eq_getElem hi')
    congr 1
    clear h
    generalize (df.cols[i]).2 = c at hc
    induction hc with
    | nil => rfl
    | cons hx _ ih =>
      rw [List.map_cons, ← ih, List.getD_eq_getElem?_getD, hx]
      rfl
  · rw [List.getElem?_eq_none (by omega), List.getElem?_eq_none (by simp; omega)]
    rfl

theorem range_getD {β γ : Type} (f : List β → γ) (a : List (List β)) :
    (List.range a.length).map (fun i => f (a.getD i [])) = a.map f := by
  apply List.ext_getElem?
  intro i
  rw [List.getElem?_map, List.getElem?_map]
  by_cases hi : i < a.length
  · rw [List.getElem?_range hi, List.getElem?_eq_getElem hi]
    simp [List.getD_eq_getElem?_getD, hi]
  · rw [List.getElem?_eq_none (by simp; omega), List.getElem?_eq_none (by omega)]
    rfl

theorem range_zipWith {β γ : Type} (f : List β → List β → γ) {a b : List (List β)} {n : Nat} (ha : a.length = n)
    (hb : b.length = n) :
    (List.range n).map (fun i => f (a.getD i []) (b.getD i [])) = List.zipWith f a b := by
  apply List.ext_getElem?
  intro i
  rw [List.getElem?_map]
  by_cases hi : i < n
  · rw [List.getElem?_range hi, List.getElem?_zipWith, List.getElem?_eq_getElem (by omega : i < a.length),
      List.getElem?_eq_getElem (by omega : i < b.length)]
    simp [List.getD_eq_getElem?_getD, ha, hb, hi]
  · rw [List.getElem?_eq_none (by simp; omega), List.getElem?_eq_none (by simp; omega)]
    rfl

theorem stdRows_eq {df : DF (List Cell)} {names : List String} {zs : List (List (List Cell))}
    (h : CellsOf df names zs) (hl : ∀ a ∈ zs, a.length = names.length) :
    stdRows zs.length df = zs.mapIdx (fun k a => (("bootstrap std", RunLabel.int k), a.map npStd)) := by
  unfold stdRows
  apply List.ext_getElem?
  intro k
  rw [List.getElem?_map, List.getElem?_mapIdx]
  by_cases hk : k < zs.length
  · rw [List.getElem?_range hk, List.getElem?_eq_getElem hk, Option.map_some, Option.map_some]
    have he : df.cols.map (fun c => (c.2[k]?).bind npStd) =
        (df.cols.map (fun c => c.2)).map (fun c => (c[k]?).bind npStd) := by rw [List.map_map]; rfl
    have hr : ((List.range names.length).map (fun i => zs.map (fun a => a.getD i []))).map
        (fun c => (c[k]?).bind npStd) = zs[k].map npStd := by
      rw [← range_getD npStd zs[k], List.map_map, hl _ (List.getElem_mem hk)]
      refine List.map_congr_left fun i _ => ?_
      simp [hk]
    rw [he, CellsOf_cols h, hr]
  · rw [List.getElem?_eq_none (by simp; omega), List.getElem?_eq_none (by omega)]
    rfl

theorem comparedPairs_map {α β : Type} (f : α → β) (xs : List α) :
    comparedPairs (xs.map f) = (comparedPairs xs).map (fun pq => ((f pq.1.1, pq.1.2), (f pq.2.1, pq.2.2))) := by
  unfold comparedPairs
  rw [List.zipIdx_map, List.flatMap_map, List.map_flatMap]
  congr 1
  funext p
  rw [List.filter_map, List.map_map, List.map_map]
  rfl

/-- The comparisons of the columns as rows: one for each measure and pair of rows. -/
theorem pairwiseDistsOnCols_eq (D : Distances (List Cell) Cell) {df : DF (List Cell)} {names : List String}
    {zs : List (List (List Cell))} (h : CellsOf df names zs) (hl : ∀ a ∈ zs, a.length = names.length)
    (h0 : names ≠ []) (emd energy : Bool) :
    pairwiseDistsOnCols D df emd energy = (distanceTypes D emd energy).flatMap (fun t =>
      (comparedPairs zs).map (fun pq => ((t.1, pairName pq.1.2 pq.2.2), List.zipWith t.2 pq.1.1 pq.2.1))) := by
  set L := (distanceTypes D emd energy).flatMap (fun t => (comparedPairs zs).map (fun pq => (t, pq))) with hL
  have hcol : ∀ f : List (List Cell) → List Cell, pairwiseDistances D (zs.map f) emd energy =
      L.map (fun x => ((x.1.1, pairName x.2.1.2 x.2.2.2), x.1.2 (f x.2.1.1) (f x.2.2.1))) := by
    intro f
    rw [pairwiseDistances_eq, hL, List.map_flatMap, comparedPairs_map]
    congr 1
    funext t
    rw [List.map_map, List.map_map]
    rfl
  have hgoal : (distanceTypes D emd energy).flatMap (fun t =>
      (comparedPairs zs).map (fun pq => ((t.1, pairName pq.1.2 pq.2.2), List.zipWith t.2 pq.1.1 pq.2.1))) =
      L.map (fun x => ((x.1.1, pairName x.2.1.2 x.2.2.2), List.zipWith x.1.2 x.2.1.1 x.2.2.1)) := by
    rw [hL, List.map_flatMap]
    congr 1
    funext t
    rw [List.map_map]
    rfl
  rw [hgoal]
  have hcols : df.cols.map (fun c => pairwiseDistances D c.2 emd energy) = (List.range names.length).map (fun i =>
      L.map (fun x => ((x.1.1, pairName x.2.1.2 x.2.2.2), x.1.2 (x.2.1.1.getD i []) (x.2.2.1.getD i [])))) := by
    have : df.cols.map (fun c => pairwiseDistances D c.2 emd energy) =
        (df.cols.map (fun c => c.2)).map (fun c => pairwiseDistances D c emd energy) := by rw [List.map_map]; rfl
    rw [this, CellsOf_cols h, List.map_map]
    refine List.map_congr_left fun i _ => ?_
    exact hcol (fun a => a.getD i [])
  have hmem : ∀ x ∈ L, x.2.1.1.length = names.length ∧ x.2.2.1.length = names.length := by
    intro x hx
    rw [hL, List.mem_flatMap] at hx
    obtain ⟨t, -, hx⟩ := hx
    obtain ⟨pq, hpq, rfl⟩ := List.mem_map.mp hx
    obtain ⟨e1, e2, -⟩ := mem_comparedPairs.mp hpq
    exact ⟨hl _ (List.mem_of_getElem? e1), hl _ (List.mem_of_getElem? e2)⟩
  unfold pairwiseDistsOnCols
  dsimp only
  rw [hcols]
  obtain ⟨n, hn⟩ : ∃ n, names.length = n + 1 :=
    ⟨names.length - 1, by have := List.length_pos_iff.mpr h0; omega⟩
  rw [hn] at hmem ⊢
  generalize hC : (List.range (n + 1)).map (fun i =>
      L.map (fun x => ((x.1.1, pairName x.2.1.2 x.2.2.2), x.1.2 (x.2.1.1.getD i []) (x.2.2.1.getD i [])))) = C
  have hC' := hC
  rw [List.range_succ_eq_map, List.map_cons] at hC'
  cases C with
  | nil => simp at hC'
  | cons c cs =>
    rw [List.cons.injEq] at hC'
    show c.mapIdx (fun k row => (row.1, (c :: cs).map (fun d => (d[k]?).bind (fun x => x.2)))) = _
    rw [← hC'.1]
    apply List.ext_getElem?
    intro k
    rw [List.getElem?_mapIdx, List.getElem?_map, List.getElem?_map]
    by_cases hk : k < L.length
    · rw [List.getElem?_eq_getElem hk, Option.map_some, Option.map_some, Option.map_some]
      congr 2
      obtain ⟨m1, m2⟩ := hmem _ (List.getElem_mem hk)
      rw [← range_zipWith _ m1 m2, hC'.1, ← hC, List.map_map]
      refine List.map_congr_left fun i _ => ?_
      simp [hk]
    · rw [List.getElem?_eq_none (by omega)]
      rfl

/-! ### C67: `run_list_error_values` -/

/-- The results `zs` are `ys` in the order `order`. -/
def Spec.Collected {α : Type} (order : List Nat) (ys zs : List α) : Prop :=
  zs.Perm ys ∧ ∀ k : Nat, zs[k]? = (order[k]?).bind (fun i => ys[i]?)

/-- The measures of distance between bootstrap distributions that are kept. -/
def Spec.keptDistances (D : Distances (List Cell) Cell) : List (String × (List Cell → List Cell → Cell)) :=
  [("bootstrap ks distance", D.ksStatistic), ("bootstrap earth mover distance", D.earthMover),
   ("bootstrap energy distance", D.energy)]

/-- The rows of the table of `run_list_error_values`: `zs` are the values of the estimators,
`bs` the arrays of bootstrap values, `ts` the arrays of thread values. -/
def Spec.IsErrorRow (D : Distances (List Cell) Cell) (threadP bsDist : Bool) (zs : List (List Cell))
    (bs ts : List (List (List Cell))) (key : String × RunLabel) (row : List Cell) : Prop :=
  (∃ k : Nat, zs[k]? = some row ∧ key = ("values", .str (toString k))) ∨
  (∃ (k : Nat) (a : List (List Cell)), bs[k]? = some a ∧ key = ("bootstrap std", .int k) ∧
    List.Forall₂ StdOf a row) ∨
  (threadP = true ∧ ∃ (i j : Nat) (x y : List (List Cell)), j < i ∧ ts[i]? = some x ∧ ts[j]? = some y ∧
    key = ("thread ks pvalue", .str ("(" ++ toString i ++ ", " ++ toString j ++ ")")) ∧
    row = List.zipWith D.ksPvalue x y) ∨
  (bsDist = true ∧ ∃ d ∈ keptDistances D, ∃ (i j : Nat) (x y : List (List Cell)), j < i ∧ bs[i]? = some x ∧
    bs[j]? = some y ∧ key = (d.1, .str ("(" ++ toString i ++ ", " ++ toString j ++ ")")) ∧
    row = List.zipWith d.2 x y)

theorem stdOf_unique {a : List (List Cell)} {row : List Cell} (h : List.Forall₂ StdOf a row) : row = a.map npStd := by
  induction h with
  | nil => rfl
  | @cons c v _ _ hx _ ih =>
    rw [List.map_cons, ← ih]
    congr 1
    by_cases hc : c.length < 2 ∨ none ∈ c
    · rw [hx.2 hc, (npStd_stdOf c).2 hc]
    · push Not at hc
      obtain ⟨hc1, hc2⟩ := hc
      cases hn : noNan c with
      | none => exact absurd (noNan_eq_none.mp hn) hc2
      | some xs =>
        have := noNan_eq_some.mp hn
        rw [hx.1 xs this (by rw [this] at hc1; simpa using hc1),
          (npStd_stdOf c).1 xs this (by rw [this] at hc1; simpa using hc1)]

/-- The rows made of the distances between threads. -/
theorem threadPvalueRows_eq (D : Distances (List Cell) Cell) {df : DF (List Cell)} {names : List String}
    {zs : List (List (List Cell))} (h : CellsOf df names zs) (hl : ∀ a ∈ zs, a.length = names.length) (h0 : names ≠ []) :
    threadPvalueRows (pairwiseDistsOnCols D df false false) = (comparedPairs zs).map (fun pq =>
      (("thread ks pvalue", .str (pairName pq.1.2 pq.2.2)), List.zipWith D.ksPvalue pq.1.1 pq.2.1)) := by
  rw [pairwiseDistsOnCols_eq D h hl h0]
  unfold threadPvalueRows distanceTypes
  simp only [Bool.false_eq_true, if_false, List.append_nil, List.flatMap_cons, List.flatMap_nil, List.filter_append,
    List.filter_map]
  have e1 : (comparedPairs zs).filter ((fun r : (String × String) × List Cell => decide (r.1.1 = "ks pvalue")) ∘
      fun pq => (("ks pvalue", pairName pq.1.2 pq.2.2), List.zipWith D.ksPvalue pq.1.1 pq.2.1)) = comparedPairs zs := by
    rw [List.filter_eq_self]; intro a _; simp
  have e2 : (comparedPairs zs).filter ((fun r : (String × String) × List Cell => decide (r.1.1 = "ks pvalue")) ∘
      fun pq => (("ks distance", pairName pq.1.2 pq.2.2), List.zipWith D.ksStatistic pq.1.1 pq.2.1)) = [] := by
    rw [List.filter_eq_nil_iff]; intro a _; simp
  rw [e1, e2, List.map_nil, List.append_nil, List.map_map]
  rfl

/-- The rows made of the distances between bootstrap distributions. -/
theorem bsDistRows_eq (D : Distances (List Cell) Cell) {df : DF (List Cell)} {names : List String}
    {zs : List (List (List Cell))} (h : CellsOf df names zs) (hl : ∀ a ∈ zs, a.length = names.length) (h0 : names ≠ []) :
    bsDistRows (pairwiseDistsOnCols D df true true) = (keptDistances D).flatMap (fun d =>
      (comparedPairs zs).map (fun pq =>
        ((d.1, .str (pairName pq.1.2 pq.2.2)), List.zipWith d.2 pq.1.1 pq.2.1))) := by
  rw [pairwiseDistsOnCols_eq D h hl h0]
  unfold bsDistRows distanceTypes keptDistances
  simp only [if_true, List.cons_append, List.nil_append, List.flatMap_cons, List.flatMap_nil, List.filter_append,
    List.filter_map, List.append_nil]
  have e1 : ∀ f : (List (List Cell) × Nat) × (List (List Cell) × Nat) → List Cell,
      (comparedPairs zs).filter ((fun r : (String × String) × List Cell =>
        decide (r.1.1 ∈ ["ks distance", "earth mover distance", "energy distance"])) ∘
      fun pq => (("ks pvalue", pairName pq.1.2 pq.2.2), f pq)) = [] := by
    intro f; rw [List.filter_eq_nil_iff]; intro a _; simp
  have e2 : ∀ (name : String) (f : (List (List Cell) × Nat) × (List (List Cell) × Nat) → List Cell),
      name ∈ ["ks distance", "earth mover distance", "energy distance"] →
      (comparedPairs zs).filter ((fun r : (String × String) × List Cell =>
        decide (r.1.1 ∈ ["ks distance", "earth mover distance", "energy distance"])) ∘
      fun pq => ((name, pairName pq.1.2 pq.2.2), f pq)) = comparedPairs zs := by
    intro name f hn; rw [List.filter_eq_self]; intro a _; simpa using hn
  rw [e1, e2 _ _ (by simp), e2 _ _ (by simp), e2 _ _ (by simp)]
  simp only [List.map_nil, List.nil_append, List.map_append, List.map_map]
  rfl

theorem stdRows_mem {bs : List (List (List Cell))} {key : String × RunLabel} {row : List Cell} :
    (key, row) ∈ bs.mapIdx (fun k a => (("bootstrap std", RunLabel.int k), a.map npStd)) ↔
      ∃ (k : Nat) (a : List (List Cell)), bs[k]? = some a ∧ key = ("bootstrap std", .int k) ∧ List.Forall₂ StdOf a row := by
  rw [List.mem_iff_getElem?]
  constructor
  · rintro ⟨k, hk⟩
    rw [List.getElem?_mapIdx, Option.map_eq_some_iff] at hk
    obtain ⟨a, ha, he⟩ := hk
    rw [Prod.mk.injEq] at he
    refine ⟨k, a, ha, he.1.symm, ?_⟩
    rw [← he.2, List.forall₂_map_right_iff, List.forall₂_same]
    exact fun c _ => npStd_stdOf c
  · rintro ⟨k, a, ha, rfl, h⟩
    refine ⟨k, ?_⟩
    rw [List.getElem?_mapIdx, ha, stdOf_unique h]
    rfl

theorem valueRows_mem {n : Nat} {zs : List (List Cell)} {key : String × RunLabel} {row : List Cell} :
    (key, row) ∈ valueRows ⟨n, zs⟩ ↔ ∃ k : Nat, zs[k]? = some row ∧ key = ("values", .str (toString k)) := by
  unfold valueRows
  rw [List.mem_iff_getElem?]
  constructor
  · rintro ⟨k, hk⟩
    rw [List.getElem?_mapIdx, Option.map_eq_some_iff] at hk
    obtain ⟨a, ha, he⟩ := hk
    rw [Prod.mk.injEq] at he
    exact ⟨k, by rw [ha, he.2], he.1.symm⟩
  · rintro ⟨k, ha, rfl⟩
    refine ⟨k, ?_⟩
    rw [List.getElem?_mapIdx, ha]
    rfl

theorem pairs_mem (d : List Cell → List Cell → Cell) (name : String) {zs : List (List (List Cell))}
    {key : String × RunLabel} {row : List Cell} :
    (key, row) ∈ (comparedPairs zs).map (fun pq =>
        ((name, RunLabel.str (pairName pq.1.2 pq.2.2)), List.zipWith d pq.1.1 pq.2.1)) ↔
      ∃ (i j : Nat) (x y : List (List Cell)), j < i ∧ zs[i]? = some x ∧ zs[j]? = some y ∧
        key = (name, .str ("(" ++ toString i ++ ", " ++ toString j ++ ")")) ∧ row = List.zipWith d x y := by
  rw [List.mem_map]
  constructor
  · rintro ⟨⟨⟨x, i⟩, ⟨y, j⟩⟩, hpq, he⟩
    obtain ⟨h1, h2, h3⟩ := mem_comparedPairs.mp hpq
    rw [Prod.mk.injEq] at he
    exact ⟨i, j, x, y, h3, h1, h2, he.1.symm, he.2.symm⟩
  · rintro ⟨i, j, x, y, h3, h1, h2, rfl, rfl⟩
    exact ⟨((x, i), (y, j)), mem_comparedPairs.mpr ⟨h1, h2, h3⟩, rfl⟩

/-- The table, row by row in order. -/
def errorRows (D : Distances (List Cell) Cell) (threadP bsDist : Bool) (n : Nat) (zs : List (List Cell))
    (bs ts : List (List (List Cell))) : List ((String × RunLabel) × List Cell) :=
  valueRows ⟨n, zs⟩ ++ bs.mapIdx (fun k a => (("bootstrap std", RunLabel.int k), a.map npStd)) ++
  (if threadP then (comparedPairs ts).map (fun pq =>
      (("thread ks pvalue", .str (pairName pq.1.2 pq.2.2)), List.zipWith D.ksPvalue pq.1.1 pq.2.1)) else []) ++
  (if bsDist then (keptDistances D).flatMap (fun d => (comparedPairs bs).map (fun pq =>
      ((d.1, .str (pairName pq.1.2 pq.2.2)), List.zipWith d.2 pq.1.1 pq.2.1))) else [])

theorem errorRows_mem (D : Distances (List Cell) Cell) (threadP bsDist : Bool) (n : Nat) (zs : List (List Cell))
    (bs ts : List (List (List Cell))) (key : String × RunLabel) (row : List Cell) :
    (key, row) ∈ errorRows D threadP bsDist n zs bs ts ↔ IsErrorRow D threadP bsDist zs bs ts key row := by
  unfold errorRows IsErrorRow
  rw [List.mem_append, List.mem_append, List.mem_append, valueRows_mem, stdRows_mem, or_assoc, or_assoc]
  refine or_congr Iff.rfl (or_congr Iff.rfl (or_congr ?_ ?_))
  · cases threadP with
    | false => simp
    | true => rw [if_pos rfl, pairs_mem]; simp
  · cases bsDist with
    | false => simp
    | true =>
      rw [if_pos rfl, List.mem_flatMap]
      simp only [pairs_mem, true_and]

theorem toString_inj {i j : Nat} (h : toString i = toString j) : i = j := by
  have h' := congrArg String.toList h
  simp only [Nat.toString_eq_repr, Nat.toList_repr] at h'
  exact toDigits_inj h'

theorem comparedPairs_names_nodup (name : String) (zs : List (List (List Cell))) :
    ((comparedPairs zs).map (fun pq => (name, RunLabel.str (pairName pq.1.2 pq.2.2)))).Nodup := by
  have h := indexes_nodup zs.length
  rw [← comparedPairs_indexes] at h
  have he : (comparedPairs zs).map (fun pq => (name, RunLabel.str (pairName pq.1.2 pq.2.2))) =
      ((comparedPairs zs).map (fun pq => (pq.1.2, pq.2.2))).map
        (fun ij => (name, RunLabel.str (pairName ij.1 ij.2))) := by
    rw [List.map_map]; rfl
  rw [he]
  refine h.map ?_
  rintro ⟨i, j⟩ ⟨i', j'⟩ hij
  simp only [Prod.mk.injEq, RunLabel.str.injEq, true_and] at hij
  obtain ⟨rfl, rfl⟩ := pairName_inj hij
  rfl

/-- No two rows have the same index. -/
theorem errorRows_nodup (D : Distances (List Cell) Cell) (threadP bsDist : Bool) (n : Nat) (zs : List (List Cell))
    (bs ts : List (List (List Cell))) : ((errorRows D threadP bsDist n zs bs ts).map Prod.fst).Nodup := by
  have k1 : (valueRows ⟨n, zs⟩).map Prod.fst =
      (List.range zs.length).map (fun i => ("values", RunLabel.str (toString i))) := by
    unfold valueRows
    apply List.ext_getElem?
    intro i
    by_cases hi : i < zs.length
    · simp [hi]
    · simp [hi]
  have k2 : (bs.mapIdx (fun k a => (("bootstrap std", RunLabel.int k), a.map npStd))).map Prod.fst =
      (List.range bs.length).map (fun i => ("bootstrap std", RunLabel.int i)) := by
    apply List.ext_getElem?
    intro i
    by_cases hi : i < bs.length
    · simp [hi]
    · simp [hi]
  have n1 : ((List.range zs.length).map (fun i => ("values", RunLabel.str (toString i)))).Nodup :=
    List.nodup_range.map (fun i j h => by
      simp only [Prod.mk.injEq, RunLabel.str.injEq, true_and] at h
      exact toString_inj h)
  have n2 : ((List.range bs.length).map (fun i => ("bootstrap std", RunLabel.int i))).Nodup :=
    List.nodup_range.map (fun i j h => by simpa using h)
  have k3 : ∀ (name : String) (d : List Cell → List Cell → Cell) (us : List (List (List Cell))),
      ((comparedPairs us).map (fun pq =>
        ((name, RunLabel.str (pairName pq.1.2 pq.2.2)), List.zipWith d pq.1.1 pq.2.1))).map Prod.fst =
      (comparedPairs us).map (fun pq => (name, RunLabel.str (pairName pq.1.2 pq.2.2))) := by
    intro name d us; rw [List.map_map]; rfl
  have m1 : ∀ {γ : Type} (name : String) (l : List γ) (f : γ → RunLabel) (k : String × RunLabel),
      k ∈ l.map (fun x => (name, f x)) → k.1 = name := by
    intro γ name l f k hk
    obtain ⟨x, -, rfl⟩ := List.mem_map.mp hk
    rfl
  have hA : ∀ {l l' : List (String × RunLabel)}, l.Nodup → l'.Nodup → (∀ k ∈ l, ∀ k' ∈ l', k.1 ≠ k'.1) →
      (l ++ l').Nodup := by
    intro l l' h h' hd
    rw [List.nodup_append]
    exact ⟨h, h', fun a ha b hb hab => hd a ha b hb (by rw [hab])⟩
  unfold errorRows
  simp only [List.map_append]
  rw [k1, k2]
  have n4 : ((if bsDist then (keptDistances D).flatMap (fun d => (comparedPairs bs).map (fun pq =>
      ((d.1, RunLabel.str (pairName pq.1.2 pq.2.2)), List.zipWith d.2 pq.1.1 pq.2.1))) else []).map Prod.fst).Nodup ∧
      ∀ k ∈ (if bsDist then (keptDistances D).flatMap (fun d => (comparedPairs bs).map (fun pq =>
      ((d.1, RunLabel.str (pairName pq.1.2 pq.2.2)), List.zipWith d.2 pq.1.1 pq.2.1))) else []).map Prod.fst,
      k.1 ∈ ["bootstrap ks distance", "bootstrap earth mover distance", "bootstrap energy distance"] := by
    cases bsDist with
    | false => simp
    | true =>
      unfold keptDistances
      simp only [if_true, List.flatMap_cons, List.flatMap_nil, List.append_nil, List.map_append, k3]
      refine ⟨hA (comparedPairs_names_nodup _ _) (hA (comparedPairs_names_nodup _ _) (comparedPairs_names_nodup _ _) ?_) ?_, ?_⟩
      · intro k hk k' hk'
        rw [m1 _ _ _ k hk, m1 _ _ _ k' hk']
        decide
      · intro k hk k' hk'
        rw [m1 _ _ _ k hk]
        rcases List.mem_append.mp hk' with hk' | hk' <;> rw [m1 _ _ _ k' hk'] <;> decide
      · intro k hk
        rcases List.mem_append.mp hk with hk | hk
        · rw [m1 _ _ _ k hk]; decide
        · rcases List.mem_append.mp hk with hk | hk <;> rw [m1 _ _ _ k hk] <;> decide
  have n3 : ((if threadP then (comparedPairs ts).map (fun pq =>
      (("thread ks pvalue", RunLabel.str (pairName pq.1.2 pq.2.2)), List.zipWith D.ksPvalue pq.1.1 pq.2.1)) else []).map
        Prod.fst).Nodup ∧
      ∀ k ∈ (if threadP then (comparedPairs ts).map (fun pq =>
      (("thread ks pvalue", RunLabel.str (pairName pq.1.2 pq.2.2)), List.zipWith D.ksPvalue pq.1.1 pq.2.1)) else []).map
        Prod.fst, k.1 = "thread ks pvalue" := by
    cases threadP with
    | false => simp
    | true =>
      simp only [if_true, k3]
      exact ⟨comparedPairs_names_nodup _ _, fun k hk => m1 _ _ _ k hk⟩
  refine hA (hA (hA n1 n2 ?_) n3.1 ?_) n4.1 ?_
  · intro k hk k' hk'
    rw [m1 _ _ _ k hk, m1 _ _ _ k' hk']
    decide
  · intro k hk k' hk'
    rw [n3.2 k' hk']
    rcases List.mem_append.mp hk with hk | hk <;> rw [m1 _ _ _ k hk] <;> decide
  · intro k hk k' hk' he
    have h4 := n4.2 k' hk'
    rw [← he] at h4
    rcases List.mem_append.mp hk with hk | hk
    · rcases List.mem_append.mp hk with hk | hk <;> rw [m1 _ _ _ k hk] at h4 <;> revert h4 <;> decide
    · rw [n3.2 k hk] at h4; revert h4; decide

theorem errorValues_rows (D : Distances (List Cell) Cell) {fs : List (EstFunc σ)} (hf : ∀ f ∈ fs, Deterministic f)
    {names : List String} (hn : names.length = fs.length) (hnd : names.Nodup) (hct : "calculation type" ∉ names)
    (h0 : names ≠ []) {runs : List (Run ℝ)} (hr : runs ≠ []) {nSim : Nat} (threadP bsDist : Bool)
    (h2 : threadP = true ∨ bsDist = true → 2 ≤ runs.length)
    (hth : threadP = true → ∃ m, ∀ r ∈ runs, threadNumber r = m)
    {ys : List (List Cell)} {arrs tarrs : List (List (List Cell))}
    (hy : List.Forall₂ (fun r y => ∃ w : World σ, (runEstimators R r fs false w).1 = .ok y) runs ys)
    (hb : List.Forall₂ (fun r a => ∃ w : World σ,
      (runBootstrapValues A R r none fs nSim false true none w).1 = .ok a) runs arrs)
    (ht : threadP = true → List.Forall₂ (fun r a => ∃ w : World σ, (runThreadValues R r fs w).1 = .ok a) runs tarrs)
    (parallel : Bool) (S1 S2 S3 : Schedule σ runs.length) (w : World σ) :
    ∃ (zs : List (List Cell)) (bs ts : List (List (List Cell))) (w' : World σ),
      runListErrorValues A R D runs fs names nSim threadP bsDist parallel S1 S2 S3 w =
        (.ok ⟨names, errorRows D threadP bsDist fs.length zs bs ts⟩, w') ∧ w'.rng = w.rng ∧
      Collected (rowOrder parallel S1) ys zs ∧ Collected (rowOrder parallel S2) arrs bs ∧
      (threadP = true → Collected (rowOrder parallel S3) tarrs ts) ∧
      (∀ a ∈ bs, a.length = names.length) ∧ (threadP = true → ∀ a ∈ ts, a.length = names.length) := by
  obtain ⟨zs, w1, v1, v2, v3, v4⟩ := C47_values R hf hn hr hy parallel S1 w
  obtain ⟨bdf, bs, w2, b1, b2, b3, b4, b5⟩ := C47_bootstrap A R hf hn hnd h0 hr hb parallel S2 w1
  have hbl : ∀ a ∈ bs, a.length = names.length := by
    intro a ha
    obtain ⟨i, hi⟩ := List.mem_iff_getElem?.mp (b4.mem_iff.mp ha)
    obtain ⟨hil, hia⟩ := List.getElem?_eq_some_iff.mp hi
    obtain ⟨w1, hw1⟩ := (List.forall₂_iff_get.mp hb).2 i (by rw [hb.length_eq]; exact hil) hil
    simp only [List.get_eq_getElem, hia] at hw1
    rw [hn]
    exact (bootstrapValues_shape A R hw1).1
  have hbn : bs.length = runs.length := by rw [b4.length_eq, hb.length_eq]
  have hT : ∃ (ts : List (List (List Cell))) (w3 : World σ),
      (if threadP then threadPart R D runs fs names parallel S3 else pure [] : M σ _) w2 =
        (.ok (if threadP then (comparedPairs ts).map (fun pq =>
          (("thread ks pvalue", .str (pairName pq.1.2 pq.2.2)), List.zipWith D.ksPvalue pq.1.1 pq.2.1)) else []), w3) ∧
      w3.rng = w2.rng ∧ (threadP = true → Collected (rowOrder parallel S3) tarrs ts) ∧
      (threadP = true → ∀ a ∈ ts, a.length = names.length) := by
    cases threadP with
    | false => exact ⟨[], w2, rfl, rfl, by simp, by simp⟩
    | true =>
      obtain ⟨m, hm⟩ := hth rfl
      have ht := ht rfl
      have h2 := h2 (Or.inl rfl)
      obtain ⟨r0, rs, hrs⟩ := List.exists_cons_of_ne_nil hr
      have hord : (rowOrder parallel S3).Perm (List.range runs.length) := by
        unfold rowOrder
        split
        · exact S3.complete
        · exact List.Perm.refl _
      obtain ⟨i, os, hos⟩ := List.exists_cons_of_ne_nil (l := rowOrder parallel S3) (by
        intro he
        rw [he] at hord
        have := hord.length_eq
        simp at this
        omega)
      have hi : i < runs.length := by
        have : i ∈ rowOrder parallel S3 := by rw [hos]; simp
        exact List.mem_range.mp (hord.mem_iff.mp this)
      obtain ⟨tdf, ts, w3, t1, t2, t3, t4, t5⟩ := (C47_threads R hf hn hnd h0 (r0 := r0) (by rw [hrs]; rfl) ht parallel S3
        (i := i) (by rw [hos]; rfl) (first := runs[i]) (List.getElem?_eq_getElem hi) w2).1
        (by rw [hm _ (List.getElem_mem hi), hm r0 (by rw [hrs]; simp)])
      have htl : ∀ a ∈ ts, a.length = names.length := by
        intro a ha
        obtain ⟨i, hi⟩ := List.mem_iff_getElem?.mp (t4.mem_iff.mp ha)
        obtain ⟨hil, hia⟩ := List.getElem?_eq_some_iff.mp hi
        obtain ⟨w1, hw1⟩ := (List.forall₂_iff_get.mp ht).2 i (by rw [ht.length_eq]; exact hil) hil
        simp only [List.get_eq_getElem, hia] at hw1
        rw [hn]
        exact (threadValues_shape R hw1).1
      refine ⟨ts, w3, ?_, t2, fun _ => ⟨t4, t5⟩, fun _ => htl⟩
      rw [if_pos rfl, if_pos rfl]
      unfold threadPart
      rw [M.bind_ok t1, if_neg (by omega), threadPvalueRows_eq D t3 htl h0]
      rfl
  obtain ⟨ts, w3, t1, t2, t3, t4⟩ := hT
  refine ⟨zs, bs, ts, w3, ?_, by rw [t2, b2, v2], ⟨v3, v4⟩, ⟨b4, b5⟩, t3, hbl, t4⟩
  have hD : (if bsDist then M.lift (distPart D runs.length bdf) else pure [] : M σ _) w3 =
      (.ok (if bsDist then (keptDistances D).flatMap (fun d => (comparedPairs bs).map (fun pq =>
      ((d.1, .str (pairName pq.1.2 pq.2.2)), List.zipWith d.2 pq.1.1 pq.2.1))) else []), w3) := by
    cases bsDist with
    | false => rfl
    | true =>
      have h2 := h2 (Or.inr rfl)
      rw [if_pos rfl, if_pos rfl, M.lift_apply]
      unfold distPart
      rw [if_neg (by omega), bsDistRows_eq D b3 hbl h0]
  unfold runListErrorValues
  rw [M.bind_ok (a := ()) (w' := w) (by rw [M.assert_apply]; simp [hn]), if_neg (by simp [hnd, hct]),
    M.bind_ok v1, M.bind_ok b1, M.bind_ok t1, M.bind_ok hD, ← hbn, stdRows_eq b3 hbl]
  rfl

/-- C67.  The table of `run_list_error_values` for deterministic estimators: its rows are the
values of each run, the standard deviations of the bootstrap values of each run, and, if asked
for, the comparisons of the thread values and of the bootstrap values for each pair of runs.  No
two rows have the same index.  Row k of the values is that of the k-th run to be completed in
the first calculation, row k of the standard deviations that of the k-th to be completed in the
second; without parallelisation both are those of run k. -/
theorem C67 (D : Distances (List Cell) Cell) {fs : List (EstFunc σ)} (hf : ∀ f ∈ fs, Deterministic f)
    {names : List String} (hn : names.length = fs.length) (hnd : names.Nodup) (hct : "calculation type" ∉ names)
    (h0 : names ≠ []) {runs : List (Run ℝ)} (hr : runs ≠ []) {nSim : Nat} (threadP bsDist : Bool)
    (h2 : threadP = true ∨ bsDist = true → 2 ≤ runs.length)
    (hth : threadP = true → ∃ m, ∀ r ∈ runs, threadNumber r = m)
    {ys : List (List Cell)} {arrs tarrs : List (List (List Cell))}
    (hy : List.Forall₂ (fun r y => ∃ w : World σ, (runEstimators R r fs false w).1 = .ok y) runs ys)
    (hb : List.Forall₂ (fun r a => ∃ w : World σ,
      (runBootstrapValues A R r none fs nSim false true none w).1 = .ok a) runs arrs)
    (ht : threadP = true → List.Forall₂ (fun r a => ∃ w : World σ, (runThreadValues R r fs w).1 = .ok a) runs tarrs)
    (parallel : Bool) (S1 S2 S3 : Schedule σ runs.length) (w : World σ) :
    ∃ (t : ErrTable) (zs : List (List Cell)) (bs ts : List (List (List Cell))) (w' : World σ),
      runListErrorValues A R D runs fs names nSim threadP bsDist parallel S1 S2 S3 w = (.ok t, w') ∧ w'.rng = w.rng ∧
      t.names = names ∧ (t.rows.map Prod.fst).Nodup ∧
      (∀ key row, (key, row) ∈ t.rows ↔ IsErrorRow D threadP bsDist zs bs ts key row) ∧
      Collected (rowOrder parallel S1) ys zs ∧ Collected (rowOrder parallel S2) arrs bs ∧
      (threadP = true → Collected (rowOrder parallel S3) tarrs ts) := by
  obtain ⟨zs, bs, ts, w', h1, h2, h3, h4, h5, -, -⟩ := errorValues_rows A R D hf hn hnd hct h0 hr threadP bsDist h2 hth hy hb
    ht parallel S1 S2 S3 w
  exact ⟨_, zs, bs, ts, w', h1, h2, rfl, errorRows_nodup D threadP bsDist _ zs bs ts,
    fun key row => errorRows_mem D threadP bsDist _ zs bs ts key row, h3, h4, h5⟩

end
end Nestcheck
