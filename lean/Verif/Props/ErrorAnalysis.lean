import Verif.Model.ErrorAnalysis
import Verif.Props.Bootstrap
import Verif.Props.Estimators

/-! Properties of the error analysis functions: C35 (run_bootstrap_values), C38, C40,
C57, C58. -/

namespace Nestcheck
open Spec

noncomputable section
variable {σ : Type} (A : Argsort ℝ) (R : Rng σ ℝ)

/-- The call neither uses nor changes the global state. -/
def Spec.Fixed {σ α : Type} (x : M σ α) : Prop := ∃ v, ∀ w : World σ, x w = (v, w)

namespace Spec
variable {α β : Type}

theorem Fixed.pure (a : α) : Fixed (Pure.pure a : M σ α) := ⟨.ok a, fun _ => rfl⟩
theorem Fixed.raise (e : PyErr) : Fixed (M.raise e : M σ α) := ⟨.error e, fun _ => rfl⟩
theorem Fixed.lift (x : Py α) : Fixed (M.lift x : M σ α) := ⟨x, fun _ => rfl⟩
theorem Fixed.assert (b : Bool) : Fixed (M.assert b : M σ Unit) := ⟨_, fun _ => rfl⟩
theorem Fixed.bind {x : M σ α} {f : α → M σ β} (hx : Fixed x) (hf : ∀ a, Fixed (f a)) :
    Fixed (x >>= f) := by
  obtain ⟨v, hv⟩ := hx
  cases v with
  | error e => exact ⟨.error e, fun w => M.bind_error (hv w)⟩
  | ok a =>
    obtain ⟨u, hu⟩ := hf a
    exact ⟨u, fun w => by rw [M.bind_ok (hv w), hu]⟩
theorem Fixed.ite {c : Prop} [Decidable c] {x y : M σ α} (hx : Fixed x) (hy : Fixed y) :
    Fixed (if c then x else y) := by split <;> assumption
theorem Fixed.independent {x : M σ α} (h : Fixed x) : RngIndependent x := by
  obtain ⟨v, hv⟩ := h
  intro s s' ws
  rw [hv, hv]
  exact ⟨rfl, rfl⟩
theorem Fixed.restored {x : M σ α} (h : Fixed x) : RngRestored x := by
  obtain ⟨v, hv⟩ := h
  intro w a w' h
  rw [hv] at h
  rw [← show w = w' from congrArg Prod.snd h]

end Spec

theorem getLogw_fixed (r : Run ℝ) : Fixed (getLogw R r false) := by
  unfold getLogw getLogx
  refine .bind ?_ fun lx => .ite (.raise _) ?_
  · cases amin r.nlive with
    | none => exact .raise _
    | some m => exact .bind (.assert _) fun _ => .bind (.lift _) fun _ => .pure _
  · rcases volumes lx with e | v
    · cases e <;> first | exact .raise _ | exact .ite (.pure _) (.raise _)
    · exact .pure _

/-- An estimator which uses nothing but the run and the weights it is given. -/
def Spec.Deterministic (f : EstFunc σ) : Prop := ∀ r lw, Fixed (f r (some lw) false)

/-- Every estimator of the package is deterministic. -/
theorem C35_builtin (e : Estimator) : Deterministic (e.call A R) := by
  intro r lw
  cases e with
  | count => exact .pure _
  | logz =>
    simp only [Estimator.call, logz, logwOr, pure_bind]
    exact .bind (.lift _) fun _ => .pure _
  | evidence =>
    simp only [Estimator.call, evidence, logwOr, pure_bind, bind_assoc]
    exact .bind (.lift _) fun _ => .pure _
  | paramMean ind handle => simp only [Estimator.call, paramMean, logwOr, pure_bind]; exact .lift _
  | paramCred prob ind =>
    simp only [Estimator.call, paramCred, logwOr, pure_bind]
    exact .bind (.lift _) fun _ => .pure _
  | paramSquaredMean ind =>
    simp only [Estimator.call, paramSquaredMean, logwOr, pure_bind]
    exact .bind (.lift _) fun _ => .pure _
  | rMean =>
    simp only [Estimator.call, rMean, logwOr, pure_bind]
    exact .bind (.lift _) fun _ => .pure _
  | rCred prob =>
    simp only [Estimator.call, rCred, logwOr, pure_bind]
    exact .bind (.lift _) fun _ => .pure _

theorem callEach_fixed {fs : List (EstFunc σ)} (hf : ∀ f ∈ fs, Deterministic f) (r : Run ℝ) (lw : List ℝ) :
    Fixed (callEach r lw fs) := by
  induction fs with
  | nil => exact .pure _
  | cons f fs ih =>
    exact .bind (hf f (by simp) r lw) fun _ => .bind (ih fun g hg => hf g (by simp [hg])) fun _ => .pure _

theorem runEstimators_fixed {fs : List (EstFunc σ)} (hf : ∀ f ∈ fs, Deterministic f) (r : Run ℝ) :
    Fixed (runEstimators R r fs false) :=
  .bind (getLogw_fixed R r) fun lw => callEach_fixed hf r lw

/-! ### Reproducibility -/

theorem bootstrapColumns_rng {fs : List (EstFunc σ)} (hf : ∀ f ∈ fs, Deterministic f) (r : Run ℝ)
    (settings : Option Settings) (ts : List (Run ℝ)) (sep : Bool) {seeds : List Seed}
    (hs : ∀ s ∈ seeds, s ≠ .keep) :
    RngRestored (bootstrapColumns A R r settings ts sep fs seeds) ∧
    RngIndependent (bootstrapColumns A R r settings ts sep fs seeds) := by
  induction seeds with
  | nil => exact ⟨.pure _, .pure _⟩
  | cons s ss ih =>
    obtain ⟨h1, h2⟩ := C35_seeded R A r settings (some ts) sep (hs s (by simp))
    obtain ⟨i1, i2⟩ := ih fun t ht => hs t (by simp [ht])
    have h3 := fun x : Run ℝ => runEstimators_fixed R hf x
    exact ⟨.bind h1 fun _ => .bind (h3 _).restored fun _ => .bind i1 fun _ => .pure _,
      .bind h2 fun _ => .bind (h3 _).independent fun _ => .bind i2 fun _ => .pure _⟩

/-- C35.  With the default seeds (or any seeds other than `False`) and deterministic
estimators, `run_bootstrap_values` and the two functions using it depend on their
arguments only, and leave the random state as it was when they return. -/
theorem C35_values {fs : List (EstFunc σ)} (hf : ∀ f ∈ fs, Deterministic f) (r : Run ℝ)
    (settings : Option Settings) (n : Nat) (sep flip : Bool) {seeds : Option (List Seed)}
    (hs : ∀ l, seeds = some l → ∀ s ∈ l, s ≠ .keep) (c : ℝ) :
    (RngRestored (runBootstrapValues A R r settings fs n sep flip seeds) ∧
      RngIndependent (runBootstrapValues A R r settings fs n sep flip seeds)) ∧
    (RngRestored (runStdBootstrap A R r settings fs n sep flip seeds) ∧
      RngIndependent (runStdBootstrap A R r settings fs n sep flip seeds)) ∧
    (RngRestored (runCiBootstrap A R r settings fs c n sep flip seeds) ∧
      RngIndependent (runCiBootstrap A R r settings fs c n sep flip seeds)) := by
  have hs' : ∀ s ∈ seeds.getD ((List.range n).map Seed.num), s ≠ .keep := by
    intro s hm
    cases seeds with
    | none =>
      obtain ⟨i, -, rfl⟩ := List.mem_map.mp hm
      simp
    | some l => exact hs l rfl s hm
  have key : RngRestored (runBootstrapValues A R r settings fs n sep flip seeds) ∧
      RngIndependent (runBootstrapValues A R r settings fs n sep flip seeds) := by
    have h := fun ts => bootstrapColumns_rng A R hf r settings ts sep hs'
    exact ⟨.bind (.assert _) fun _ => .bind (rngRestored_threads r) fun ts => .bind (h ts).1 fun _ => .pure _,
      .bind (.assert _) fun _ => .bind (rngIndependent_threads r) fun ts => .bind (h ts).2 fun _ => .pure _⟩
  have h3 := runEstimators_fixed R hf r
  exact ⟨key, ⟨.bind key.1 fun _ => .pure _, .bind key.2 fun _ => .pure _⟩,
    ⟨.bind key.1 fun _ => .bind h3.restored fun _ => .lift _,
      .bind key.2 fun _ => .bind h3.independent fun _ => .lift _⟩⟩

/-! ### Reflection about the mean -/

/-- The arithmetic mean. -/
def Spec.average (ys : List ℝ) : ℝ := ys.sum / ys.length

/-- The sample standard deviation (with the number of values less one). -/
def Spec.stdev (ys : List ℝ) : ℝ :=
  Real.sqrt ((ys.map (fun y => (y - average ys) ^ 2)).sum / (ys.length - 1))

theorem noNan_eq_some {row : List (Option ℝ)} {ys : List ℝ} : noNan row = some ys ↔ row = ys.map some := by
  unfold noNan
  induction row generalizing ys with
  | nil => cases ys <;> simp [allSome]
  | cons x xs ih =>
    cases x with
    | none =>
      rw [allSome]
      constructor
      · simp
      · intro h
        cases ys <;> simp at h
    | some x =>
      rw [allSome, Option.map_eq_some_iff]
      constructor
      · rintro ⟨zs, h1, rfl⟩
        rw [ih.mp h1, List.map_cons]
      · intro h
        cases ys with
        | nil => simp at h
        | cons y ys =>
          simp only [List.map_cons, List.cons.injEq, Option.some.injEq] at h
          exact ⟨ys, ih.mpr h.2, by rw [h.1]⟩

theorem noNan_map_some (ys : List ℝ) : noNan (ys.map some) = some ys := noNan_eq_some.mpr rfl

theorem noNan_eq_none {row : List (Option ℝ)} : noNan row = none ↔ none ∈ row := by
  constructor
  · intro h
    by_contra hn
    have : row = (row.map (·.getD 0)).map some := by
      rw [List.map_map]
      conv_lhs => rw [← List.map_id row]
      refine List.map_congr_left fun x hx => ?_
      cases x with
      | none => exact absurd hx hn
      | some x => rfl
    rw [noNan_eq_some.mpr this] at h
    cases h
  · intro h
    cases hr : noNan row with
    | none => rfl
    | some ys =>
      rw [noNan_eq_some.mp hr] at h
      simp at h

theorem npMean_some {ys : List ℝ} (h : ys ≠ []) : npMean (ys.map some) = some (average ys) := by
  unfold npMean
  rw [noNan_map_some]
  cases ys with
  | nil => exact absurd rfl h
  | cons y ys => rfl

theorem npStd_some {ys : List ℝ} (h : 2 ≤ ys.length) : npStd (ys.map some) = some (stdev ys) := by
  unfold npStd
  rw [noNan_map_some]
  show (if ys.length ≤ 1 then none else _) = _
  rw [if_neg (by omega)]
  rfl

theorem npStd_short {row : List (Option ℝ)} (h : row.length ≤ 1) : npStd row = none := by
  unfold npStd
  cases hr : noNan row with
  | none => rfl
  | some ys =>
    rw [noNan_eq_some.mp hr, List.length_map] at h
    show (if ys.length ≤ 1 then none else _) = _
    rw [if_pos h]

theorem npStd_nan {row : List (Option ℝ)} (h : none ∈ row) : npStd row = none := by
  unfold npStd
  rw [noNan_eq_none.mpr h]

theorem flipRow_some {ys : List ℝ} (h : ys ≠ []) :
    flipRow (ys.map some) = (ys.map (fun y => 2 * average ys - y)).map some := by
  unfold flipRow
  rw [npMean_some h, List.map_map, List.map_map]
  rfl

theorem flipRow_nan {row : List (Option ℝ)} (h : none ∈ row) : flipRow row = row.map (fun _ => none) := by
  unfold flipRow npMean
  rw [noNan_eq_none.mpr h]

theorem sum_reflect (c : ℝ) (ys : List ℝ) :
    (ys.map (fun y => c - y)).sum = ys.length * c - ys.sum := by
  induction ys with
  | nil => simp
  | cons y ys ih => simp only [List.map_cons, List.sum_cons, ih, List.length_cons]; push_cast; ring

theorem average_reflect (ys : List ℝ) :
    average (ys.map (fun y => 2 * average ys - y)) = average ys := by
  cases ys with
  | nil => rfl
  | cons y ys =>
    have h0 : (((y :: ys).length : Nat) : ℝ) ≠ 0 := by simp; positivity
    have h1 : (y :: ys).sum = ((y :: ys).length : Nat) * average (y :: ys) := by
      unfold average; field_simp
    show (List.map _ (y :: ys)).sum / _ = _
    rw [sum_reflect, List.length_map, h1, div_eq_iff h0]
    ring

theorem stdev_reflect (ys : List ℝ) :
    stdev (ys.map (fun y => 2 * average ys - y)) = stdev ys := by
  unfold stdev
  rw [average_reflect, List.length_map, List.map_map]
  congr 3
  refine List.map_congr_left fun y _ => ?_
  show (2 * average ys - y - average ys) ^ 2 = _
  ring

/-- Row `row'` is row `row` reflected about its mean; mean and standard deviation are
the same.  A nan makes the whole row nan. -/
structure Spec.Reflected (row row' : List (Option ℝ)) : Prop where
  nan : none ∈ row → row' = row.map (fun _ => none)
  values : ∀ ys, row = ys.map some → ∃ zs, row' = zs.map some ∧
    zs = ys.map (fun y => average ys - (y - average ys)) ∧ average zs = average ys ∧ stdev zs = stdev ys

theorem flipRow_reflected (row : List (Option ℝ)) : Reflected row (flipRow row) := by
  constructor
  · exact flipRow_nan
  · rintro ys rfl
    cases ys with
    | nil => exact ⟨[], rfl, rfl, rfl, rfl⟩
    | cons y ys =>
      refine ⟨_, flipRow_some (by simp), List.map_congr_left fun y _ => by ring, average_reflect _,
        stdev_reflect _⟩

/-- C38.  `flip_skew` does not change whether or how `run_bootstrap_values` fails, nor its
effects; if it returns, each row (the values of one estimator) is reflected about its
mean, which changes neither mean nor standard deviation. -/
theorem C38_flip (r : Run ℝ) (settings : Option Settings) (fs : List (EstFunc σ)) (n : Nat) (sep : Bool)
    (seeds : Option (List Seed)) (w w' : World σ) :
    (∀ e, runBootstrapValues A R r settings fs n sep true seeds w = (.error e, w') ↔
      runBootstrapValues A R r settings fs n sep false seeds w = (.error e, w')) ∧
    ∀ vals, runBootstrapValues A R r settings fs n sep false seeds w = (.ok vals, w') →
      ∃ vals', runBootstrapValues A R r settings fs n sep true seeds w = (.ok vals', w') ∧
        List.Forall₂ Reflected vals vals' := by
  have key : runBootstrapValues A R r settings fs n sep true seeds =
      (runBootstrapValues A R r settings fs n sep false seeds >>= fun vals => pure (vals.map flipRow)) := by
    simp [runBootstrapValues]
  rw [key]
  constructor
  · intro e
    rw [M.bind_eq_error]
    constructor
    · rintro (h | ⟨a, w1, -, h⟩)
      · exact h
      · simp at h
    · exact fun h => .inl h
  · intro vals h
    refine ⟨vals.map flipRow, M.bind_ok h, ?_⟩
    rw [List.forall₂_map_right_iff, List.forall₂_same]
    exact fun row _ => flipRow_reflected row

/-- C38.  `run_std_bootstrap` is the same function with and without `flip_skew`. -/
theorem C38_std (r : Run ℝ) (settings : Option Settings) (fs : List (EstFunc σ)) (n : Nat) (sep : Bool)
    (seeds : Option (List Seed)) : runStdBootstrap A R r settings fs n sep true seeds =
      runStdBootstrap A R r settings fs n sep false seeds := by
  have key : runBootstrapValues A R r settings fs n sep true seeds =
      (runBootstrapValues A R r settings fs n sep false seeds >>= fun vals => pure (vals.map flipRow)) := by
    simp [runBootstrapValues]
  unfold runStdBootstrap
  rw [key]
  simp only [bind_assoc, pure_bind, List.map_map]
  congr 1
  funext vals
  congr 1
  refine List.map_congr_left fun row _ => ?_
  show npStd (flipRow row) = npStd row
  by_cases hn : none ∈ row
  · have : none ∈ flipRow row := by
      rw [flipRow_nan hn]
      exact List.mem_map.mpr ⟨_, hn, rfl⟩
    rw [npStd_nan hn, npStd_nan this]
  · obtain ⟨ys, hys⟩ : ∃ ys, noNan row = some ys := by
      rw [← Option.isSome_iff_exists, Option.isSome_iff_ne_none]
      exact fun h => hn (noNan_eq_none.mp h)
    rw [noNan_eq_some.mp hys]
    by_cases h2 : 2 ≤ ys.length
    · rw [flipRow_some (by rintro rfl; simp at h2), npStd_some h2, npStd_some (by simpa using h2),
        stdev_reflect]
    · rw [npStd_short (row := flipRow (ys.map some)) (by simp [flipRow]; omega), npStd_short (by simp; omega)]

/-! ### The arrays of values -/

theorem callEach_length {r : Run ℝ} {lw : List ℝ} {fs : List (EstFunc σ)} {w w' : World σ}
    {vs : List (Option ℝ)} (h : callEach r lw fs w = (.ok vs, w')) : vs.length = fs.length := by
  induction fs generalizing w vs w' with
  | nil =>
    rw [callEach, M.pure_apply] at h
    cases h; rfl
  | cons f fs ih =>
    rw [callEach] at h
    obtain ⟨v, w1, -, h⟩ := M.bind_eq_ok.mp h
    obtain ⟨us, w2, h2, h⟩ := M.bind_eq_ok.mp h
    rw [M.pure_apply] at h
    cases h
    rw [List.length_cons, List.length_cons, ih h2]

theorem runEstimators_length {r : Run ℝ} {sim : Bool} {fs : List (EstFunc σ)} {w w' : World σ}
    {vs : List (Option ℝ)} (h : runEstimators R r fs sim w = (.ok vs, w')) : vs.length = fs.length := by
  obtain ⟨lw, w1, -, h⟩ := M.bind_eq_ok.mp h
  exact callEach_length h

theorem fromColumns_spec {n : Nat} {cols : List (List (Option ℝ))} (h : ∀ c ∈ cols, c.length = n) :
    (fromColumns n cols).length = n ∧ (∀ row ∈ fromColumns n cols, row.length = cols.length) ∧
    ∀ (i j : Nat) (row col : List (Option ℝ)), (fromColumns n cols)[i]? = some row →
      cols[j]? = some col → row[j]? = col[i]? := by
  refine ⟨by simp [fromColumns], ?_, ?_⟩
  · intro row hr
    obtain ⟨i, -, rfl⟩ := List.mem_map.mp hr
    simp
  · intro i j row col hr hc
    have hi : i < n := by
      have := (List.getElem?_eq_some_iff.mp hr).1
      simpa [fromColumns] using this
    unfold fromColumns at hr
    rw [List.getElem?_map, List.getElem?_range hi, Option.map_some, Option.some.injEq] at hr
    have hl := h col (List.mem_of_getElem? hc)
    rw [← hr, List.getElem?_map, hc, Option.map_some, List.getElem?_eq_getElem (by omega)]
    rfl

theorem fromColumns_replicate (m : Nat) (vs : List (Option ℝ)) :
    fromColumns vs.length (List.replicate m vs) = vs.map (List.replicate m) := by
  apply List.ext_getElem?
  intro i
  unfold fromColumns
  by_cases hi : i < vs.length
  · rw [List.getElem?_map, List.getElem?_range hi, List.getElem?_map, List.getElem?_eq_getElem hi]
    simp only [Option.map_some, List.map_replicate, Option.some.injEq]
    rw [List.getElem?_eq_getElem hi]
    rfl
  · rw [List.getElem?_eq_none (by simpa using hi), List.getElem?_eq_none (by simpa using hi)]

theorem bootstrapColumns_inv {r : Run ℝ} {settings : Option Settings} {ts : List (Run ℝ)} {sep : Bool}
    {fs : List (EstFunc σ)} {seeds : List Seed} {w w' : World σ} {cols : List (List (Option ℝ))}
    (h : bootstrapColumns A R r settings ts sep fs seeds w = (.ok cols, w')) :
    List.Forall₂ (fun s col => ∃ (w1 w2 w3 : World σ) (rep : Run ℝ) (st : Option Settings),
      bootstrapResampleRun A R r settings (some ts) sep s w1 = (.ok (rep, st), w2) ∧
      runEstimators R rep fs false w2 = (.ok col, w3)) seeds cols := by
  induction seeds generalizing w cols with
  | nil =>
    rw [bootstrapColumns, M.pure_apply] at h
    cases h; exact .nil
  | cons s ss ih =>
    rw [bootstrapColumns] at h
    obtain ⟨rep, w1, h1, h⟩ := M.bind_eq_ok.mp h
    obtain ⟨col, w2, h2, h⟩ := M.bind_eq_ok.mp h
    obtain ⟨us, w3, h3, h⟩ := M.bind_eq_ok.mp h
    rw [M.pure_apply] at h
    cases h
    exact .cons ⟨_, _, _, _, _, h1, h2⟩ (ih h3)

/-- C61.  If `run_bootstrap_values` returns, there was one seed for each replication; the
array has a row for each estimator and a column for each replication, and column `j`
holds the values of the estimators on the replication with seed `j` of the threads of the
run. -/
theorem C61_values {r : Run ℝ} {settings : Option Settings} {fs : List (EstFunc σ)} {n : Nat} {sep : Bool}
    {seeds : Option (List Seed)} {w w' : World σ} {vals : List (List (Option ℝ))}
    (h : runBootstrapValues A R r settings fs n sep false seeds w = (.ok vals, w')) :
    ∃ (ss : List Seed) (ts : List (Run ℝ)), (seeds = some ss ∨ seeds = none ∧ ss = (List.range n).map Seed.num) ∧
      ss.length = n ∧ (getRunThreads r w).1 = .ok ts ∧
      vals.length = fs.length ∧ (∀ row ∈ vals, row.length = n) ∧
      ∀ (j : Nat) (s : Seed), ss[j]? = some s → ∃ (w1 w2 w3 : World σ) (rep : Run ℝ) (st : Option Settings)
        (col : List (Option ℝ)),
        bootstrapResampleRun A R r settings (some ts) sep s w1 = (.ok (rep, st), w2) ∧
        runEstimators R rep fs false w2 = (.ok col, w3) ∧
        ∀ (i : Nat) (row : List (Option ℝ)), vals[i]? = some row → row[j]? = col[i]? := by
  unfold runBootstrapValues at h
  dsimp only at h
  obtain ⟨_, w1, h1, h⟩ := M.bind_eq_ok.mp h
  obtain ⟨ts, w2, h2, h⟩ := M.bind_eq_ok.mp h
  obtain ⟨cols, w3, h3, h⟩ := M.bind_eq_ok.mp h
  rw [M.pure_apply, if_neg (by simp)] at h
  cases h
  have hw : w1 = w := by
    rw [M.assert_apply] at h1
    exact (congrArg Prod.snd h1).symm
  rw [hw] at h2
  have hn : (seeds.getD ((List.range n).map Seed.num)).length = n := by
    rw [M.assert_apply] at h1
    by_contra hc
    simp [hc] at h1
  have hi := bootstrapColumns_inv A R h3
  have hlen : ∀ c ∈ cols, c.length = fs.length := by
    intro c hc
    obtain ⟨j, hj⟩ := List.mem_iff_getElem?.mp hc
    have hj' := (List.getElem?_eq_some_iff.mp hj)
    obtain ⟨hlt, hget⟩ := hj'
    have := (List.forall₂_iff_get.mp hi).2 j (by rw [(List.forall₂_iff_get.mp hi).1]; exact hlt) hlt
    obtain ⟨_, _, _, _, _, -, he⟩ := this
    rw [← hget]
    exact runEstimators_length R he
  obtain ⟨q1, q2, q3⟩ := fromColumns_spec hlen
  have hcl := (List.forall₂_iff_get.mp hi).1
  refine ⟨_, ts, ?_, hn, by rw [h2], q1, fun row hr => by rw [q2 row hr, ← hcl, hn], ?_⟩
  · cases seeds with
    | none => exact .inr ⟨rfl, rfl⟩
    | some l => exact .inl rfl
  · intro j s hs
    obtain ⟨hlt, hget⟩ := List.getElem?_eq_some_iff.mp hs
    obtain ⟨w1, w2, w3, rep, st, e1, e2⟩ := (List.forall₂_iff_get.mp hi).2 j hlt (by omega)
    refine ⟨w1, w2, w3, rep, st, cols[j], by rw [← hget]; exact e1, e2, ?_⟩
    intro i row hrow
    exact q3 i j row _ hrow (List.getElem?_eq_getElem (by omega))

/-- C61.  `run_std_bootstrap` returns the standard deviations of the rows of
`run_bootstrap_values`. -/
theorem C61_std {r : Run ℝ} {settings : Option Settings} {fs : List (EstFunc σ)} {n : Nat} {sep flip : Bool}
    {seeds : Option (List Seed)} {w w' : World σ} {vals : List (List (Option ℝ))}
    (h : runBootstrapValues A R r settings fs n sep flip seeds w = (.ok vals, w')) :
    ∃ stds, runStdBootstrap A R r settings fs n sep flip seeds w = (.ok stds, w') ∧
      List.Forall₂ (fun row std => ∀ ys : List ℝ, row = ys.map some → 2 ≤ ys.length → std = some (stdev ys))
        vals stds := by
  refine ⟨vals.map npStd, M.bind_ok h, ?_⟩
  rw [List.forall₂_map_right_iff, List.forall₂_same]
  rintro row - ys rfl h2
  exact npStd_some h2

/-! ### One thread -/

theorem bootstrap_single {r : Run ℝ} {labels : List Int} {mm : WithBot ℝ × ℝ}
    (h : Recombinable r labels [mm]) (settings : Option Settings) (sep : Bool)
    (hsep : ∀ k, separately settings sep = some k → k ≤ 1) (seed : Seed) (w : World σ) :
    ∃ w' : World σ, bootstrapResampleRun A R r settings none sep seed w = (.ok (r, settings), w') ∧
      w'.warns = w.warns ++ (if sep = true ∧ separately settings sep = none then [Warn.noNinit] else []) ∧
      (seed ≠ .keep → w'.rng = w.rng) := by
  have hv := h.toValidWith
  obtain ⟨p, hp, hp'⟩ := hv.init
  have hb : mm.1 = ⊥ := by rw [List.mem_singleton] at hp; rw [← hp]; exact hp'
  obtain ⟨inds, hd, hi⟩ := bootstrap_ok R (A := A) hv (settings := settings) (sep := sep) seed
    (fun k hk => ⟨hsep k hk, fun i mm' _ hmm => by
      have := List.mem_of_getElem? hmm
      rw [List.mem_singleton] at this
      rw [this, hb]⟩) w (Q := fun inds => inds = [0]) (P := fun run => run = r) (by
      rintro inds - - rfl
      refine ⟨r, rfl, fun w => ?_⟩
      have h1 := C18_split_combine R (A := A) h false w
      rw [M.bind_ok (getRunThreads_ok hv w)] at h1
      exact h1)
  have h0 : inds = [0] := by
    have := hd.count
    obtain ⟨a, rfl⟩ := List.length_eq_one_iff.mp (show inds.length = 1 from this)
    have := hd.range a (by simp)
    have : a = 0 := by simpa using this
    rw [this]
  obtain ⟨run, w', e1, e2, e3, e4⟩ := hi h0
  rw [e4] at e1
  exact ⟨w', e1, e2, e3⟩

/-- C40.  A run with a single thread (and distinct likelihoods): every replication, with
any seed, settings and random state, is the run itself. -/
theorem C40_replication {r : Run ℝ} {labels : List Int} {mm : WithBot ℝ × ℝ}
    (h : Recombinable r labels [mm]) (settings : Option Settings) (sep : Bool)
    (hsep : ∀ k, separately settings sep = some k → k ≤ 1) (seed : Seed) (w : World σ) :
    ∃ w' : World σ, bootstrapResampleRun A R r settings none sep seed w = (.ok (r, settings), w') ∧
      (seed ≠ .keep → w'.rng = w.rng) := by
  obtain ⟨w', h1, -, h2⟩ := bootstrap_single A R h settings sep hsep seed w
  exact ⟨w', h1, h2⟩

theorem bootstrapColumns_single {r : Run ℝ} {labels : List Int} {mm : WithBot ℝ × ℝ}
    (h : Recombinable r labels [mm]) (settings : Option Settings) (sep : Bool)
    (hsep : ∀ k, separately settings sep = some k → k ≤ 1) {fs : List (EstFunc σ)} {vs : List (Option ℝ)}
    (hv : ∀ w, runEstimators R r fs false w = (.ok vs, w)) {ts : List (Run ℝ)}
    (hts : ∀ w : World σ, getRunThreads r w = (.ok ts, w)) (seeds : List Seed) (w : World σ) :
    ∃ w', bootstrapColumns A R r settings ts sep fs seeds w = (.ok (List.replicate seeds.length vs), w') := by
  induction seeds generalizing w with
  | nil => exact ⟨w, rfl⟩
  | cons s ss ih =>
    obtain ⟨w1, h1, -⟩ := C40_replication A R h settings sep hsep s w
    rw [← C34_threads R hts] at h1
    obtain ⟨w2, h2⟩ := ih w1
    refine ⟨w2, ?_⟩
    rw [bootstrapColumns, M.bind_ok h1, M.bind_ok (hv w1), M.bind_ok h2]
    rfl

theorem average_replicate {n : Nat} (hn : n ≠ 0) (x : ℝ) : average (List.replicate n x) = x := by
  unfold average
  have : ((n : Nat) : ℝ) ≠ 0 := by exact_mod_cast hn
  rw [List.sum_replicate, List.length_replicate, nsmul_eq_mul]
  field_simp

theorem stdev_replicate {n : Nat} (hn : n ≠ 0) (x : ℝ) : stdev (List.replicate n x) = 0 := by
  unfold stdev
  rw [average_replicate hn, List.map_replicate, List.sum_replicate]
  simp

theorem flipRow_replicate (n : Nat) (v : Option ℝ) : flipRow (List.replicate n v) = List.replicate n v := by
  cases n with
  | zero => rfl
  | succ n =>
    cases v with
    | none => rw [flipRow_nan (by simp), List.map_replicate]
    | some x =>
      rw [← List.map_replicate, flipRow_some (by simp), average_replicate (by simp), List.map_replicate,
        show 2 * x - x = x by ring]

theorem values_single {r : Run ℝ} {labels : List Int} {mm : WithBot ℝ × ℝ}
    (h : Recombinable r labels [mm]) (settings : Option Settings) (sep flip : Bool)
    (hsep : ∀ k, separately settings sep = some k → k ≤ 1) {fs : List (EstFunc σ)} {vs : List (Option ℝ)}
    (hv : ∀ w, runEstimators R r fs false w = (.ok vs, w)) (n : Nat) {seeds : Option (List Seed)}
    (hs : ∀ l, seeds = some l → l.length = n) (w : World σ) :
    ∃ w', runBootstrapValues A R r settings fs n sep flip seeds w = (.ok (vs.map (List.replicate n)), w') := by
  have hts : ∀ w : World σ, getRunThreads r w = _ := fun w => getRunThreads_ok h.toValidWith w
  have hn : (seeds.getD ((List.range n).map Seed.num)).length = n := by
    cases seeds with
    | none => simp
    | some l => exact hs l rfl
  obtain ⟨w', hc⟩ := bootstrapColumns_single A R h settings sep hsep hv hts
    (seeds.getD ((List.range n).map Seed.num)) w
  refine ⟨w', ?_⟩
  have hl : vs.length = fs.length := runEstimators_length R (hv w)
  unfold runBootstrapValues
  dsimp only
  rw [M.bind_ok (a := ()) (w' := w) (by rw [M.assert_apply]; simp [hn]), M.bind_ok (hts w), M.bind_ok hc,
    M.pure_apply, hn, ← hl, fromColumns_replicate, List.map_map]
  cases flip with
  | false => rfl
  | true =>
    rw [if_pos rfl]
    congr 2
    exact List.map_congr_left fun v _ => flipRow_replicate n v

theorem interpFrom_const {x c : ℝ} {p : ℝ × ℝ} {ps : List (ℝ × ℝ)} (h : ∀ q ∈ p :: ps, q.2 = c) :
    interpFrom x p ps = c := by
  induction ps generalizing p with
  | nil => exact h p (by simp)
  | cons q qs ih =>
    rw [interpFrom, h p (by simp), h q (by simp), ih (fun a ha => h a (by simp [List.mem_cons.mp ha]))]
    simp

theorem ciValue_replicate (c : ℝ) {n : Nat} (hn : n ≠ 0) (v : Option ℝ) :
    ciValue c v (List.replicate n v) = .ok v := by
  unfold ciValue
  cases v with
  | none =>
    rw [noNan_eq_none.mpr (by rw [List.mem_replicate]; exact ⟨hn, rfl⟩)]
  | some x =>
    have hsort : (List.replicate n x).insertionSort (· ≤ ·) = List.replicate n x := by
      have := List.perm_insertionSort (· ≤ ·) (List.replicate n x)
      exact List.perm_replicate.mp this
    rw [← List.map_replicate, noNan_map_some]
    dsimp only
    rw [hsort, List.length_replicate]
    have hi : interp (1 - c) (cdfPoints n) (List.replicate n x) = .ok x := by
      unfold interp
      rw [if_neg (by simp [cdfPoints])]
      cases hz : (cdfPoints n).zip (List.replicate n x) with
      | nil =>
        have := congrArg List.length hz
        simp [cdfPoints] at this
        exact absurd this hn
      | cons p ps =>
        have hc : ∀ q ∈ p :: ps, q.2 = x := by
          intro q hq
          rw [← hz] at hq
          exact List.eq_of_mem_replicate (List.of_mem_zip hq).2
        dsimp only
        rw [hc p (by simp), interpFrom_const hc, ite_self]
    rw [hi]
    show Except.ok (some (x * 2 - x)) = _
    congr 2; ring

/-- C40.  For a run with a single thread and estimators which return `vs` on it,
`run_std_bootstrap` (with at least two replications) is zero, or nan where the estimate
is nan, and `run_ci_bootstrap` (with at least one) is the estimate itself, for every
credible interval, seed, setting and random state. -/
theorem C40_single {r : Run ℝ} {labels : List Int} {mm : WithBot ℝ × ℝ}
    (h : Recombinable r labels [mm]) (settings : Option Settings) (sep flip : Bool)
    (hsep : ∀ k, separately settings sep = some k → k ≤ 1) {fs : List (EstFunc σ)} {vs : List (Option ℝ)}
    (hv : ∀ w, runEstimators R r fs false w = (.ok vs, w)) (n : Nat) {seeds : Option (List Seed)}
    (hs : ∀ l, seeds = some l → l.length = n) (c : ℝ) (w : World σ) :
    (2 ≤ n → ∃ w', runStdBootstrap A R r settings fs n sep flip seeds w =
      (.ok (vs.map (fun v => v.map (fun _ => (0 : ℝ)))), w')) ∧
    (1 ≤ n → ∃ w', runCiBootstrap A R r settings fs c n sep flip seeds w = (.ok vs, w')) := by
  obtain ⟨w', hval⟩ := values_single A R h settings sep flip hsep hv n hs w
  constructor
  · intro hn
    refine ⟨w', ?_⟩
    unfold runStdBootstrap
    rw [M.bind_ok hval, M.pure_apply, List.map_map]
    congr 2
    refine List.map_congr_left fun v _ => ?_
    show npStd (List.replicate n v) = _
    cases v with
    | none =>
      rw [npStd_nan (by rw [List.mem_replicate]; exact ⟨by omega, rfl⟩)]; rfl
    | some x =>
      rw [← List.map_replicate, npStd_some (by simpa using hn), stdev_replicate (by omega)]; rfl
  · intro hn
    refine ⟨w', ?_⟩
    unfold runCiBootstrap
    rw [M.bind_ok hval, M.bind_ok (hv w'), M.lift_apply]
    congr 1
    have : ∀ us : List (Option ℝ), pyMap (fun p : Option ℝ × List (Option ℝ) => ciValue c p.1 p.2)
        (us.zip (us.map (List.replicate n))) = .ok us := by
      intro us
      induction us with
      | nil => rfl
      | cons v us ih =>
        rw [List.map_cons, List.zip_cons_cons, pyMap, ciValue_replicate c (by omega), Py.ok_bind, ih]
        rfl
    exact this vs

/-! ### Simulated weights -/

theorem simulateColumns_inv {r : Run ℝ} {fs : List (EstFunc σ)} {n : Nat} {w w' : World σ}
    {cols : List (List (Option ℝ))} (h : simulateColumns R r fs n w = (.ok cols, w')) :
    ∃ ws : Nat → World σ, ws 0 = w ∧ ws n = w' ∧ cols.length = n ∧
      ∀ j col, cols[j]? = some col → runEstimators R r fs true (ws j) = (.ok col, ws (j + 1)) := by
  induction n generalizing w cols with
  | zero =>
    rw [simulateColumns, M.pure_apply] at h
    cases h
    exact ⟨fun _ => w', rfl, rfl, rfl, by simp⟩
  | succ n ih =>
    rw [simulateColumns] at h
    obtain ⟨col, w1, h1, h⟩ := M.bind_eq_ok.mp h
    obtain ⟨us, w2, h2, h⟩ := M.bind_eq_ok.mp h
    rw [M.pure_apply] at h
    cases h
    obtain ⟨ws, e1, e2, e3, e4⟩ := ih h2
    refine ⟨fun j => Nat.casesOn j w ws, rfl, e2, by rw [List.length_cons, e3], ?_⟩
    intro j c hc
    cases j with
    | zero =>
      simp only [List.getElem?_cons_zero, Option.some.injEq] at hc
      rw [← hc]
      show runEstimators R r fs true w = (_, ws 0)
      rw [e1, h1]
    | succ j => exact e4 j c (by simpa using hc)

/-- C57.  `run_std_simulate` without a number of simulations raises `AssertionError` at
once.  If it returns with `n` simulations, the estimators were evaluated together `n`
times in succession with simulated weights, each evaluation continuing from the random
state left by the one before, and the result for each estimator is the standard deviation
of its `n` values. -/
theorem C57_simulate {r : Run ℝ} {fs : List (EstFunc σ)} {w : World σ} :
    runStdSimulate R r fs none w = (.error .assertion, w) ∧
    ∀ (n : Nat) (w' : World σ) (out : List (Option ℝ)), runStdSimulate R r fs (some n) w = (.ok out, w') →
      out.length = fs.length ∧
      ∃ (ws : Nat → World σ) (cols : Nat → List (Option ℝ)), ws 0 = w ∧ ws n = w' ∧
        (∀ j, j < n → runEstimators R r fs true (ws j) = (.ok (cols j), ws (j + 1))) ∧
        ∀ (i : Nat) (y : Nat → ℝ), i < fs.length → 2 ≤ n → (∀ j, j < n → (cols j)[i]? = some (some (y j))) →
          out[i]? = some (some (stdev ((List.range n).map y))) := by
  refine ⟨rfl, ?_⟩
  intro n w' out h
  unfold runStdSimulate at h
  obtain ⟨cols, w1, h1, h⟩ := M.bind_eq_ok.mp h
  rw [M.pure_apply] at h
  cases h
  obtain ⟨ws, e1, e2, e3, e4⟩ := simulateColumns_inv R h1
  have hlen : ∀ c ∈ cols, c.length = fs.length := by
    intro c hc
    obtain ⟨j, hj⟩ := List.mem_iff_getElem?.mp hc
    exact runEstimators_length R (e4 j c hj)
  obtain ⟨q1, q2, q3⟩ := fromColumns_spec hlen
  have hg : ∀ j, j < n → cols[j]? = some (cols.getD j []) := by
    intro j hj
    rw [List.getD_eq_getElem?_getD, List.getElem?_eq_getElem (by omega)]
    rfl
  refine ⟨by rw [List.length_map, q1], ws, fun j => cols.getD j [], e1, e2, ?_, ?_⟩
  · intro j hj
    exact e4 j _ (hg j hj)
  · intro i y hi hn hy
    have hr : (fromColumns fs.length cols)[i]? = some (((List.range n).map y).map some) := by
      rw [List.getElem?_eq_getElem (by omega)]
      congr 1
      apply List.ext_getElem?
      intro j
      by_cases hj : j < n
      · rw [q3 i j _ _ (List.getElem?_eq_getElem (by omega)) (hg j hj), hy j hj]
        simp [hj]
      · rw [List.getElem?_eq_none, List.getElem?_eq_none]
        · simpa using hj
        · rw [q2 _ (List.getElem_mem _), e3]; omega
    rw [List.getElem?_map, hr, Option.map_some, npStd_some (by simpa using hn)]

/-- C57.  If the estimators return in each of the `n` evaluations, so does `run_std_simulate`. -/
theorem C57_returns {r : Run ℝ} {fs : List (EstFunc σ)} {n : Nat} {ws : Nat → World σ} {cols : Nat → List (Option ℝ)}
    (h : ∀ j, j < n → runEstimators R r fs true (ws j) = (.ok (cols j), ws (j + 1))) :
    ∃ out, runStdSimulate R r fs (some n) (ws 0) = (.ok out, ws n) := by
  have key : ∀ (n : Nat) (ws : Nat → World σ) (cols : Nat → List (Option ℝ)),
      (∀ j, j < n → runEstimators R r fs true (ws j) = (.ok (cols j), ws (j + 1))) →
      ∃ cs, simulateColumns R r fs n (ws 0) = (.ok cs, ws n) := by
    intro n
    induction n with
    | zero => exact fun ws _ _ => ⟨[], rfl⟩
    | succ n ih =>
      intro ws cols h
      obtain ⟨cs, hcs⟩ := ih (fun j => ws (j + 1)) (fun j => cols (j + 1)) (fun j hj => h (j + 1) (by omega))
      refine ⟨cols 0 :: cs, ?_⟩
      rw [simulateColumns, M.bind_ok (h 0 (by omega)), M.bind_ok hcs]
      rfl
  obtain ⟨cs, hcs⟩ := key n ws cols h
  refine ⟨(fromColumns fs.length cs).map npStd, ?_⟩
  change (simulateColumns R r fs n >>= fun cols => pure ((fromColumns fs.length cols).map npStd)) (ws 0) = _
  rw [M.bind_ok hcs]
  rfl

theorem getLogw_single {r : Run ℝ} (h : Weighable r) (h1 : r.logl.length = 1) (sim : Bool) (w : World σ)
    (hu : sim = true → ∀ u ∈ (R.uniform r.nlive.length w.rng).1, 0 < u) :
    (getLogw R r sim w).1 = .ok r.logl := by
  obtain ⟨lw, hlw, -⟩ := C25_volumes R h sim w hu
  rw [getLogw_ok h sim w hu]
  obtain ⟨l, hl⟩ := List.length_eq_one_iff.mp h1
  obtain ⟨m, hm⟩ := List.length_eq_one_iff.mp (h.len.trans h1)
  have hd : (R.uniform 1 w.rng).1.length = 1 := R.uniform_length _ _
  obtain ⟨u, hu'⟩ := List.length_eq_one_iff.mp hd
  have hv : priorVolumes sim (R.uniform r.nlive.length w.rng).1 r.nlive = [1] := by
    rw [hm]
    cases sim with
    | false => simp [priorVolumes, shells, edges, positions, expectedSteps]
    | true => simp [priorVolumes, shells, edges, positions, simulatedSteps, hu']
  simp [hv, hl]

/-- C57.  For a run with one sample, estimators which use nothing but run and weights, and
positive uniform draws, the simulated weights are the expected ones and the standard
deviations are zero (nan for a nan estimate). -/
theorem C57_single {r : Run ℝ} (h : Weighable r) (h1 : r.logl.length = 1) {fs : List (EstFunc σ)}
    (hf : ∀ f ∈ fs, Deterministic f) {vs : List (Option ℝ)} {w : World σ}
    (hv : (runEstimators R r fs false w).1 = .ok vs)
    (hu : ∀ s, ∀ u ∈ (R.uniform 1 s).1, 0 < u) {n : Nat} (hn : 2 ≤ n) :
    ∃ w', runStdSimulate R r fs (some n) w = (.ok (vs.map (fun v => v.map (fun _ => (0 : ℝ)))), w') := by
  have hnl : r.nlive.length = 1 := h.len.trans h1
  have hsim : ∀ w : World σ, ∃ w', runEstimators R r fs true w = (.ok vs, w') := by
    intro w1
    have e0 := getLogw_single R h h1 false w (by simp)
    have e1 := getLogw_single R h h1 true w1 (fun _ => by rw [hnl]; exact hu _)
    obtain ⟨c, hc⟩ := callEach_fixed hf r r.logl
    unfold runEstimators at hv ⊢
    rw [M.bind_ok (show getLogw R r false w = (.ok r.logl, _) from Prod.ext e0 rfl), hc] at hv
    rw [M.bind_ok (show getLogw R r true w1 = (.ok r.logl, _) from Prod.ext e1 rfl), hc]
    exact ⟨_, by rw [← hv]⟩
  have hcols : ∀ (m : Nat) (w : World σ), ∃ w', simulateColumns R r fs m w = (.ok (List.replicate m vs), w') := by
    intro m
    induction m with
    | zero => exact fun w => ⟨w, rfl⟩
    | succ m ih =>
      intro w
      obtain ⟨w1, h1⟩ := hsim w
      obtain ⟨w2, h2⟩ := ih w1
      exact ⟨w2, by rw [simulateColumns, M.bind_ok h1, M.bind_ok h2]; rfl⟩
  obtain ⟨w', hw⟩ := hcols n w
  have hl : vs.length = fs.length := runEstimators_length R (w := w)
    (show runEstimators R r fs false w = (.ok vs, _) from Prod.ext hv rfl)
  refine ⟨w', ?_⟩
  unfold runStdSimulate
  dsimp only
  rw [M.bind_ok hw, M.pure_apply, ← hl, fromColumns_replicate, List.map_map]
  congr 2
  refine List.map_congr_left fun v _ => ?_
  show npStd (List.replicate n v) = _
  cases v with
  | none =>
    rw [npStd_nan (by rw [List.mem_replicate]; exact ⟨by omega, rfl⟩)]; rfl
  | some x =>
    rw [← List.map_replicate, npStd_some (by simpa using hn), stdev_replicate (by omega)]; rfl

/-! ### Threads -/

theorem threadColumns_inv {fs : List (EstFunc σ)} {ts : List (Run ℝ)} {w w' : World σ}
    {cols : List (List (Option ℝ))} (h : threadColumns R fs ts w = (.ok cols, w')) :
    List.Forall₂ (fun t col => ∃ w1 w2 : World σ, runEstimators R t fs false w1 = (.ok col, w2)) ts cols := by
  induction ts generalizing w cols with
  | nil =>
    rw [threadColumns, M.pure_apply] at h
    cases h; exact .nil
  | cons t ts ih =>
    rw [threadColumns] at h
    obtain ⟨col, w1, h1, h⟩ := M.bind_eq_ok.mp h
    obtain ⟨us, w2, h2, h⟩ := M.bind_eq_ok.mp h
    rw [M.pure_apply] at h
    cases h
    exact .cons ⟨_, _, h1⟩ (ih h2)

theorem threadColumns_ok {fs : List (EstFunc σ)} {ts : List (Run ℝ)} {w : World σ}
    (h : ∀ t ∈ ts, ∃ col, ∀ w, runEstimators R t fs false w = (.ok col, w)) :
    ∃ cols, threadColumns R fs ts w = (.ok cols, w) := by
  induction ts with
  | nil => exact ⟨[], rfl⟩
  | cons t ts ih =>
    obtain ⟨col, hc⟩ := h t (by simp)
    obtain ⟨cols, hcs⟩ := ih fun u hu => h u (by simp [hu])
    exact ⟨col :: cols, by rw [threadColumns, M.bind_ok (hc w), M.bind_ok hcs]; rfl⟩

/-- C58.  If `run_thread_values` returns, the array has a row for each estimator and a
column for each thread of the run, and column `k` holds the values of the estimators on
thread `k`. -/
theorem C58_threads {r : Run ℝ} {fs : List (EstFunc σ)} {w w' : World σ} {vals : List (List (Option ℝ))}
    (h : runThreadValues R r fs w = (.ok vals, w')) :
    ∃ ts, (getRunThreads r w).1 = .ok ts ∧ vals.length = fs.length ∧ (∀ row ∈ vals, row.length = ts.length) ∧
      ∀ (k : Nat) (t : Run ℝ), ts[k]? = some t → ∃ (col : List (Option ℝ)) (w1 w2 : World σ),
        runEstimators R t fs false w1 = (.ok col, w2) ∧
        ∀ (i : Nat) (row : List (Option ℝ)), vals[i]? = some row → row[k]? = col[i]? := by
  unfold runThreadValues at h
  obtain ⟨ts, w1, h1, h⟩ := M.bind_eq_ok.mp h
  obtain ⟨cols, w2, h2, h⟩ := M.bind_eq_ok.mp h
  by_cases he : cols.isEmpty = true
  · rw [if_pos he] at h
    simp at h
  · rw [if_neg he] at h
    obtain ⟨_, w3, h3, h⟩ := M.bind_eq_ok.mp h
    rw [M.pure_apply] at h
    cases h
    have hi := threadColumns_inv R h2
    have hcl := (List.forall₂_iff_get.mp hi).1
    have hlen : ∀ c ∈ cols, c.length = fs.length := by
      intro c hc
      obtain ⟨j, hj⟩ := List.mem_iff_getElem?.mp hc
      obtain ⟨hlt, hget⟩ := List.getElem?_eq_some_iff.mp hj
      obtain ⟨_, _, he⟩ := (List.forall₂_iff_get.mp hi).2 j (by omega) hlt
      rw [← hget]
      exact runEstimators_length R he
    obtain ⟨q1, q2, q3⟩ := fromColumns_spec hlen
    refine ⟨ts, by rw [h1], q1, fun row hr => by rw [q2 row hr, hcl], ?_⟩
    intro k t ht
    obtain ⟨hlt, hget⟩ := List.getElem?_eq_some_iff.mp ht
    obtain ⟨a, b, e⟩ := (List.forall₂_iff_get.mp hi).2 k hlt (by omega)
    refine ⟨cols[k], a, b, by rw [← hget]; exact e, ?_⟩
    intro i row hrow
    exact q3 i k row _ hrow (List.getElem?_eq_getElem (by omega))

/-- C58.  For a valid run `run_thread_values` returns whenever the estimators return on
each of its threads, and has no effect on the global state. -/
theorem C58_returns {r : Run ℝ} {labels : List Int} {tmm : List (WithBot ℝ × ℝ)} (h : ValidWith r labels tmm)
    {fs : List (EstFunc σ)} (hf : ∀ f ∈ fs, Deterministic f) (w : World σ) {ts : List (Run ℝ)}
    (hts : (getRunThreads r w).1 = .ok ts) (hok : ∀ t ∈ ts, ∃ col, (runEstimators R t fs false w).1 = .ok col) :
    ts.length = tmm.length ∧ ∃ vals, runThreadValues R r fs w = (.ok vals, w) := by
  rw [getRunThreads_ok h w] at hts
  simp only [Except.ok.injEq] at hts
  obtain ⟨cols, hc⟩ := threadColumns_ok R (fs := fs) (ts := ts) (w := w) (by
    intro t ht
    obtain ⟨col, hcol⟩ := hok t ht
    obtain ⟨v, hv⟩ := runEstimators_fixed R hf t
    refine ⟨col, fun w1 => ?_⟩
    rw [hv] at hcol
    simp only at hcol
    rw [hv, hcol])
  have hlt : ts.length = tmm.length := by rw [← hts]; simp
  have hi := threadColumns_inv R hc
  have hcl := (List.forall₂_iff_get.mp hi).1
  refine ⟨hlt, fromColumns fs.length cols, ?_⟩
  unfold runThreadValues
  rw [M.bind_ok (getRunThreads_ok h w), hts, M.bind_ok hc, if_neg (by
    intro h0
    have := List.isEmpty_iff.mp h0
    have := h.pos
    simp_all)]
  rw [M.bind_ok (a := ()) (w' := w) (by
    rw [M.assert_apply, if_pos]
    simp [fromColumns, hcl])]
  rfl

/-! ### Concrete cases -/

section examples

/-- A run with one thread. -/
def exOne : Run ℝ :=
  { logl := [1, 2], nlive := [1, 1], theta := [[3], [5]], labels := some [0, 0], tmm := some [(⊥, 2)] }

theorem exOne_recombinable : Recombinable exOne [0, 0] [(⊥, 2)] where
  labels_eq := rfl
  tmm_eq := rfl
  nlive_len := rfl
  labels_len := rfl
  theta_len := rfl
  sorted := by
    intro i j x y hij hx hy
    have hj : j < 2 := (List.getElem?_eq_some_iff.mp hy).1
    interval_cases j <;> interval_cases i
    simp only [exOne, List.getElem?_cons_zero, List.getElem?_cons_succ, Option.some.injEq] at hx hy
    rw [← hx, ← hy]; norm_num
  labels_range := by
    intro k
    simp only [List.mem_cons, List.not_mem_nil, or_false, or_self, List.length_singleton]
    omega
  init := ⟨_, List.mem_singleton_self _, rfl⟩
  start_le := by
    intro k mm i l hm _ _
    have : mm ∈ [((⊥ : WithBot ℝ), (2 : ℝ))] := List.mem_of_getElem? hm
    rw [List.mem_singleton] at this
    rw [this]; exact bot_le
  end_eq := by
    intro k mm i l hm hl hx
    have hmm : mm ∈ [((⊥ : WithBot ℝ), (2 : ℝ))] := List.mem_of_getElem? hm
    rw [List.mem_singleton] at hmm
    have hk : k < 1 := (List.getElem?_eq_some_iff.mp hm).1
    have hi : i < 2 := (List.getElem?_eq_some_iff.mp hx).1
    interval_cases k
    interval_cases i
    · exact absurd rfl (hl.2 1 (by omega))
    · simp only [exOne, List.getElem?_cons_zero, List.getElem?_cons_succ, Option.some.injEq] at hx
      rw [hmm, ← hx]
  distinct := by
    intro i j x y hij hx hy
    have hj : j < 2 := (List.getElem?_eq_some_iff.mp hy).1
    interval_cases j <;> interval_cases i
    simp only [exOne, List.getElem?_cons_zero, List.getElem?_cons_succ, Option.some.injEq] at hx hy
    rw [← hx, ← hy]; norm_num
  dim := by
    intro s hs t ht
    simp only [exOne, List.mem_cons, List.not_mem_nil, or_false] at hs ht
    rcases hs with rfl | rfl <;> rcases ht with rfl | rfl <;> rfl
  born := by
    intro k mm hm l _
    have : mm ∈ [((⊥ : WithBot ℝ), (2 : ℝ))] := List.mem_of_getElem? hm
    rw [List.mem_singleton] at this
    rw [this]; exact WithBot.bot_lt_coe _
  starts := by
    intro mm hm s hs
    rw [List.mem_singleton] at hm
    rw [hm] at hs
    simp at hs
  live := by
    intro i l hl
    have hi : i < 2 := (List.getElem?_eq_some_iff.mp hl).1
    interval_cases i <;>
    · simp only [exOne, List.getElem?_cons_zero, List.getElem?_cons_succ, Option.some.injEq] at hl
      rw [← hl]
      norm_num [exOne]

/-- C40 for the number of samples of this run. -/
example (w : World σ) : (∃ w', runStdBootstrap A R exOne none [Estimator.count.call A R] 10 false true none w =
      (.ok [some 0], w')) ∧
    ∃ w', runCiBootstrap A R exOne none [Estimator.count.call A R] (19 / 20) 10 false true none w =
      (.ok [some 2], w') := by
  have hv : ∀ w : World σ, runEstimators R exOne [Estimator.count.call A R] false w = (.ok [some 2], w) := by
    intro w
    have hw : Weighable exOne := ⟨by simp [exOne], by simp [exOne], rfl⟩
    obtain ⟨h1, h2, -⟩ := C33_run_estimators R hw (fs := [Estimator.count.call A R])
      (by intro f hf; rw [List.mem_singleton] at hf; rw [hf]; exact C33_builtin A R _ _) false w (by simp)
    refine Prod.ext ((h2 _).mpr (.cons ?_ .nil)) h1
    simp [Estimator.call, countSamples, exOne]
  obtain ⟨h1, h2⟩ := C40_single A R exOne_recombinable none false true (by simp [separately]) hv 10
    (seeds := none) (by simp) (19 / 20) w
  exact ⟨h1 (by norm_num), h2 (by norm_num)⟩

/-- C57 for a run with one sample. -/
example (w : World Nat) : ∃ w', runStdSimulate halfRng
    { exOne with logl := [1], nlive := [1], theta := [[3]] } [Estimator.count.call A halfRng] (some 5) w =
      (.ok [some 0], w') := by
  have hw : Weighable { exOne with logl := [1], nlive := [1], theta := [[3]] } := ⟨by simp, by simp, rfl⟩
  refine C57_single halfRng hw rfl (vs := [some 1])
    (by intro f hf; rw [List.mem_singleton] at hf; rw [hf]; exact C35_builtin A halfRng _) ?_ ?_ (by norm_num)
  · obtain ⟨h1, h2, -⟩ := C33_run_estimators halfRng hw (fs := [Estimator.count.call A halfRng])
      (by intro f hf; rw [List.mem_singleton] at hf; rw [hf]; exact C33_builtin A halfRng _ _) false w (by simp)
    refine (h2 _).mpr (.cons ?_ .nil)
    simp [Estimator.call, countSamples]
  · intro s u hu
    have : u = 1 / 2 := List.eq_of_mem_replicate (show u ∈ List.replicate 1 (1 / 2 : ℝ) from hu)
    rw [this]; norm_num

/-- C38: reflecting 1, 2, 6 about the mean 3. -/
example : flipRow [some 1, some 2, some 6] = [some 5, some 4, some 0] := by
  have := flipRow_some (ys := [1, 2, 6]) (by simp)
  simp only [List.map_cons, List.map_nil] at this
  rw [this]
  norm_num [average]

end examples

end
end Nestcheck
