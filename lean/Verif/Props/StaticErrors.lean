import Verif.Props.StaticBootstrap
import Verif.Props.Interval
import Verif.Props.EndToEnd

/-! C103: the bootstrap errors of the runs of ideal samplers with a constant number of live points. -/

namespace Nestcheck
open Spec MeasureTheory ProbabilityTheory ENNReal Filter Topology
variable {σ : Type}

section
variable {K : Type} [CommRing K] [LinearOrder K] (R : Rng σ K)

/-- The random state after the threads of a replication have been drawn in the state `s`. -/
def Spec.following (n : Nat) (sep : Option Nat) (s : σ) : σ :=
  match sep with
  | none => (block R 0 n n s).2
  | some k => (block R k n (n - k) (block R 0 k k s).2).2

/-- The random state after a replication: where a seed is given the state before it is restored. -/
def Spec.stateAfter (n : Nat) (sep : Option Nat) (seed : Seed) (s : σ) : σ :=
  match seed with
  | .keep => following R n sep s
  | _ => s

/-- The random states in which the threads of successive replications are drawn. -/
def Spec.drawStates (n : Nat) (sep : Option Nat) : List Seed → σ → List σ
  | [], _ => []
  | seed :: seeds, s => seeded R seed s :: drawStates n sep seeds (stateAfter R n sep seed s)

variable {R}

theorem length_drawStates (n : Nat) (sep : Option Nat) (seeds : List Seed) (s : σ) : (drawStates R n sep seeds s).length = seeds.length := by
  induction seeds generalizing s with
  | nil => rfl
  | cons seed seeds ih => simp [drawStates, ih]

theorem bootstrapInds_state {settings : Option Settings} {tmm : List (WithBot K × K)} {n : Nat} {sep : Bool} {w w' : World σ} {inds : List Nat}
    (h : bootstrapInds R (some tmm) settings n sep w = (.ok inds, w')) : w'.rng = following R n (separately settings sep) w.rng := by
  unfold bootstrapInds at h
  unfold separately
  cases sep with
  | false => exact (npRandint_block R h).2
  | true =>
    simp only [if_true] at h ⊢
    cases hs : settings.bind (·.ninit) with
    | none =>
      rw [hs] at h
      simp only [M.bind_apply, M.warn_apply] at h
      exact (npRandint_block R (w := ⟨w.rng, w.warns ++ [Warn.noNinit]⟩) h).2
    | some k =>
      rw [hs] at h
      change separateInds R (some tmm) n k w = _ at h
      unfold separateInds at h
      obtain ⟨_, w1, h1, h⟩ := M.bind_eq_ok.mp h
      have hw1 : w1 = w := by rw [M.assert_apply, Prod.mk.injEq] at h1; exact h1.2.symm
      rw [hw1] at h
      obtain ⟨xs, w2, h2, h⟩ := M.bind_eq_ok.mp h
      obtain ⟨ys, w3, h3, h⟩ := M.bind_eq_ok.mp h
      rw [M.pure_apply, Prod.mk.injEq, Except.ok.injEq] at h
      obtain ⟨a1, -, -⟩ := npRandint_inv R h2
      obtain ⟨b1, -, -⟩ := npRandint_inv R h3
      rw [show ((n : Int) - (k : Int)) = ((n - k : Nat) : Int) by omega] at h3
      rw [← h.2, (npRandint_block R h3).2, (npRandint_block R h2).2]
      rfl

theorem dict_state {rows : List (Row K)} {tmm : List (WithBot K × K)} {w w' : World σ} {run : Run K}
    (h : dictGivenRunArray rows tmm w = (.ok run, w')) : w'.rng = w.rng := by
  unfold dictGivenRunArray at h
  dsimp only at h
  cases hm : amin (rows.map (·.logl)) with
  | none => rw [hm] at h; simp at h
  | some m =>
    rw [hm] at h
    obtain ⟨_, w1, h1, h⟩ := M.bind_eq_ok.mp h
    obtain ⟨_, w2, h2, h⟩ := M.bind_eq_ok.mp h
    obtain ⟨_, w3, h3, h⟩ := M.bind_eq_ok.mp h
    obtain ⟨_, w4, h4, h⟩ := M.bind_eq_ok.mp h
    simp only [M.assert_apply, M.pure_apply, Prod.mk.injEq] at h1 h3 h4 h
    rw [← h.2, ← h4.2, ← h3.2, h1.2]
    split_ifs at h2
    · simp only [M.bind_apply, M.warn_apply, M.pure_apply, Prod.mk.injEq] at h2
      rw [← h2.2]
    · simp only [M.pure_apply, Prod.mk.injEq] at h2
      rw [h2.2]

theorem combineThreads_state {A : Argsort K} {threads : List (Run K)} {abp : Bool} {run : Run K}
    {w w' : World σ} (h : combineThreads A R threads abp w = (.ok run, w')) : w'.rng = w.rng := by
  unfold combineThreads at h
  obtain ⟨tmm, w1, h1, h⟩ := M.bind_eq_ok.mp h
  obtain ⟨_, w2, h2, h⟩ := M.bind_eq_ok.mp h
  obtain ⟨arrs, w3, h3, h⟩ := M.bind_eq_ok.mp h
  obtain ⟨rows0, w4, h4, h⟩ := M.bind_eq_ok.mp h
  obtain ⟨st, w5, h5, h⟩ := M.bind_eq_ok.mp h
  obtain ⟨_, w6, h6, h⟩ := M.bind_eq_ok.mp h
  obtain ⟨rows, w7, h7, h⟩ := M.bind_eq_ok.mp h
  obtain ⟨_, w8, h8, h⟩ := M.bind_eq_ok.mp h
  obtain ⟨run0, w9, h9, h⟩ := M.bind_eq_ok.mp h
  simp only [M.lift_apply, M.assert_apply, Prod.mk.injEq] at h1 h2 h3 h4
  have h10 := dict_state h9
  have h11 : w'.rng = w9.rng := by
    cases hc : checkThreads run0 with
    | ok a =>
      rw [hc] at h
      simp only [M.pure_apply, Prod.mk.injEq] at h
      rw [h.2]
    | error e =>
      rw [hc] at h
      cases e <;> simp only [M.pure_apply, M.raise_apply, Prod.mk.injEq, reduceCtorEq, false_and] at h
      rw [h.2]
  have h12 : st = w4.rng ∧ w5 = w4 := by
    simp only [M.getState_apply, Prod.mk.injEq, Except.ok.injEq] at h5
    exact ⟨h5.1.symm, h5.2.symm⟩
  have h13 : w8.rng = st := by
    simp only [M.setState_apply, Prod.mk.injEq] at h8
    rw [← h8.2]
  rw [h11, h10, h13, h12.1, ← h4.2, ← h3.2, ← h2.2, h1.2]

/-- The random state after a replication. -/
theorem bootstrap_state {A : Argsort K} {r : Run K} {labels : List Int} {tmm : List (WithBot K × K)} (hv : ValidWith r labels tmm)
    {settings : Option Settings} {sep : Bool} {seed : Seed} {w w' : World σ} {x : Run K × Option Settings}
    (h : bootstrapResampleRun A R r settings none sep seed w = (.ok x, w')) :
    w'.rng = stateAfter R tmm.length (separately settings sep) seed w.rng := by
  unfold bootstrapResampleRun at h
  rw [M.bind_ok (x := M.getState) (a := w.rng) (w' := w) rfl, M.bind_ok (seed_apply R seed w),
    M.bind_ok (x := threadsOr r none) (getRunThreads_ok hv ⟨seeded R seed w.rng, w.warns⟩)] at h
  obtain ⟨inds, w1, h1, h⟩ := M.bind_eq_ok.mp h
  obtain ⟨ts, w2, h2, h⟩ := M.bind_eq_ok.mp h
  obtain ⟨run, w3, h3, h⟩ := M.bind_eq_ok.mp h
  obtain ⟨_, w4, h4, h⟩ := M.bind_eq_ok.mp h
  rw [hv.tmm_eq, List.length_map, List.length_range] at h1
  have e1 := bootstrapInds_state h1
  have e3 := combineThreads_state h3
  simp only [M.lift_apply, M.pure_apply, Prod.mk.injEq] at h2 h
  have e2 := h2.2
  rw [← h.2]
  cases seed with
  | keep =>
    simp only [restoreState, M.pure_apply, Prod.mk.injEq] at h4
    rw [← h4.2, e3, ← e2, e1]
    rfl
  | os e =>
    simp only [restoreState, M.setState_apply, Prod.mk.injEq] at h4
    rw [← h4.2]
    rfl
  | num n =>
    simp only [restoreState, M.setState_apply, Prod.mk.injEq] at h4
    rw [← h4.2]
    rfl

end

noncomputable section

theorem callEach_get {r : Run ℝ} {lw : List ℝ} {fs : List (EstFunc σ)} (hf : ∀ f ∈ fs, Deterministic f) {w w' : World σ} {vs : List (Option ℝ)}
    (h : callEach r lw fs w = (.ok vs, w')) {i : Nat} {f : EstFunc σ} (hi : fs[i]? = some f) :
    ∃ v, vs[i]? = some v ∧ (f r (some lw) false w).1 = .ok v := by
  induction fs generalizing i vs w w' with
  | nil => simp at hi
  | cons g fs ih =>
    rw [callEach] at h
    obtain ⟨v, w1, h1, h⟩ := M.bind_eq_ok.mp h
    obtain ⟨us, w2, h2, h⟩ := M.bind_eq_ok.mp h
    simp only [M.pure_apply, Prod.mk.injEq, Except.ok.injEq] at h
    rw [← h.1]
    cases i with
    | zero =>
      simp only [List.getElem?_cons_zero, Option.some.injEq] at hi
      subst hi
      exact ⟨v, rfl, by rw [h1]⟩
    | succ i =>
      simp only [List.getElem?_cons_succ] at hi ⊢
      obtain ⟨u, hu1, hu2⟩ := ih (fun f hf' => hf f (by simp [hf'])) h2 hi
      refine ⟨u, hu1, ?_⟩
      obtain ⟨y, hy⟩ := hf f (by simp [List.mem_of_getElem? hi]) r lw
      rw [hy] at hu2 ⊢
      exact hu2

/-- The value of `logz` among those of `run_estimators`. -/
theorem runEstimators_logz {A : Argsort ℝ} {R : Rng σ ℝ} {r : Run ℝ} {fs : List (EstFunc σ)} (hf : ∀ f ∈ fs, Deterministic f) {i : Nat}
    (hi : fs[i]? = some (Estimator.logz.call A R)) {z : ℝ} (hz : ∀ w : World σ, logz R r none false w = (.ok z, w)) {w w' : World σ}
    {vs : List (Option ℝ)} (h : runEstimators R r fs false w = (.ok vs, w')) : vs[i]? = some (some z) := by
  unfold runEstimators at h
  obtain ⟨lw, w1, h1, h⟩ := M.bind_eq_ok.mp h
  obtain ⟨v, hv1, hv2⟩ := callEach_get hf h hi
  rw [hv1]
  have h2 := hz w
  unfold logz logwOr at h2
  dsimp only at h2
  rw [M.bind_ok h1] at h2
  rw [M.lift_apply, Prod.mk.injEq] at h2
  have h3 : Estimator.logz.call A R r (some lw) false w1 = (.ok (some z), w1) := by
    show (logz R r (some lw) false >>= fun x => pure (some x)) w1 = _
    rw [M.bind_ok (a := z) (w' := w1)]
    · rfl
    · show M.lift (logsumexp lw) w1 = _
      rw [M.lift_apply, h2.1]
  rw [h3] at hv2
  cases hv2
  rfl

theorem runEstimators_single {A : Argsort ℝ} {R : Rng σ ℝ} {r : Run ℝ} {z : ℝ} (hz : ∀ w : World σ, logz R r none false w = (.ok z, w)) (w : World σ) :
    ∃ vs w', runEstimators R r [Estimator.logz.call A R] false w = (.ok vs, w') := by
  have := hz w
  unfold logz logwOr at this
  obtain ⟨lw, w2, e5, e6⟩ := M.bind_eq_ok.mp this
  unfold runEstimators
  rw [M.bind_ok e5, callEach, callEach]
  rw [M.lift_apply, Prod.mk.injEq] at e6
  rw [M.bind_ok (a := some _) (w' := w2)]
  · exact ⟨_, _, rfl⟩
  · show (logz R r (some lw) false >>= fun x => pure (some x)) w2 = _
    rw [M.bind_ok (w' := w2)]
    · rfl
    · show M.lift (logsumexp lw) w2 = _
      rw [M.lift_apply, e6.1]

/-- The rows of `run_bootstrap_values` for `logz`. -/
theorem bootstrapColumns_logz {A B : Argsort ℝ} {R : Rng σ ℝ} {r : Run ℝ} {settings : Option Settings} {ts : List (Run ℝ)} {sep : Bool} {n : Nat}
    {z : List Nat → ℝ} (hboot : ∀ (seed : Seed) (w : World σ), ∃ (run : Run ℝ) (w' : World σ),
      bootstrapResampleRun B R r settings (some ts) sep seed w = (.ok (run, settings), w') ∧
      w'.rng = stateAfter R n (separately settings sep) seed w.rng ∧
      ∀ w'' : World σ, logz R run none false w'' = (.ok (z (indexes R n (separately settings sep) (seeded R seed w.rng))), w''))
    {fs : List (EstFunc σ)} (hf : ∀ f ∈ fs, Deterministic f) {i : Nat} (hi : fs[i]? = some (Estimator.logz.call A R)) :
    ∀ (seeds : List Seed) (w w' : World σ) (cols : List (List (Option ℝ))),
      bootstrapColumns B R r settings ts sep fs seeds w = (.ok cols, w') →
      cols.map (fun c => (c[i]?).join) =
        (drawStates R n (separately settings sep) seeds w.rng).map (fun s => some (z (indexes R n (separately settings sep) s)))
  | [], w, w', cols, h => by
    simp only [bootstrapColumns, M.pure_apply, Prod.mk.injEq, Except.ok.injEq] at h
    rw [← h.1]
    rfl
  | seed :: seeds, w, w', cols, h => by
    rw [bootstrapColumns] at h
    obtain ⟨run, w1, h1, h2, h3⟩ := hboot seed w
    rw [M.bind_ok h1] at h
    obtain ⟨col, w2, h4, h⟩ := M.bind_eq_ok.mp h
    obtain ⟨cols', w3, h5, h⟩ := M.bind_eq_ok.mp h
    simp only [M.pure_apply, Prod.mk.injEq, Except.ok.injEq] at h
    have h6 : w2 = w1 := by
      obtain ⟨y, hy⟩ := runEstimators_fixed R hf run
      rw [hy, Prod.mk.injEq] at h4
      exact h4.2.symm
    have ih := bootstrapColumns_logz hboot hf hi seeds w2 w3 cols' h5
    rw [← h.1, List.map_cons, ih, drawStates, List.map_cons, runEstimators_logz hf hi h3 h4, h6, h2]
    rfl

/-! ### Values which are close to a number -/

theorem average_near {ys : List ℝ} {L ε : ℝ} (hne : ys ≠ []) (h : ∀ y ∈ ys, |y - L| ≤ ε) : |Spec.average ys - L| ≤ ε := by
  have hl : (0 : ℝ) < ys.length := by exact_mod_cast List.length_pos_iff.mpr hne
  have key : ∀ l : List ℝ, (∀ y ∈ l, |y - L| ≤ ε) → |l.sum - l.length * L| ≤ l.length * ε := by
    intro l
    induction l with
    | nil => simp
    | cons a l ih =>
      intro hl
      have h1 := ih fun y hy => hl y (by simp [hy])
      have h2 := hl a (by simp)
      rw [abs_le] at h1 h2 ⊢
      simp only [List.sum_cons, List.length_cons]
      push_cast
      constructor <;> linarith [h1.1, h1.2, h2.1, h2.2]
  have h1 := key ys h
  have h2 : Spec.average ys - L = (ys.sum - ys.length * L) / ys.length := by unfold Spec.average; field_simp
  rw [h2, abs_div, abs_of_pos hl, div_le_iff₀ hl]
  linarith

theorem stdev_near {ys : List ℝ} {L ε : ℝ} (hε : 0 ≤ ε) (h2 : 2 ≤ ys.length) (h : ∀ y ∈ ys, |y - L| ≤ ε) : stdev ys ≤ 3 * ε := by
  have hne : ys ≠ [] := by
    rintro rfl
    simp at h2
  have hav := average_near hne h
  have hl : (2 : ℝ) ≤ ys.length := by exact_mod_cast h2
  unfold stdev
  rw [Real.sqrt_le_left (by positivity)]
  have hsum : (ys.map (fun y => (y - Spec.average ys) ^ 2)).sum ≤ ys.length * (2 * ε) ^ 2 := by
    have := List.sum_le_card_nsmul (ys.map (fun y => (y - Spec.average ys) ^ 2)) ((2 * ε) ^ 2) (by
      intro x hx
      obtain ⟨y, hy, rfl⟩ := List.mem_map.mp hx
      have h3 := h y hy
      rw [abs_le] at h3 hav
      apply sq_le_sq'
      · linarith [h3.1, hav.2]
      · linarith [h3.2, hav.1])
    rwa [List.length_map, nsmul_eq_mul] at this
  rw [div_le_iff₀ (by linarith)]
  nlinarith [sq_nonneg ε]

theorem quantile_near {ys : List ℝ} {c q L ε : ℝ} (hne : ys ≠ []) (hq : IsQuantile ys c q) (h : ∀ y ∈ ys, |y - L| ≤ ε) : |q - L| ≤ ε := by
  obtain ⟨s, hp, -, h1, h2, h3⟩ := hq
  have hs : ∀ y ∈ s, |y - L| ≤ ε := fun y hy => h y (hp.mem_iff.mp hy)
  have hlen : 0 < s.length := by
    rw [hp.length_eq]
    exact List.length_pos_iff.mpr hne
  by_cases hc0 : c * s.length ≤ 1 / 2
  · rw [h1 _ (List.getElem?_eq_getElem hlen) hc0]
    exact hs _ (List.getElem_mem _)
  · push Not at hc0
    by_cases hcl : ((s.length - 1 : Nat) : ℝ) + 1 / 2 ≤ c * s.length
    · rw [h3 (s.length - 1) _ (List.getElem?_eq_getElem (by omega)) (by omega) hcl]
      exact hs _ (List.getElem_mem _)
    · push Not at hcl
      set x := c * s.length - 1 / 2 with hx
      have hx0 : 0 < x := by linarith
      have hk1 := Nat.floor_le hx0.le
      have hk2 := Nat.lt_floor_add_one x
      have hk3 : ⌊x⌋₊ < s.length - 1 := by
        have : (⌊x⌋₊ : ℝ) < ((s.length - 1 : Nat) : ℝ) := by linarith
        exact_mod_cast this
      have hka : ⌊x⌋₊ < s.length := by omega
      have hkb : ⌊x⌋₊ + 1 < s.length := by omega
      have := h2 ⌊x⌋₊ _ _ (List.getElem?_eq_getElem hka) (List.getElem?_eq_getElem hkb) (by linarith) (by linarith)
      have ha := hs _ (List.getElem_mem hka)
      have hb := hs _ (List.getElem_mem hkb)
      generalize s[⌊x⌋₊] = a at *
      generalize s[⌊x⌋₊ + 1] = b at *
      have ht : c * s.length - ((⌊x⌋₊ : ℝ) + 1 / 2) ∈ Set.Icc (0 : ℝ) 1 := ⟨by linarith, by linarith⟩
      generalize c * s.length - ((⌊x⌋₊ : ℝ) + 1 / 2) = t at *
      rw [this]
      rw [abs_le] at ha hb ⊢
      constructor <;> nlinarith [ha.1, ha.2, hb.1, hb.2, ht.1, ht.2]

/-! ### Runs of ideal samplers -/

/-- The indexes of the threads of successive replications. -/
def Spec.replicaIndexes (R : Rng σ ℝ) (n : Nat) (sep : Option Nat) (seeds : List Seed) (s : σ) : List (List Nat) :=
  (drawStates R n sep seeds s).map (indexes R n sep)

theorem runBootstrapValues_flip {B : Argsort ℝ} {R : Rng σ ℝ} {r : Run ℝ} {settings : Option Settings} {fs : List (EstFunc σ)} {n : Nat}
    {sep flip : Bool} {seeds : Option (List Seed)} {w w' : World σ} {vals : List (List (Option ℝ))}
    (h : runBootstrapValues B R r settings fs n sep flip seeds w = (.ok vals, w')) :
    ∃ vals0, runBootstrapValues B R r settings fs n sep false seeds w = (.ok vals0, w') ∧ vals = if flip then vals0.map flipRow else vals0 := by
  cases flip with
  | false => exact ⟨vals, h, rfl⟩
  | true =>
    have key : runBootstrapValues B R r settings fs n sep true seeds =
        (runBootstrapValues B R r settings fs n sep false seeds >>= fun vals => pure (vals.map flipRow)) := by
      simp [runBootstrapValues]
    rw [key] at h
    obtain ⟨vals0, w1, h1, h⟩ := M.bind_eq_ok.mp h
    simp only [M.pure_apply, Prod.mk.injEq, Except.ok.injEq] at h
    rw [← h.2, ← h.1]
    exact ⟨vals0, h1, rfl⟩

section
variable {N : Nat} {rule : Rule N} {start : Finset (Fin N)} {u : Fin N → ℝ} {loglike : ℝ → ℝ} {init : ℝ}

/-- The values of `logz` of the replications. -/
theorem Drawable.rows {R : Rng σ ℝ} (h : Drawable rule start u) (hs : StaticSchedule rule start) (hanti : StrictAntiOn loglike (Set.Ioo 0 1))
    {live : List (Sample ℝ)} {its : List (Iteration ℝ)} (hex : AdaptiveExecution loglike rule start u init live its)
    {samples : List (Sample ℝ)} (hperm : samples.Perm (its.map (·.dead))) (hdim : SameDim (samples.map (·.theta)))
    {b : ℝ} (hb : ∀ x ∈ Set.Ioo (0 : ℝ) 1, loglike x ≤ b) {f : ℝ → ℝ} (hf : ∀ x ∈ Set.Ioo (0 : ℝ) 1, f x = loglike x)
    {settings : Option Settings} {sep : Bool} (hsep : ∀ k, separately settings sep = some k → k ≤ start.card) (A B : Argsort ℝ) (da dw : Bool)
    (w0 : World σ) :
    ∃ r : Run ℝ, (∀ w : World σ, processSamples A R samples da dw w = (.ok r, w)) ∧
      (∀ w : World σ, logz R r none false w = (.ok (Real.log (original f start.card b (removals rule start u))), w)) ∧
      ∀ (n : Nat) (seeds : List Seed) (w : World σ), seeds.length = n →
        (∀ A' : Argsort ℝ, ∃ vals w', runBootstrapValues B R r settings [Estimator.logz.call A' R] n sep false (some seeds) w = (.ok vals, w')) ∧
        ∀ (fs : List (EstFunc σ)), (∀ f ∈ fs, Deterministic f) → ∀ (A' : Argsort ℝ) (i : Nat), fs[i]? = some (Estimator.logz.call A' R) →
          ∀ vals w', runBootstrapValues B R r settings fs n sep false (some seeds) w = (.ok vals, w') →
            vals[i]? = some (((replicaIndexes R start.card (separately settings sep) seeds w.rng).map (fun D =>
              Real.log (replica start f start.card b (removals rule start u) (fun j => D.getD j 0)))).map some) := by
  obtain ⟨r, r1, r2, r3⟩ := h.values (R := R) hs hanti hex hperm hdim hb hf hsep A da dw
  obtain ⟨r', labels, tmm, d, g1, -, g3, g4, -⟩ := constantLive (R := R) hs h.unit hanti hex hperm hdim A da dw
  have hrr : r' = r := by
    have := (g1 w0).symm.trans (r1 w0)
    simpa using this
  subst hrr
  have hv := g3.toValidWith
  obtain ⟨ts, hts⟩ : ∃ ts, ∀ w : World σ, getRunThreads r' w = (.ok ts, w) := ⟨_, fun w => getRunThreads_ok hv w⟩
  have hboot : ∀ (seed : Seed) (w : World σ), ∃ (run : Run ℝ) (w' : World σ),
      bootstrapResampleRun B R r' settings (some ts) sep seed w = (.ok (run, settings), w') ∧
      w'.rng = stateAfter R start.card (separately settings sep) seed w.rng ∧
      ∀ w'' : World σ, logz R run none false w'' = (.ok ((fun D : List Nat => Real.log (replica start f start.card b (removals rule start u)
        (fun j => D.getD j 0))) (indexes R start.card (separately settings sep) (seeded R seed w.rng))), w'') := by
    intro seed w
    obtain ⟨run, w', e1, e2⟩ := r3 B seed w
    refine ⟨run, w', by rw [C34_threads R hts]; exact e1, by rw [← g4]; exact bootstrap_state hv e1, fun w'' => (logz_of_evidence (e2 w'')).2⟩
  refine ⟨r', r1, fun w => (logz_of_evidence (r2 w)).2, fun n seeds w hlen => ⟨fun A' => ?_, fun fs hdet A' i hi vals w' hval => ?_⟩⟩
  · have hcols : ∀ (ss : List Seed) (w : World σ), ∃ cols w',
        bootstrapColumns B R r' settings ts sep [Estimator.logz.call A' R] ss w = (.ok cols, w') := by
      intro ss
      induction ss with
      | nil => exact fun w => ⟨[], w, rfl⟩
      | cons s ss ih =>
        intro w
        obtain ⟨run, w1, e1, -, e3⟩ := hboot s w
        obtain ⟨vs, w2, e4⟩ := runEstimators_single (A := A') e3 w1
        obtain ⟨cols, w3, e7⟩ := ih w2
        exact ⟨_, _, by rw [bootstrapColumns, M.bind_ok e1, M.bind_ok e4, M.bind_ok e7]; rfl⟩
    obtain ⟨cols, w', hc⟩ := hcols seeds w
    unfold runBootstrapValues
    dsimp only
    rw [Option.getD_some, M.bind_ok (a := ()) (w' := w) (by rw [hlen]; simp [M.assert]), M.bind_ok (hts w), M.bind_ok hc]
    exact ⟨_, _, rfl⟩
  · unfold runBootstrapValues at hval
    dsimp only at hval
    rw [Option.getD_some, M.bind_ok (a := ()) (w' := w) (by rw [hlen]; simp [M.assert]), M.bind_ok (hts w)] at hval
    obtain ⟨cols, w1, e1, hval⟩ := M.bind_eq_ok.mp hval
    simp only [M.pure_apply, Prod.mk.injEq, Except.ok.injEq, Bool.false_eq_true, if_false] at hval
    have key := bootstrapColumns_logz (n := start.card) (z := fun D : List Nat => Real.log (replica start f start.card b (removals rule start u)
        (fun j => D.getD j 0))) hboot hdet hi seeds w w1 cols e1
    rw [← hval.1]
    unfold fromColumns
    rw [List.getElem?_map, List.getElem?_range (List.getElem?_eq_some_iff.mp hi).1, Option.map_some, key, replicaIndexes, List.map_map,
      List.map_map]
    rfl

end

attribute [local irreducible] replica original

section
variable {Ω : ℕ → Type} [∀ k, MeasurableSpace (Ω k)] {P : ∀ k, Measure (Ω k)} {N : ℕ → Nat} {rule : ∀ k, Rule (N k)}
  {start : ∀ k, Finset (Fin (N k))} {draws : ∀ k, Ω k → List ℝ} {R : Rng σ ℝ} {settings : ℕ → Option Settings} {sep : ℕ → Bool}
  {w : ∀ k, Ω k → World σ} {seeds : ∀ k, Ω k → List Seed} {n : Nat}

/-- Finitely many events which become unlikely. -/
theorem tendsto_cover {B : ∀ k, Set (Ω k)} {E : Nat → ∀ k, Set (Ω k)} {m : Nat} (hE : ∀ j < m, Tendsto (fun k => P k (E j k)) atTop (𝓝 0))
    (hB : ∀ k, ∀ᵐ ω ∂P k, ω ∈ B k → ∃ j < m, ω ∈ E j k) : Tendsto (fun k => P k (B k)) atTop (𝓝 0) := by
  have h1 : Tendsto (fun k => ∑ j ∈ Finset.range m, P k (E j k)) atTop (𝓝 0) := by
    have := tendsto_finsetSum (Finset.range m) (fun j hj => hE j (Finset.mem_range.mp hj))
    simpa using this
  refine tendsto_of_tendsto_of_tendsto_of_le_of_le tendsto_const_nhds h1 (fun k => zero_le) fun k => ?_
  refine le_trans ?_ (measure_biUnion_finset_le (Finset.range m) (fun j => E j k))
  refine measure_mono_ae ?_
  filter_upwards [hB k] with ω h2 h3
  obtain ⟨j, hj, h4⟩ := h2 h3
  exact Set.mem_biUnion (Finset.mem_coe.mpr (Finset.mem_range.mpr hj)) h4

/-- C103.  As the number of live points grows, all values of `logz` which `run_bootstrap_values` returns for the run of an ideal sampler with
a constant number of live points converge in probability to the logarithm of the evidence, and so does `logz` of the run. -/
theorem C103_values (hs : ∀ k, StaticSchedule (rule k) (start k)) (hu : ∀ k, IidUniform (P k) (N k) (draws k))
    (hn : Tendsto (fun k => (start k).card) atTop atTop)
    {loglike : ℝ → ℝ} (hanti : StrictAntiOn loglike (Set.Ioo 0 1)) {init : ℝ} (hinit : ∀ x ∈ Set.Ioo (0 : ℝ) 1, init < loglike x)
    {b : ℝ} (hb : ∀ x ∈ Set.Ioo (0 : ℝ) 1, loglike x ≤ b)
    (hsep : ∀ k m, separately (settings k) (sep k) = some m → m ≤ (start k).card) (hlen : ∀ k ω, (seeds k ω).length = n)
    (hd : ∀ k, ∀ j < n, IndependentDraws (P k) (start k).card (separately (settings k) (sep k)) (fun ω =>
      (replicaIndexes R (start k).card (separately (settings k) (sep k)) (seeds k ω) (w k ω).rng).getD j []))
    (hind : ∀ k, ∀ j < n, IndepFun (fun ω (i : Fin (N k)) => (draws k ω).getD i 0) (fun ω (i : Fin (start k).card) =>
      ((replicaIndexes R (start k).card (separately (settings k) (sep k)) (seeds k ω) (w k ω).rng).getD j []).getD i 0) (P k))
    {δ : ℝ} (hδ : 0 < δ) :
    Tendsto (fun k => P k {ω | ∃ live its samples, AdaptiveExecution loglike (rule k) (start k) (fun i => (draws k ω).getD i 0) init live its ∧
      samples.Perm (its.map (·.dead)) ∧ SameDim (samples.map (·.theta)) ∧ ∃ (A B : Argsort ℝ) (da dw : Bool) (w' : World σ),
        ¬ ∃ (r : Run ℝ) (z : ℝ), processSamples A R samples da dw w' = (.ok r, w') ∧
          (∀ w'' : World σ, logz R r none false w'' = (.ok z, w'')) ∧
          |z - Real.log (∫ x in (0 : ℝ)..1, Real.exp (loglike x))| < δ ∧
          (∀ A' : Argsort ℝ, ∃ vals w'', runBootstrapValues B R r (settings k) [Estimator.logz.call A' R] n (sep k) false (some (seeds k ω)) (w k ω) =
            (.ok vals, w'')) ∧
          ∀ (fs : List (EstFunc σ)), (∀ f ∈ fs, Deterministic f) → ∀ (A' : Argsort ℝ) (i : Nat), fs[i]? = some (Estimator.logz.call A' R) →
            ∀ vals w'', runBootstrapValues B R r (settings k) fs n (sep k) false (some (seeds k ω)) (w k ω) = (.ok vals, w'') →
              ∃ ys : List ℝ, vals[i]? = some (ys.map some) ∧ ys.length = n ∧
                ∀ y ∈ ys, |y - Real.log (∫ x in (0 : ℝ)..1, Real.exp (loglike x))| < δ}) atTop (𝓝 0) := by
  obtain ⟨g, hganti, hM, hin⟩ := exists_extension hanti hb
  have hlim := C95_integral (fun k => (hs k).toStoppingSchedule) hu hn hM hganti.measurable (antitone_continuous_ae hganti)
  rw [integral_extension hin] at hlim
  simp only [weighted_def] at hlim
  set f : ℝ → ℝ := fun x => Real.log (g x) with hfdef
  have hf : ∀ x ∈ Set.Ioo (0 : ℝ) 1, f x = loglike x := fun x hx => by rw [hfdef]; simp only; rw [hin x hx, Real.log_exp]
  have hfm : Measurable f := Real.measurable_log.comp hganti.measurable
  have hrep := fun k => replica_measurable (start := start k) (hs k).measurable hfm (start k).card b
  have horig := fun k => original_measurable (start := start k) (hs k).measurable hfm (start k).card b
  let D : Nat → ∀ k, Ω k → List Nat := fun j k ω =>
    (replicaIndexes R (start k).card (separately (settings k) (sep k)) (seeds k ω) (w k ω).rng).getD j []
  let est : Nat → ∀ k, Ω k → ℝ := fun j k ω => replica (start k) f (start k).card b (removals (rule k) (start k) (fun i => (draws k ω).getD i 0))
    (fun i => (D j k ω).getD i 0)
  let base : ∀ k, Ω k → ℝ := fun k ω => original f (start k).card b (removals (rule k) (start k) (fun i => (draws k ω).getD i 0))
  have hm : ∀ j < n, ∀ k, AEMeasurable (fun ω => ((fun i : Fin (N k) => (draws k ω).getD i 0), (fun i : Fin (start k).card => (D j k ω).getD i 0)))
    (P k) := fun j hj k => (hu k).aemeasurable.prodMk ((hd k j hj).aemeasurable (hsep k))
  have hdv0 := replica_deviation_tendsto hs hn hanti hinit hb hf hsep
  have hsum := hdv0.add hlim
  rw [add_zero] at hsum
  have hpos := evidence_pos hanti hb
  have hest : ∀ j < n, Tendsto (fun k => P k {ω | ¬ |Real.log (est j k ω) - Real.log (∫ x in (0 : ℝ)..1, Real.exp (loglike x))| < δ}) atTop (𝓝 0) := by
    intro j hj
    refine log_in_probability (fun k => (hrep k).comp_aemeasurable (hm j hj k)) hpos ?_ hδ (fun k => Eventually.of_forall fun ω h1 h2 => h2 h1)
    refine tendsto_of_tendsto_of_tendsto_of_le_of_le tendsto_const_nhds hsum (fun k => zero_le) fun k => ?_
    exact replica_error (hs k) (hu k) (hsep k) (hd k j hj) (hind k j hj) hanti hinit hb hf hin hfm _
  have hbase : Tendsto (fun k => P k {ω | ¬ |Real.log (base k ω) - Real.log (∫ x in (0 : ℝ)..1, Real.exp (loglike x))| < δ}) atTop (𝓝 0) := by
    refine log_in_probability (fun k => (horig k).comp_aemeasurable (hu k).aemeasurable) hpos ?_ hδ
      (fun k => Eventually.of_forall fun ω h1 h2 => h2 h1)
    refine hlim.congr fun k => lintegral_congr_ae ?_
    filter_upwards [(hu k).vector_ae (drawable_ae (hs k).toStoppingSchedule)] with ω hω
    obtain ⟨-, -, -, -, h5, -⟩ := hω.facts (hs k) hanti hinit hb hf hin
    rw [← h5]
    rfl
  refine tendsto_cover (m := n + 1) (E := fun j k => if j < n then
      {ω | ¬ |Real.log (est j k ω) - Real.log (∫ x in (0 : ℝ)..1, Real.exp (loglike x))| < δ} else
      {ω | ¬ |Real.log (base k ω) - Real.log (∫ x in (0 : ℝ)..1, Real.exp (loglike x))| < δ}) (fun j _ => ?_) fun k => ?_
  · by_cases hj : j < n
    · simpa only [hj, if_true] using hest j hj
    · simpa only [hj, if_false] using hbase
  · filter_upwards [(hu k).vector_ae (drawable_ae (hs k).toStoppingSchedule)] with ω hω
    rintro ⟨live, its, samples, hex, hsam, hdim, A, B, da, dw, w', hbad⟩
    by_contra hno
    push Not at hno
    have hno1 : ∀ j < n, |Real.log (est j k ω) - Real.log (∫ x in (0 : ℝ)..1, Real.exp (loglike x))| < δ := by
      intro j hj
      have := hno j (by omega)
      simp only [hj, if_true, Set.mem_ofPred_eq] at this
      exact not_le.mp this
    have hno2 : |Real.log (base k ω) - Real.log (∫ x in (0 : ℝ)..1, Real.exp (loglike x))| < δ := by
      have := hno n (by omega)
      simp only [lt_irrefl, if_false, Set.mem_ofPred_eq] at this
      exact not_le.mp this
    obtain ⟨r, e1, e2, e3⟩ := hω.rows (R := R) (hs k) hanti hex hsam hdim hb hf (hsep k) A B da dw w'
    obtain ⟨e4, e5⟩ := e3 n (seeds k ω) (w k ω) (hlen k ω)
    refine hbad ⟨r, _, e1 w', e2, hno2, e4, fun fs hdet A' i hi vals w'' hval => ⟨_, e5 fs hdet A' i hi vals w'' hval, ?_, ?_⟩⟩
    · rw [List.length_map, replicaIndexes, List.length_map, length_drawStates, hlen]
    · intro y hy
      obtain ⟨d, hd', rfl⟩ := List.mem_map.mp hy
      obtain ⟨j, hj, rfl⟩ := List.getElem_of_mem hd'
      have hjn : j < n := by
        rw [replicaIndexes, List.length_map, length_drawStates, hlen] at hj
        exact hj
      have := hno1 j hjn
      simp only [est, D] at this
      rw [List.getD_eq_getElem?_getD, List.getElem?_eq_getElem hj, Option.getD_some] at this
      exact this

/-- C103.  As the number of live points grows, the standard deviation which `run_std_bootstrap` returns for `logz` converges in probability
to zero. -/
theorem C103_std (hs : ∀ k, StaticSchedule (rule k) (start k)) (hu : ∀ k, IidUniform (P k) (N k) (draws k))
    (hn : Tendsto (fun k => (start k).card) atTop atTop)
    {loglike : ℝ → ℝ} (hanti : StrictAntiOn loglike (Set.Ioo 0 1)) {init : ℝ} (hinit : ∀ x ∈ Set.Ioo (0 : ℝ) 1, init < loglike x)
    {b : ℝ} (hb : ∀ x ∈ Set.Ioo (0 : ℝ) 1, loglike x ≤ b)
    (hsep : ∀ k m, separately (settings k) (sep k) = some m → m ≤ (start k).card) (hlen : ∀ k ω, (seeds k ω).length = n)
    (hd : ∀ k, ∀ j < n, IndependentDraws (P k) (start k).card (separately (settings k) (sep k)) (fun ω =>
      (replicaIndexes R (start k).card (separately (settings k) (sep k)) (seeds k ω) (w k ω).rng).getD j []))
    (hind : ∀ k, ∀ j < n, IndepFun (fun ω (i : Fin (N k)) => (draws k ω).getD i 0) (fun ω (i : Fin (start k).card) =>
      ((replicaIndexes R (start k).card (separately (settings k) (sep k)) (seeds k ω) (w k ω).rng).getD j []).getD i 0) (P k))
    {δ : ℝ} (hδ : 0 < δ) (h2 : 2 ≤ n) :
    Tendsto (fun k => P k {ω | ∃ live its samples, AdaptiveExecution loglike (rule k) (start k) (fun i => (draws k ω).getD i 0) init live its ∧
      samples.Perm (its.map (·.dead)) ∧ SameDim (samples.map (·.theta)) ∧ ∃ (A B : Argsort ℝ) (da dw : Bool) (w' : World σ),
        ¬ ∃ r : Run ℝ, processSamples A R samples da dw w' = (.ok r, w') ∧
          (∀ (A' : Argsort ℝ) (flip : Bool), ∃ stds w'',
            runStdBootstrap B R r (settings k) [Estimator.logz.call A' R] n (sep k) flip (some (seeds k ω)) (w k ω) = (.ok stds, w'')) ∧
          ∀ (fs : List (EstFunc σ)), (∀ f ∈ fs, Deterministic f) → ∀ (A' : Argsort ℝ) (i : Nat), fs[i]? = some (Estimator.logz.call A' R) →
            ∀ flip stds w'', runStdBootstrap B R r (settings k) fs n (sep k) flip (some (seeds k ω)) (w k ω) = (.ok stds, w'') →
              ∃ s : ℝ, stds[i]? = some (some s) ∧ 0 ≤ s ∧ s < δ}) atTop (𝓝 0) := by
  have key := C103_values hs hu hn hanti hinit hb hsep hlen hd hind (δ := δ / 4) (by linarith)
  refine tendsto_of_tendsto_of_tendsto_of_le_of_le tendsto_const_nhds key (fun k => zero_le) fun k => measure_mono ?_
  rintro ω ⟨live, its, samples, hex, hsam, hdim, A, B, da, dw, w', hbad⟩
  refine ⟨live, its, samples, hex, hsam, hdim, A, B, da, dw, w', ?_⟩
  rintro ⟨r, z, e1, -, -, e4, e5⟩
  refine hbad ⟨r, e1, fun A' flip => ?_, fun fs hdet A' i hi flip stds w'' hstd => ?_⟩
  · obtain ⟨vals, w'', hv⟩ := e4 A'
    refine ⟨(if flip then vals.map flipRow else vals).map npStd, w'', ?_⟩
    unfold runStdBootstrap
    cases flip with
    | false => rw [M.bind_ok hv]; rfl
    | true =>
      have key : runBootstrapValues B R r (settings k) [Estimator.logz.call A' R] n (sep k) true (some (seeds k ω)) =
          (runBootstrapValues B R r (settings k) [Estimator.logz.call A' R] n (sep k) false (some (seeds k ω)) >>= fun vals => pure (vals.map flipRow)) := by
        simp [runBootstrapValues]
      rw [key, M.bind_ok (a := vals.map flipRow) (w' := w'') (by rw [M.bind_ok hv]; rfl)]
      rfl
  · unfold runStdBootstrap at hstd
    obtain ⟨vals, w1, hv, hstd⟩ := M.bind_eq_ok.mp hstd
    simp only [M.pure_apply, Prod.mk.injEq, Except.ok.injEq] at hstd
    obtain ⟨vals0, hv0, hvals⟩ := runBootstrapValues_flip hv
    obtain ⟨ys, y1, y2, y3⟩ := e5 fs hdet A' i hi vals0 w1 hv0
    have hnear := stdev_near (ε := δ / 4) (by linarith) (by omega) (fun y hy => (y3 y hy).le)
    have hne : ys ≠ [] := by
      rintro rfl
      simp at y2
      omega
    refine ⟨stdev ys, ?_, stdev_nonneg ys, by linarith⟩
    rw [← hstd.1, hvals, List.getElem?_map]
    cases flip with
    | false =>
      simp only [Bool.false_eq_true, if_false]
      rw [y1, Option.map_some, npStd_some (by omega)]
    | true =>
      simp only [if_true]
      rw [List.getElem?_map, y1, Option.map_some, Option.map_some, flipRow_some hne, npStd_some (by rw [List.length_map]; omega), stdev_reflect]

/-- C103.  As the number of live points grows, the limits of the credible intervals of `run_ci_bootstrap` for `logz` converge in probability to
the logarithm of the evidence. -/
theorem C103_ci (hs : ∀ k, StaticSchedule (rule k) (start k)) (hu : ∀ k, IidUniform (P k) (N k) (draws k))
    (hn : Tendsto (fun k => (start k).card) atTop atTop)
    {loglike : ℝ → ℝ} (hanti : StrictAntiOn loglike (Set.Ioo 0 1)) {init : ℝ} (hinit : ∀ x ∈ Set.Ioo (0 : ℝ) 1, init < loglike x)
    {b : ℝ} (hb : ∀ x ∈ Set.Ioo (0 : ℝ) 1, loglike x ≤ b)
    (hsep : ∀ k m, separately (settings k) (sep k) = some m → m ≤ (start k).card) (hlen : ∀ k ω, (seeds k ω).length = n)
    (hd : ∀ k, ∀ j < n, IndependentDraws (P k) (start k).card (separately (settings k) (sep k)) (fun ω =>
      (replicaIndexes R (start k).card (separately (settings k) (sep k)) (seeds k ω) (w k ω).rng).getD j []))
    (hind : ∀ k, ∀ j < n, IndepFun (fun ω (i : Fin (N k)) => (draws k ω).getD i 0) (fun ω (i : Fin (start k).card) =>
      ((replicaIndexes R (start k).card (separately (settings k) (sep k)) (seeds k ω) (w k ω).rng).getD j []).getD i 0) (P k))
    {δ : ℝ} (hδ : 0 < δ) (h1 : 1 ≤ n) (c : ℝ) :
    Tendsto (fun k => P k {ω | ∃ live its samples, AdaptiveExecution loglike (rule k) (start k) (fun i => (draws k ω).getD i 0) init live its ∧
      samples.Perm (its.map (·.dead)) ∧ SameDim (samples.map (·.theta)) ∧ ∃ (A B : Argsort ℝ) (da dw : Bool) (w' : World σ),
        ¬ ∃ r : Run ℝ, processSamples A R samples da dw w' = (.ok r, w') ∧
          (∀ (A' : Argsort ℝ) (flip : Bool), ∃ out w'',
            runCiBootstrap B R r (settings k) [Estimator.logz.call A' R] c n (sep k) flip (some (seeds k ω)) (w k ω) = (.ok out, w'')) ∧
          ∀ (fs : List (EstFunc σ)), (∀ f ∈ fs, Deterministic f) → ∀ (A' : Argsort ℝ) (i : Nat), fs[i]? = some (Estimator.logz.call A' R) →
            ∀ flip out w'', runCiBootstrap B R r (settings k) fs c n (sep k) flip (some (seeds k ω)) (w k ω) = (.ok out, w'') →
              ∃ y : ℝ, out[i]? = some (some y) ∧ |y - Real.log (∫ x in (0 : ℝ)..1, Real.exp (loglike x))| < δ}) atTop (𝓝 0) := by
  have key := C103_values hs hu hn hanti hinit hb hsep hlen hd hind (δ := δ / 6) (by linarith)
  refine tendsto_of_tendsto_of_tendsto_of_le_of_le tendsto_const_nhds key (fun k => zero_le) fun k => measure_mono ?_
  rintro ω ⟨live, its, samples, hex, hsam, hdim, A, B, da, dw, w', hbad⟩
  refine ⟨live, its, samples, hex, hsam, hdim, A, B, da, dw, w', ?_⟩
  rintro ⟨r, z, e1, e2, e3, e4, e5⟩
  refine hbad ⟨r, e1, fun A' flip => ?_, fun fs hdet A' i hi flip out w'' hci => ?_⟩
  · obtain ⟨vals, w1, hv⟩ := e4 A'
    obtain ⟨ests, w2, he⟩ := runEstimators_single (A := A') e2 w1
    obtain ⟨out, ho, -⟩ := C39_formula B R (c := c) (by omega) hv he flip
    exact ⟨out, w2, ho⟩
  · have hci' := hci
    unfold runCiBootstrap at hci
    obtain ⟨vals, w1, hv, hci⟩ := M.bind_eq_ok.mp hci
    obtain ⟨ests, w2, he, hci⟩ := M.bind_eq_ok.mp hci
    obtain ⟨vals0, hv0, -⟩ := runBootstrapValues_flip hv
    obtain ⟨ys, y1, y2, y3⟩ := e5 fs hdet A' i hi vals0 w1 hv0
    have hz := runEstimators_logz hdet hi e2 he
    obtain ⟨out', o1, -, o2⟩ := C39_formula B R (c := c) (by omega) hv0 he flip
    have : out' = out := by
      have := o1.symm.trans hci'
      simp only [Prod.mk.injEq, Except.ok.injEq] at this
      exact this.1
    subst this
    obtain ⟨q, q1, q2⟩ := o2 i z ys hz y1
    have hne : ys ≠ [] := by
      rintro rfl
      simp at y2
      omega
    have y4 : ∀ y ∈ ys, |y - Real.log (∫ x in (0 : ℝ)..1, Real.exp (loglike x))| ≤ δ / 6 := fun y hy => (y3 y hy).le
    have hav := average_near hne y4
    cases flip with
    | false =>
      obtain ⟨q3, q4⟩ := q1 rfl
      have hq := quantile_near hne q3 y4
      refine ⟨_, q4, ?_⟩
      rw [abs_lt] at e3 ⊢
      rw [abs_le] at hq
      constructor <;> linarith [e3.1, e3.2, hq.1, hq.2]
    | true =>
      obtain ⟨q3, q4⟩ := q2 rfl
      have hq := quantile_near hne q3 y4
      refine ⟨_, q4, ?_⟩
      rw [abs_lt] at e3 ⊢
      rw [abs_le] at hq hav
      constructor <;> linarith [e3.1, e3.2, hq.1, hq.2, hav.1, hav.2]

end

end
end Nestcheck
