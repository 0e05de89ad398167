import Verif.Proofs.Bootstrap
import Verif.Proofs.CombineGeneral
import Verif.Proofs.RngIndep
import Verif.Model.Instances
import Mathlib.Tactic.IntervalCases

/-! C34-C37: bootstrap replications of runs. -/

set_option linter.unusedSectionVars false

namespace Nestcheck
open Spec
variable {σ K : Type} [CommRing K] [LinearOrder K] (R : Rng σ K)

/-- The random state from which the threads of a replication are drawn. -/
def Spec.seeded (seed : Seed) (s : σ) : σ :=
  match seed with
  | .keep => s
  | .os e => R.seedOS e
  | .num n => R.seed n

/-- `m` indexes from `lo` to `hi - 1` drawn in the random state `s`; nothing is drawn for `m = 0`. -/
def Spec.block (lo hi m : Nat) (s : σ) : List Nat × σ := if m = 0 then ([], s) else R.randint lo hi m s

/-- The `n` indexes drawn in the random state `s`: from all threads, or `k` from the first `k` threads and the rest
from the others. -/
def Spec.indexes (n : Nat) (sep : Option Nat) (s : σ) : List Nat :=
  match sep with
  | none => (block R 0 n n s).1
  | some k => (block R 0 k k s).1 ++ (block R k n (n - k) (block R 0 k k s).2).1

/-- Indexes of `n` threads drawn in the random state `s`: with replacement from all
threads, or `k` from the first `k` threads and the rest from the others. -/
structure Spec.Drawn (s : σ) (n : Nat) (sep : Option Nat) (inds : List Nat) : Prop where
  count : inds.length = n
  range : ∀ i ∈ inds, i < n
  first : ∀ k, sep = some k → k ≤ n ∧ (∀ i ∈ inds.take k, i < k) ∧ ∀ i ∈ inds.drop k, k ≤ i
  drawn : inds = indexes R n sep s

/-- How many threads are drawn separately: the `ninit` of the run's settings, if
`ninit_sep` is given. -/
def Spec.separately (settings : Option Settings) (ninitSep : Bool) : Option Nat :=
  if ninitSep then settings.bind (·.ninit) else none

/-- The samples of the threads with the given indexes. -/
def Spec.samplesOf (r : Run K) (labels : List Int) (inds : List Nat) : List (K × List K) :=
  inds.flatMap (fun k : Nat => (pick labels k r.logl).zip (pick labels k r.theta))

theorem npRandint_block {lo hi m : Nat} {w w' : World σ} {xs : List Nat}
    (h : npRandint R lo hi m w = (.ok xs, w')) :
    xs = (block R lo hi m w.rng).1 ∧ w'.rng = (block R lo hi m w.rng).2 := by
  unfold npRandint at h
  unfold block
  rw [if_neg (by omega)] at h
  by_cases hm : m = 0
  · subst hm
    simp only [Nat.cast_zero, if_true, M.pure_apply, Prod.mk.injEq, Except.ok.injEq] at h
    rw [← h.1, ← h.2]
    exact ⟨rfl, rfl⟩
  · rw [if_neg hm]
    rw [if_neg (by omega)] at h
    split_ifs at h
    · simp at h
    · simp only [M.draw_apply, Prod.mk.injEq, Except.ok.injEq, Int.toNat_natCast] at h
      rw [← h.1, ← h.2]
      exact ⟨rfl, rfl⟩

theorem bootstrapInds_inv {settings : Option Settings} {tmm : List (WithBot K × K)} {n : Nat}
    {sep : Bool} {w w' : World σ} {inds : List Nat}
    (h : bootstrapInds R (some tmm) settings n sep w = (.ok inds, w')) :
    Drawn R w.rng n (separately settings sep) inds := by
  have key : ∀ {w w' : World σ} {inds : List Nat}, npRandint R 0 n n w = (.ok inds, w') →
      Drawn R w.rng n none inds := by
    intro w w' inds h
    obtain ⟨h1, h2, -⟩ := npRandint_inv R h
    refine ⟨by omega, fun i hi => (h2 i hi).2, by simp, (npRandint_block R h).1⟩
  unfold bootstrapInds at h
  unfold separately
  cases sep with
  | false => exact key h
  | true =>
    simp only [if_true] at h ⊢
    cases hs : settings.bind (·.ninit) with
    | none =>
      rw [hs] at h
      simp only [M.bind_apply, M.warn_apply] at h
      exact key (w := ⟨w.rng, w.warns ++ [Warn.noNinit]⟩) h
    | some k =>
      rw [hs] at h
      change separateInds R (some tmm) n k w = _ at h
      unfold separateInds at h
      obtain ⟨_, w1, h1, h⟩ := M.bind_eq_ok.mp h
      have hw1 : w1 = w := by rw [M.assert_apply, Prod.mk.injEq] at h1; exact h1.2.symm
      rw [hw1] at h
      obtain ⟨xs, w2, h2, h⟩ := M.bind_eq_ok.mp h
      obtain ⟨ys, w3, h3, h⟩ := M.bind_eq_ok.mp h
      rw [M.pure_apply, Prod.mk.injEq, Except.ok.injEq] at h
      obtain ⟨a1, a2, -⟩ := npRandint_inv R h2
      obtain ⟨b1, b2, -⟩ := npRandint_inv R h3
      have hxl : xs.length = k := by omega
      have hkn : k ≤ n := by omega
      rw [← h.1]
      refine ⟨by rw [List.length_append]; omega, ?_, ?_, ?_⟩
      · intro i hi
        rcases List.mem_append.mp hi with hi | hi
        · have := (a2 i hi).2; omega
        · exact (b2 i hi).2
      · intro k' hk'
        cases hk'
        rw [← hxl, List.take_left, List.drop_left, hxl]
        exact ⟨hkn, fun i hi => (a2 i hi).2, fun i hi => (b2 i hi).1⟩
      · obtain ⟨d1, d2⟩ := npRandint_block R h2
        rw [show ((n : Int) - (k : Int)) = ((n - k : Nat) : Int) by omega] at h3
        obtain ⟨d3, -⟩ := npRandint_block R h3
        rw [d2] at d3
        rw [d1, d3]
        rfl

theorem selectThreads_inv {threads ts : List (Run K)} {inds : List Nat}
    (h : selectThreads threads inds = .ok ts) : ts = gather threads inds := by
  unfold selectThreads at h
  split at h
  · cases h; rfl
  · cases h

theorem flatMap_gather {α β : Type} (f : Nat → α) (g : α → List β) (n : Nat) {inds : List Nat}
    (h : ∀ i ∈ inds, i < n) :
    (gather ((List.range n).map f) inds).flatMap g = inds.flatMap (fun k => g (f k)) := by
  unfold gather
  induction inds with
  | nil => rfl
  | cons i is ih =>
    have hi : ((List.range n).map f)[i]? = some (f i) := by
      rw [List.getElem?_map, List.getElem?_range (h i (by simp))]; rfl
    rw [List.filterMap_cons, hi]
    simp only
    rw [List.flatMap_cons, List.flatMap_cons, ih (fun j hj => h j (by simp [hj]))]

theorem Spec.ValidWith.pos {r : Run K} {labels : List Int} {tmm : List (WithBot K × K)}
    (h : ValidWith r labels tmm) : 0 < tmm.length := by
  obtain ⟨p, hp, -⟩ := h.init
  exact List.length_pos_of_mem hp

/-- Passing the threads of a run explicitly makes no difference. -/
theorem C34_threads {A : Argsort K} {r : Run K} {ts : List (Run K)}
    (h : ∀ w : World σ, getRunThreads r w = (.ok ts, w)) (settings : Option Settings) (sep : Bool)
    (seed : Seed) : bootstrapResampleRun A R r settings (some ts) sep seed =
      bootstrapResampleRun A R r settings none sep seed := by
  have : (getRunThreads r : M σ (List (Run K))) = pure ts := by
    funext w; rw [h]; rfl
  have h2 : (threadsOr r (some ts) : M σ (List (Run K))) = threadsOr r none := this.symm
  unfold bootstrapResampleRun
  rw [h2]

theorem seed_apply (seed : Seed) (w : World σ) :
    seedWith R seed w = (.ok (), ⟨seeded R seed w.rng, w.warns⟩) := by
  cases seed <;> rfl

/-- C34.  When `bootstrap_resample_run` of a valid run returns, the new run has the
settings of the old one and consists of exactly the samples of `n_threads` threads
drawn from it (with `ninit_sep`: `ninit` from the first `ninit` threads and the rest
from the others), in ascending order, with positive live counts ending in 1. -/
theorem C34_bootstrap {A : Argsort K} {r : Run K} {labels : List Int} {tmm : List (WithBot K × K)}
    (h : ValidWith r labels tmm) {settings : Option Settings} {sep : Bool} {seed : Seed}
    {w w' : World σ} {run : Run K} {st : Option Settings}
    (hb : bootstrapResampleRun A R r settings none sep seed w = (.ok (run, st), w')) :
    st = settings ∧ ∃ inds, Drawn R (seeded R seed w.rng) tmm.length (separately settings sep) inds ∧
      (run.logl.zip run.theta).Perm (samplesOf r labels inds) ∧
      run.logl.Pairwise (· ≤ ·) ∧ run.theta.length = run.logl.length ∧
      run.nlive.length = run.logl.length ∧ (∀ n ∈ run.nlive, 0 < n) ∧ run.nlive.getLast? = some 1 ∧
      ThreadsUsable run := by
  unfold bootstrapResampleRun at hb
  obtain ⟨s0, w0, h0, hb⟩ := M.bind_eq_ok.mp hb
  obtain ⟨_, w1, h1, hb⟩ := M.bind_eq_ok.mp hb
  obtain ⟨ts, w2, h2, hb⟩ := M.bind_eq_ok.mp hb
  obtain ⟨inds, w3, h3, hb⟩ := M.bind_eq_ok.mp hb
  obtain ⟨tmp, w4, h4, hb⟩ := M.bind_eq_ok.mp hb
  obtain ⟨run', w5, h5, hb⟩ := M.bind_eq_ok.mp hb
  obtain ⟨_, w6, h6, hb⟩ := M.bind_eq_ok.mp hb
  simp only [M.pure_apply, Prod.mk.injEq, Except.ok.injEq] at hb
  rw [M.getState_apply, Prod.mk.injEq] at h0
  rw [← h0.2] at h1
  have h1' := (seed_apply R seed w).symm.trans h1
  rw [Prod.mk.injEq] at h1'
  rw [← h1'.2, threadsOr, getRunThreads_ok h, Prod.mk.injEq, Except.ok.injEq] at h2
  obtain ⟨hts, hw2⟩ := h2
  rw [← hw2, h.tmm_eq] at h3
  have hlen : ts.length = tmm.length := by rw [← hts]; simp
  rw [hlen] at h3
  have hd := bootstrapInds_inv R h3
  rw [M.lift_apply, Prod.mk.injEq] at h4
  have hsel := selectThreads_inv h4.1
  obtain ⟨c1, c2⟩ := combineThreads_inv R h5
  rw [← hb.1.1]
  refine ⟨hb.1.2.symm, inds, hd, ?_, c2⟩
  rw [hsel, ← hts, flatMap_gather _ _ _ hd.range] at c1
  exact c1

/-! ### C35: random state -/

theorem rngRestored_threads (r : Run K) : RngRestored (getRunThreads r : M σ (List (Run K))) := by
  have hloop : ∀ (labs : List Int) (rows : List (Row K)) (tmm : List (WithBot K × K)) (i : Nat),
      RngRestored (getThreadsLoop rows tmm i labs : M σ (List (Run K))) := by
    intro labs rows tmm
    induction labs with
    | nil => intro i; exact .pure _
    | cons l ls ih =>
      intro i
      refine .bind ?_ fun t => .bind (ih _) fun ts => .pure _
      unfold getThread
      dsimp only
      split
      · exact .bind (.assert _) fun _ => rngRestored_dict _ _
      · exact .raise _
  unfold getRunThreads
  refine .bind (.lift _) fun rows => ?_
  split
  · exact .bind (.assert _) fun _ => hloop _ _ _ _
  · exact .raise _

theorem rngIndependent_threads (r : Run K) : RngIndependent (getRunThreads r : M σ (List (Run K))) := by
  have hloop : ∀ (labs : List Int) (rows : List (Row K)) (tmm : List (WithBot K × K)) (i : Nat),
      RngIndependent (getThreadsLoop rows tmm i labs : M σ (List (Run K))) := by
    intro labs rows tmm
    induction labs with
    | nil => intro i; exact .pure _
    | cons l ls ih =>
      intro i
      refine .bind ?_ fun t => .bind (ih _) fun ts => .pure _
      unfold getThread
      dsimp only
      split
      · exact .bind (.assert _) fun _ => rngIndependent_dict _ _
      · exact .raise _
  unfold getRunThreads
  refine .bind (.lift _) fun rows => ?_
  split
  · exact .bind (.assert _) fun _ => hloop _ _ _ _
  · exact .raise _

theorem Spec.RngIndependent.scoped {α β : Type} {x : M σ α} {f : α → M σ β} (s0 : σ)
    (hf : ∀ a, RngIndependent (f a)) :
    RngIndependent (M.getState >>= fun st => M.setState s0 >>= fun _ => x >>= fun a =>
      M.setState st >>= fun _ => f a) := by
  intro s s' ws
  simp only [M.bind_apply, M.getState_apply, M.setState_apply]
  rcases x ⟨s0, ws⟩ with ⟨x1, s1, ws1⟩
  cases x1 with
  | error e => exact ⟨rfl, rfl⟩
  | ok a => exact hf a s s' ws1

theorem Spec.RngRestored.scoped {α β : Type} {x : M σ α} {f : α → M σ β} (s0 : σ)
    (hf : ∀ a, RngRestored (f a)) :
    RngRestored (M.getState >>= fun st => M.setState s0 >>= fun _ => x >>= fun a =>
      M.setState st >>= fun _ => f a) := by
  intro w b w' h
  simp only [M.bind_apply, M.getState_apply, M.setState_apply] at h
  rcases hx : x ⟨s0, w.warns⟩ with ⟨x1, s1, ws1⟩
  rw [hx] at h
  cases x1 with
  | error e => simp at h
  | ok a => exact hf a ⟨w.rng, ws1⟩ b w' h

/-- C35.  With an integer seed (or one from the operating system) the result of
`bootstrap_resample_run` does not depend on numpy's random state, and a call that
returns leaves that state as it was. -/
theorem C35_seeded (A : Argsort K) (r : Run K) (settings : Option Settings)
    (threads : Option (List (Run K))) (sep : Bool) {seed : Seed} (hs : seed ≠ .keep) :
    RngRestored (bootstrapResampleRun A R r settings threads sep seed) ∧
    RngIndependent (bootstrapResampleRun A R r settings threads sep seed) := by
  have key : ∃ s0 : σ, bootstrapResampleRun A R r settings threads sep seed =
      (M.getState >>= fun st => M.setState s0 >>= fun _ =>
        (threadsOr r threads >>= fun threads =>
          bootstrapInds R r.tmm settings threads.length sep >>= fun inds =>
          M.lift (selectThreads threads inds) >>= fun temp => combineThreads A R temp false) >>= fun run =>
        M.setState st >>= fun _ => pure (run, settings)) := by
    cases seed with
    | keep => exact absurd rfl hs
    | os e =>
      refine ⟨R.seedOS e, ?_⟩
      unfold bootstrapResampleRun
      simp only [bind_assoc]; rfl
    | num n =>
      refine ⟨R.seed n, ?_⟩
      unfold bootstrapResampleRun
      simp only [bind_assoc]; rfl
  obtain ⟨s0, key⟩ := key
  rw [key]
  exact ⟨.scoped s0 fun run => .pure _, .scoped s0 fun run => .pure _⟩

/-! ### C36, C37: when a replication succeeds -/

/-- A valid run whose threads are strictly ascending and lie strictly above the
contours they start from. -/
structure Spec.ProperThreads (r : Run K) (labels : List Int) (tmm : List (WithBot K × K)) : Prop
    extends ValidWith r labels tmm where
  dim : SameDim r.theta
  ascending : ∀ (i j : Nat) (k : Int) (x y : K), i < j → labels[i]? = some k → labels[j]? = some k →
    r.logl[i]? = some x → r.logl[j]? = some y → x < y
  born : ∀ (i : Nat) (k : Nat) (mm : WithBot K × K) (x : K), tmm[k]? = some mm →
    labels[i]? = some (k : Int) → r.logl[i]? = some x → mm.1 < (x : WithBot K)

/-- Settings which can be used with `ninit_sep`: the initial threads come first. -/
def Spec.SeparateOK (tmm : List (WithBot K × K)) (sep : Option Nat) : Prop :=
  ∀ k, sep = some k → k ≤ tmm.length ∧ ∀ (i : Nat) (mm : WithBot K × K), i < k → tmm[i]? = some mm → mm.1 = ⊥

/-- The drawn threads can be combined: every drawn thread which does not start from
the whole prior starts above the lowest drawn sample, and each of its samples has a
drawn sample below it which is no further from its start. -/
def Spec.DrawnFits (r : Run K) (labels : List Int) (tmm : List (WithBot K × K)) (inds : List Nat) : Prop :=
  ∀ k ∈ inds, ∀ (mm : WithBot K × K) (s : K), tmm[k]? = some mm → mm.1 = (s : WithBot K) →
    (∃ l ∈ (samplesOf r labels inds).map (·.1), l < s) ∧
    ∀ f ∈ pick labels k r.logl, ∃ l ∈ (samplesOf r labels inds).map (·.1), l < f ∧ s - l ≤ f - s

theorem pick_pairwise {α : Type} {P : α → α → Prop} {labels : List Int} {k : Int} {xs : List α}
    (h : ∀ (i j : Nat) (x y : α), i < j → labels[i]? = some k → labels[j]? = some k →
      xs[i]? = some x → xs[j]? = some y → P x y) : (pick labels k xs).Pairwise P := by
  induction labels generalizing xs with
  | nil => simp [pick]
  | cons l ls ih =>
    cases xs with
    | nil => simp [pick]
    | cons x xs =>
      have ih' := ih (xs := xs) (fun i j a b hij h1 h2 h3 h4 =>
        h (i + 1) (j + 1) a b (by omega) h1 h2 h3 h4)
      unfold pick at ih' ⊢
      rw [List.zip_cons_cons, List.filter_cons]
      split
      · rename_i hl
        simp only [decide_eq_true_eq] at hl
        rw [List.map_cons, List.pairwise_cons]
        refine ⟨?_, ih'⟩
        intro y hy
        obtain ⟨j, h1, h2⟩ := mem_pick.mp hy
        exact h 0 (j + 1) x y (by omega) (by simp [hl]) h1 rfl h2
      · exact ih'

/-- The threads of a run with proper threads. -/
theorem properThreads_isThread {r : Run K} {labels : List Int} {tmm : List (WithBot K × K)}
    (h : ProperThreads r labels tmm) {k : Nat} {mm : WithBot K × K} (hmm : tmm[k]? = some mm) :
    IsThread (threadRun (pick labels k r.logl) (pick labels k r.theta) k (tmm.getD k (⊥, 0)))
      mm.1 mm.2 := by
  obtain ⟨hl, ht, h1, h2, h3, hs, hok⟩ := validWith_iff.mp h.toValidWith
  obtain ⟨q1, q2, q3⟩ := (threadsOK_iff_pick hs h2).mp hok
  have hsub : (pick labels k r.logl).Pairwise (· < ·) :=
    pick_pairwise fun i j x y hij a b c d => h.ascending i j k x y hij a b c d
  have hgd : tmm.getD k (⊥, 0) = mm := by rw [List.getD_eq_getElem?_getD, hmm]; rfl
  refine ⟨List.ne_nil_of_mem (q3 k _ hmm).2, pairwise_iff_getElem?.mp hsub, rfl, ?_, ?_, ?_, ?_, ?_⟩
  · simp only [threadRun]
    rw [length_pick (by rw [h2, h3]), length_pick (by rw [h2])]
  · intro ls hls
    simp only [threadRun, Option.some.injEq] at hls
    rw [← hls]; simp [threadRun]
  · simp only [threadRun]; rw [hgd]
  · simp only [threadRun]
    exact getLast?_sorted (hsub.imp le_of_lt) (q3 k _ hmm).2 (fun x hx => ((q3 k _ hmm).1 x hx).2)
  · intro l hl'
    obtain ⟨i, hi1, hi2⟩ := mem_pick.mp hl'
    exact h.born i k mm l hmm hi1 hi2

theorem bootstrapInds_ok {settings : Option Settings} {tmm : List (WithBot K × K)} {sep : Bool}
    (hpos : 0 < tmm.length) (hsep : SeparateOK tmm (separately settings sep)) (w : World σ) :
    ∃ inds s1, bootstrapInds R (some tmm) settings tmm.length sep w = (.ok inds,
      ⟨s1, w.warns ++ if sep = true ∧ separately settings sep = none then [Warn.noNinit] else []⟩) := by
  unfold bootstrapInds
  cases sep with
  | false =>
    obtain ⟨xs, s1, h⟩ := npRandint_ok R (lo := 0) (hi := tmm.length) (n := tmm.length)
      (.inr ⟨by omega, hpos⟩) w
    exact ⟨xs, s1, by simp [h]⟩
  | true =>
    simp only [if_true]
    have hse : separately settings true = settings.bind (·.ninit) := rfl
    rw [hse] at hsep ⊢
    cases hs : settings.bind (·.ninit) with
    | none =>
      simp only [M.bind_apply, M.warn_apply]
      obtain ⟨xs, s1, h⟩ := npRandint_ok R (lo := 0) (hi := tmm.length) (n := tmm.length)
        (.inr ⟨by omega, hpos⟩) ⟨w.rng, w.warns ++ [Warn.noNinit]⟩
      exact ⟨xs, s1, by simp [h]⟩
    | some k =>
      obtain ⟨hk1, hk2⟩ := hsep k hs
      change ∃ inds s1, separateInds R (some tmm) tmm.length k w = _
      unfold separateInds
      have hass : ((tmm.take k).all fun p => decide (p.1 = ⊥)) = true := by
        rw [List.all_eq_true]
        intro p hp
        obtain ⟨i, hi⟩ := List.mem_iff_getElem?.mp hp
        have hik : i < k := by
          have := (List.getElem?_eq_some_iff.mp hi).1
          simp at this; omega
        rw [List.getElem?_take, if_pos hik] at hi
        simpa using hk2 i p hik hi
      obtain ⟨xs, s1, h1⟩ := npRandint_ok R (lo := 0) (hi := k) (n := k)
        (by rcases Nat.eq_zero_or_pos k with h | h
            · left; omega
            · right; omega) w
      obtain ⟨ys, s2, h2⟩ := npRandint_ok R (lo := k) (hi := tmm.length) (n := (tmm.length : Int) - k)
        (by rcases Nat.lt_or_eq_of_le hk1 with h | h
            · right; omega
            · left; omega) ⟨s1, w.warns⟩
      refine ⟨xs ++ ys, s2, ?_⟩
      simp only
      rw [M.bind_ok (a := ()) (w' := w) (by rw [M.assert_apply, if_pos hass]), M.bind_ok h1, M.bind_ok h2]
      simp

/-- The part common to C36 and C37. -/
theorem bootstrap_ok {A : Argsort K} {r : Run K} {labels : List Int} {tmm : List (WithBot K × K)}
    (hv : ValidWith r labels tmm) {settings : Option Settings} {sep : Bool} (seed : Seed)
    (hsep : SeparateOK tmm (separately settings sep)) (w : World σ) {Q : List Nat → Prop} {P : Run K → Prop}
    (hQ : ∀ inds : List Nat, inds ≠ [] → (∀ i ∈ inds, i < tmm.length) → Q inds →
      ∃ run : Run K, P run ∧ ∀ w : World σ, combineThreads A R (gather ((List.range tmm.length).map (fun k : Nat =>
        threadRun (pick labels k r.logl) (pick labels k r.theta) k (tmm.getD k (⊥, 0)))) inds) false w =
          (.ok run, w)) :
    ∃ inds, Drawn R (seeded R seed w.rng) tmm.length (separately settings sep) inds ∧
      (Q inds → ∃ (run : Run K) (w' : World σ),
        bootstrapResampleRun A R r settings none sep seed w = (.ok (run, settings), w') ∧
        w'.warns = w.warns ++ (if sep = true ∧ separately settings sep = none then [Warn.noNinit] else []) ∧
        (seed ≠ .keep → w'.rng = w.rng) ∧ P run) := by
  obtain ⟨inds, s1, hi⟩ := bootstrapInds_ok R (sep := sep) (settings := settings) hv.pos hsep
    ⟨seeded R seed w.rng, w.warns⟩
  have hd := bootstrapInds_inv R hi
  refine ⟨inds, hd, fun hq => ?_⟩
  have hne : inds ≠ [] := by
    rintro rfl
    have := hd.count
    have := hv.pos
    simp at *; omega
  obtain ⟨run, hP, hrun⟩ := hQ inds hne hd.range hq
  unfold bootstrapResampleRun
  rw [M.bind_ok (x := M.getState) (a := w.rng) (w' := w) rfl, M.bind_ok (seed_apply R seed w)]
  rw [M.bind_ok (x := threadsOr r none) (getRunThreads_ok hv ⟨seeded R seed w.rng, w.warns⟩)]
  rw [hv.tmm_eq, List.length_map, List.length_range, M.bind_ok hi]
  have hsel : selectThreads ((List.range tmm.length).map (fun k : Nat =>
      threadRun (pick labels k r.logl) (pick labels k r.theta) k (tmm.getD k (⊥, 0)))) inds =
      .ok (gather ((List.range tmm.length).map (fun k : Nat =>
        threadRun (pick labels k r.logl) (pick labels k r.theta) k (tmm.getD k (⊥, 0)))) inds) := by
    unfold selectThreads
    rw [if_pos]
    rw [List.all_eq_true]
    intro i hi
    simpa using hd.range i hi
  rw [M.bind_ok (x := M.lift _) (by rw [M.lift_apply, hsel]), M.bind_ok (hrun _)]
  cases seed with
  | keep => exact ⟨run, _, rfl, rfl, by simp, hP⟩
  | os e => exact ⟨run, _, rfl, rfl, fun _ => rfl, hP⟩
  | num n => exact ⟨run, _, rfl, rfl, fun _ => rfl, hP⟩

theorem gather_isThread {r : Run K} {labels : List Int} {tmm : List (WithBot K × K)}
    (h : ProperThreads r labels tmm) {inds : List Nat} (hr : ∀ i ∈ inds, i < tmm.length) :
    List.Forall₂ (fun t p => IsThread t p.1 p.2) (gather ((List.range tmm.length).map (fun k : Nat =>
        threadRun (pick labels k r.logl) (pick labels k r.theta) k (tmm.getD k (⊥, 0)))) inds)
      (gather tmm inds) := by
  unfold gather
  induction inds with
  | nil => exact .nil
  | cons i is ih =>
    have hi := hr i (by simp)
    have h1 : ((List.range tmm.length).map (fun k : Nat =>
        threadRun (pick labels k r.logl) (pick labels k r.theta) k (tmm.getD k (⊥, 0))))[i]? =
        some (threadRun (pick labels i r.logl) (pick labels i r.theta) i (tmm.getD i (⊥, 0))) := by
      rw [List.getElem?_map, List.getElem?_range hi]; rfl
    rw [List.filterMap_cons, List.filterMap_cons, h1, List.getElem?_eq_getElem hi]
    exact .cons (properThreads_isThread h (List.getElem?_eq_getElem hi))
      (ih (fun j hj => hr j (by simp [hj])))

theorem gather_sameDim {r : Run K} {labels : List Int} {tmm : List (WithBot K × K)}
    (h : ProperThreads r labels tmm) {inds : List Nat} (hr : ∀ i ∈ inds, i < tmm.length) :
    SameDim ((gather ((List.range tmm.length).map (fun k : Nat =>
        threadRun (pick labels k r.logl) (pick labels k r.theta) k (tmm.getD k (⊥, 0)))) inds).flatMap
      (·.theta)) := by
  rw [flatMap_gather _ _ _ hr]
  have : ∀ s ∈ inds.flatMap (fun k : Nat => (threadRun (pick labels k r.logl) (pick labels k r.theta) k
      (tmm.getD k (⊥, 0))).theta), s ∈ r.theta := by
    intro s hs
    obtain ⟨k, -, hk⟩ := List.mem_flatMap.mp hs
    obtain ⟨i, -, hi⟩ := mem_pick.mp hk
    exact List.mem_of_getElem? hi
  intro s hs t ht
  exact h.dim s (this s hs) t (this t ht)

/-- C36.  Every replication of a static run (all threads start from the whole prior
and are strictly ascending) succeeds, whatever is drawn, with or without `ninit_sep`;
the only warning possible is the one about missing settings. -/
theorem C36_static {A : Argsort K} {r : Run K} {labels : List Int} {tmm : List (WithBot K × K)}
    (h : ProperThreads r labels tmm) (hs : ∀ p ∈ tmm, p.1 = ⊥) {settings : Option Settings} {sep : Bool}
    (hsep : ∀ k, separately settings sep = some k → k ≤ tmm.length) (seed : Seed) (w : World σ) :
    ∃ (run : Run K) (w' : World σ),
      bootstrapResampleRun A R r settings none sep seed w = (.ok (run, settings), w') ∧
      w'.warns = w.warns ++ (if sep = true ∧ separately settings sep = none then [Warn.noNinit] else []) ∧
      run.nlive.length = run.logl.length ∧ (∀ n ∈ run.nlive, 0 < n) ∧ run.nlive.getLast? = some 1 := by
  obtain ⟨inds, -, h2⟩ := bootstrap_ok R (A := A) h.toValidWith (P := fun _ => True) (settings := settings) (sep := sep) seed
    (fun k hk => ⟨hsep k hk, fun i mm _ hmm => hs mm (List.mem_of_getElem? hmm)⟩) w
    (Q := fun _ => True) (by
      intro inds hne hr _
      obtain ⟨run, hrun, -⟩ := C22_static R (A := A) (σ := σ) false (fun h0 => hne (by
          have := congrArg List.length h0
          rw [length_gather (by simpa using hr)] at this
          simpa using this)) (gather_isThread h hr)
        (gather_sameDim h hr) (fun p hp => hs p (mem_of_mem_gather hp))
      exact ⟨run, trivial, hrun⟩)
  obtain ⟨run, w', h3, h4, -⟩ := h2 trivial
  obtain ⟨-, _, -, -, -, -, c1, c2, c3, -⟩ := C34_bootstrap R h.toValidWith h3
  exact ⟨run, w', h3, h4, c1, c2, c3⟩

/-- C37, what holds for dynamic runs: a replication succeeds if the drawn threads are
combinable, that is if every drawn dynamic thread starts above the lowest drawn sample
and has a drawn sample below each of its own which is no further from its start. -/
theorem C37_dynamic [IsStrictOrderedRing K] {A : Argsort K} {r : Run K} {labels : List Int}
    {tmm : List (WithBot K × K)} (h : ProperThreads r labels tmm) {settings : Option Settings}
    {sep : Bool} (hsep : SeparateOK tmm (separately settings sep)) (seed : Seed) (w : World σ) :
    ∃ inds, Drawn R (seeded R seed w.rng) tmm.length (separately settings sep) inds ∧
      (DrawnFits r labels tmm inds → ∃ (run : Run K) (w' : World σ),
        bootstrapResampleRun A R r settings none sep seed w = (.ok (run, settings), w') ∧
        w'.warns = w.warns ++ if sep = true ∧ separately settings sep = none then [Warn.noNinit] else []) := by
  refine Exists.elim (bootstrap_ok R (A := A) h.toValidWith seed hsep w
    (Q := DrawnFits r labels tmm) (P := fun _ => True) ?_) ?_
  rotate_left
  · rintro inds ⟨hd, hi⟩
    refine ⟨inds, hd, fun hq => ?_⟩
    obtain ⟨run, w', e1, e2, -⟩ := hi hq
    exact ⟨run, w', e1, e2⟩
  intro inds hne hr hc
  obtain ⟨hl, ht, h1, h2, h3, hs, hok⟩ := validWith_iff.mp h.toValidWith
  have hsamp : ∀ l, l ∈ (samplesOf r labels inds).map (·.1) ↔
      l ∈ (gather ((List.range tmm.length).map (fun k : Nat => threadRun (pick labels k r.logl)
        (pick labels k r.theta) k (tmm.getD k (⊥, 0)))) inds).flatMap (·.logl) := by
    intro l
    rw [flatMap_gather _ _ _ hr, samplesOf, List.map_flatMap]
    have : ∀ k : Nat, ((pick labels k r.logl).zip (pick labels k r.theta)).map (·.1) = pick labels k r.logl := by
      intro k
      apply List.map_fst_zip
      rw [length_pick (by rw [h2]), length_pick (by rw [h2, h3])]
    simp only [this]
    rfl
  suffices hs : ∃ run : Run K, ∀ w : World σ, combineThreads A R (gather ((List.range tmm.length).map
      (fun k : Nat => threadRun (pick labels k r.logl) (pick labels k r.theta) k (tmm.getD k (⊥, 0)))) inds)
        false w = (.ok run, w) by
    obtain ⟨run, hrun⟩ := hs
    exact ⟨run, trivial, hrun⟩
  refine combineThreads_general R (fun h0 => hne (by
      have := congrArg List.length h0
      rw [length_gather (by simpa using hr)] at this
      simpa using this)) (gather_isThread h hr) (gather_sameDim h hr) ?_ ?_
  · intro p hp s hps
    unfold gather at hp
    obtain ⟨k, hk, hkp⟩ := List.mem_filterMap.mp hp
    obtain ⟨l, hl1, hl2⟩ := (hc k hk p s hkp hps).1
    exact ⟨l, (hsamp l).mp hl1, hl2⟩
  · intro t htm p htp s hps f hf
    obtain ⟨k, hk, hkp⟩ := List.mem_filterMap.mp htm
    have hkl := hr k hk
    rw [List.getElem?_map, List.getElem?_range hkl, Option.map_some, Option.some.injEq] at hkp
    have hmm := List.getElem?_eq_getElem hkl
    rw [← hkp] at htp hf
    simp only [threadRun, Option.some.injEq, List.cons.injEq, and_true] at htp hf
    rw [List.getD_eq_getElem?_getD, hmm, Option.getD_some] at htp
    obtain ⟨l, hl1, hl2⟩ := (hc k hk p s (by rw [hmm, htp]) hps).2 f hf
    exact ⟨l, (hsamp l).mp hl1, hl2⟩

section examples

/-- A random number generator which always draws the largest integer. -/
def lastRng : Rng Nat ℤ where
  seed n := n
  seedOS n := n
  randint lo hi n s := (List.replicate n (lo + (hi - lo - 1)), s + n)
  randint_length := by simp
  randint_range := by
    intro lo hi n s h x hx
    rw [List.eq_of_mem_replicate hx]
    omega
  shuffle n s := (List.range n, s + 1)
  shuffle_perm := fun n s => List.Perm.refl _
  uniform n s := (List.replicate n 0, s + n)
  uniform_length := by simp
  uniform_range := by
    intro n s x hx
    rw [List.eq_of_mem_replicate hx]
    decide

/-- A dynamic run of three threads: `1, 2, 10` and `5, 8` from the whole prior and
`3, 9` started on the second sample. -/
def exBoot : Run ℤ :=
  { logl := [1, 2, 3, 5, 8, 9, 10], nlive := [2, 2, 3, 3, 3, 2, 1],
    theta := [[1], [2], [3], [4], [5], [6], [7]], labels := some [0, 0, 2, 1, 1, 2, 0],
    tmm := some [(⊥, 10), (⊥, 8), ((2 : ℤ), 9)] }

theorem exBoot_proper : ProperThreads exBoot [0, 0, 2, 1, 1, 2, 0] [(⊥, 10), (⊥, 8), ((2 : ℤ), 9)] where
  toValidWith := validWith_iff.mpr ⟨rfl, rfl, rfl, rfl, rfl, by decide,
    (checkThreads_iff (r := exBoot) rfl rfl rfl).mp (by decide)⟩
  dim := by unfold SameDim; decide
  ascending := by
    intro i j k x y hij _ _ hx hy
    exact (pairwise_iff_getElem? (R := (· < ·))).mp (show exBoot.logl.Pairwise (· < ·) by decide)
      i j x y hij hx hy
  born := by
    intro i k mm x hmm hl hx
    have hi : i < 7 := (List.getElem?_eq_some_iff.mp hl).1
    interval_cases i <;>
      (simp only [exBoot, List.getElem?_cons_zero, List.getElem?_cons_succ, Option.some.injEq] at hx hl
       subst hx
       have hk : k = 0 ∨ k = 1 ∨ k = 2 := by omega
       rcases hk with rfl | rfl | rfl <;>
        first
          | omega
          | (simp only [List.getElem?_cons_zero, List.getElem?_cons_succ, Option.some.injEq] at hmm
             subst hmm; decide))

/-- C37 as first stated is false: a replication of this valid dynamic run, whose
initial threads are labelled first, fails with `ninit_sep=True` although it includes
initial threads.  The draw is the second thread twice and the dynamic thread, which
starts below the lowest of the drawn samples. -/
theorem C37_ninit_sep_fails :
    SeparateOK (K := ℤ) [(⊥, 10), (⊥, 8), ((2 : ℤ), 9)] (separately (some ⟨some 2⟩) true) ∧
    ∀ s : Nat, (bootstrapResampleRun (stableSort ℤ) lastRng exBoot (some ⟨some 2⟩) none true (.num 0)
      ⟨s, []⟩).1 = .error .assertion := by
  refine ⟨?_, fun s => rfl⟩
  intro k hk
  cases hk
  refine ⟨by decide, ?_⟩
  intro i mm hi hmm
  interval_cases i <;>
    (simp only [List.getElem?_cons_zero, List.getElem?_cons_succ, Option.some.injEq] at hmm; rw [← hmm])

/-- The failed call leaves numpy's random state changed. -/
theorem C35_leak_on_error : ¬ ∀ s : Nat,
    (bootstrapResampleRun (stableSort ℤ) lastRng exBoot (some ⟨some 2⟩) none true (.num 0) ⟨s, []⟩).2.rng = s :=
  fun h => absurd (h 41) (by decide)

/-- C34, C37: the same run with other draws. -/
example : (bootstrapResampleRun (stableSort ℤ) (counterRng ℤ (by decide)) exBoot (some ⟨some 2⟩) none true
    (.num 0) ⟨7, []⟩).2 = ⟨7, []⟩ ∧
    (bootstrapResampleRun (stableSort ℤ) (counterRng ℤ (by decide)) exBoot (some ⟨some 2⟩) none false
      (.num 0) ⟨7, []⟩) = (.ok (exBoot, some ⟨some 2⟩), ⟨7, []⟩) := by
  constructor <;> rfl

theorem exBoot_fits : DrawnFits exBoot [0, 0, 2, 1, 1, 2, 0] [(⊥, 10), (⊥, 8), ((2 : ℤ), 9)]
    [0, 2, 2] := by
  intro k hk mm s hmm hs
  have hk2 : k = 0 ∨ k = 2 := by simpa using hk
  rcases hk2 with rfl | rfl
  · simp only [List.getElem?_cons_zero, Option.some.injEq] at hmm
    rw [← hmm] at hs; simp at hs
  · simp only [List.getElem?_cons_zero, List.getElem?_cons_succ, Option.some.injEq] at hmm
    rw [← hmm] at hs
    have : s = 2 := by simpa using hs.symm
    subst this
    decide

/-- A static run of two threads with a tie. -/
def exStatic : Run ℤ :=
  { logl := [3, 5, 5, 7], nlive := [2, 2, 2, 1], theta := [[2], [1], [3], [4]],
    labels := some [0, 0, 1, 1], tmm := some [(⊥, 5), (⊥, 7)] }

theorem exStatic_proper : ProperThreads exStatic [0, 0, 1, 1] [(⊥, 5), (⊥, 7)] where
  toValidWith := validWith_iff.mpr ⟨rfl, rfl, rfl, rfl, rfl, by decide,
    (checkThreads_iff (r := exStatic) rfl rfl rfl).mp (by decide)⟩
  dim := by unfold SameDim; decide
  ascending := by
    intro i j k x y hij hi hj hx hy
    have h1 : j < 4 := (List.getElem?_eq_some_iff.mp hj).1
    have h2 : i < 4 := by omega
    interval_cases j <;> interval_cases i <;> simp_all [exStatic]
    all_goals omega
  born := by
    intro i k mm x hmm hl hx
    have : mm.1 = ⊥ := by
      have hk : k < 2 := (List.getElem?_eq_some_iff.mp hmm).1
      interval_cases k <;>
        (simp only [List.getElem?_cons_zero, List.getElem?_cons_succ, Option.some.injEq] at hmm; rw [← hmm])
    rw [this]; exact WithBot.bot_lt_coe _

/-- C36 on a concrete run: the first thread twice. -/
example : (bootstrapResampleRun (stableSort ℤ) (counterRng ℤ (by decide)) exStatic (some ⟨some 1⟩) none
    false (.num 0) ⟨7, []⟩).2 = ⟨7, []⟩ ∧
    ((bootstrapResampleRun (stableSort ℤ) lastRng exStatic none none
    false (.num 0) ⟨7, []⟩).1.toOption.map (fun p => (p.1.logl, p.1.nlive))) =
      some ([5, 5, 7, 7], [2, 2, 2, 1]) := by
  constructor <;> rfl

end examples
end Nestcheck
