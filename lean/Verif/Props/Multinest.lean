import Verif.Model.Packages
import Verif.Model.Instances
import Verif.Proofs.Maximal

/-
C11: MultiNest output.  C02: threads are as long as possible.
-/

set_option linter.unusedSectionVars false

namespace Nestcheck
open Spec
variable {K σ : Type} [CommRing K] [LinearOrder K] [IsStrictOrderedRing K] (R : Rng σ K)

/-- C02, continued: threads are as long as possible.  If `t` was born on the contour of
`s`, then the thread of `s` goes on after `s`, with a sample no higher than `t`. -/
theorem C02_maximal {samples : List (Sample K)} {init : K} (hc : Consistent samples init)
    (A : Argsort K) (da dw : Bool) (w w' : World σ) {r : Run K}
    (h : processSamples A R samples da dw w = (.ok r, w')) :
    ∃ labels, r.labels = some labels ∧
      ∀ i j : Nat, ∀ s ∈ samples, ∀ t ∈ samples, r.logl[i]? = some s.logl → r.logl[j]? = some t.logl →
        t.birth = s.logl → ∃ m ≤ j, Consecutive labels i m := by
  obtain ⟨r', labels, tmm, h1, h2, -, h3, -⟩ := process_consistent R hc A da dw (σ := σ)
  have h0 := h
  rw [h1 w] at h
  cases h
  refine ⟨labels, h3, ?_⟩
  have hrow : ∀ (i : Nat) (s : Sample K), s ∈ samples → r.logl[i]? = some s.logl →
      (sortBy A (·.logl) samples)[i]? = some s := by
    intro i s hs hi
    rw [h2, List.getElem?_map] at hi
    cases ht : (sortBy A (·.logl) samples)[i]? with
    | none => rw [ht] at hi; simp at hi
    | some t =>
      rw [ht] at hi
      have h' : t.logl = s.logl := by simpa using hi
      rw [List.inj_on_of_nodup_map hc.distinct (hc.mem_sorted A ht) hs h']
  intro i j s hs t ht hi hj hb
  exact process_maximal R hc A da dw h0 h3 (hrow i s hs hi) (hrow j t ht hj) hb

/-- A row of a text file: parameters, logl, birth contour and `k` further columns. -/
def Spec.RowOf (k : Nat) (row : List K) (s : Sample K) : Prop :=
  ∃ extra : List K, extra.length = k ∧ row = s.theta ++ [s.logl, s.birth] ++ extra

theorem rowSample_eq {row : List K} {s : Sample K} :
    rowSample row = some s ↔ row = s.theta ++ [s.logl, s.birth] := by
  unfold rowSample
  constructor
  · intro h
    cases hr : row.reverse with
    | nil => rw [hr] at h; simp at h
    | cons b rest =>
      cases rest with
      | nil => rw [hr] at h; simp at h
      | cons l th =>
        rw [hr] at h
        simp only [Option.some.injEq] at h
        subst h
        rw [← List.reverse_inj, hr]; simp
  · rintro rfl
    simp

theorem rowSample_take {k : Nat} {row : List K} {s : Sample K} :
    rowSample (row.take (row.length - k)) = some s ↔ RowOf k row s := by
  rw [rowSample_eq]
  constructor
  · intro h
    refine ⟨row.drop (row.length - k), ?_, ?_⟩
    · rw [List.length_drop]
      have := congrArg List.length h
      simp at this
      omega
    · rw [← h, List.take_append_drop]
  · rintro ⟨extra, rfl, rfl⟩
    rw [List.length_append, Nat.add_sub_cancel, List.take_left']
    rfl

theorem tableSamples_ok {k : Nat} {rows : List (List K)} {ss : List (Sample K)} :
    tableSamples (dropCols k rows) = .ok ss ↔ List.Forall₂ (RowOf k) rows ss := by
  induction rows generalizing ss with
  | nil =>
    simp only [dropCols, List.map_nil, tableSamples, Except.ok.injEq, List.forall₂_nil_left_iff]
    exact eq_comm
  | cons row rows ih =>
    have hd : dropCols k (row :: rows) = row.take (row.length - k) :: dropCols k rows := rfl
    rw [hd, tableSamples, List.forall₂_cons_left_iff]
    cases hr : rowSample (row.take (row.length - k)) with
    | none =>
      simp only [reduceCtorEq, false_iff]
      rintro ⟨b, u, h, -⟩
      rw [rowSample_take.mpr h] at hr; simp at hr
    | some s =>
      have hs := rowSample_take.mp hr
      cases ht : tableSamples (dropCols k rows) with
      | error e =>
        simp only [reduceCtorEq, false_iff]
        rintro ⟨b, u, -, h, -⟩
        rw [ih.mpr h] at ht; simp at ht
      | ok ts =>
        simp only [Except.ok.injEq]
        constructor
        · rintro rfl; exact ⟨s, ts, hs, ih.mp ht, rfl⟩
        · rintro ⟨b, u, h1, h2, rfl⟩
          have e1 := rowSample_take.mpr h1
          rw [hr] at e1
          have e2 := ih.mpr h2
          rw [ht] at e2
          cases e1; cases e2; rfl

theorem loadText_ok {files : Tables K} {name : String} {rows : List (List K)}
    (h : loadText files name = .ok rows) : files name = some rows := by
  unfold loadText at h
  split at h
  · simp at h
  · rename_i rows' heq
    split_ifs at h
    cases h
    exact heq

theorem twoDims_ok {rows rows' : List (List K)} (h : twoDims rows = .ok rows') : rows' = rows := by
  unfold twoDims at h
  split_ifs at h
  cases h; rfl

theorem vstackSamples_ok {dead live rows : List (Sample K)} (h : vstackSamples dead live = .ok rows) :
    rows = dead ++ live := by
  unfold vstackSamples at h
  split_ifs at h
  cases h; rfl

/-- C11.  A MultiNest run is returned only if every final live point lies above every
dead point and every thread starts from the whole prior, and then it is the result of
`process_samples_array` on the dead and live points without the surplus columns. -/
theorem C11_returns {A : Argsort K} {files : Tables K} {root dir : String} {da dw : Bool}
    {w w' : World σ} {run : Run K} {src : Source}
    (h : processMultinest A R files root dir da dw w = (.ok (run, src), w')) :
    ∃ (deadRows liveRows : List (List K)) (dead live : List (Sample K)) (tmm : List (WithBot K × K)),
      files (pathJoin dir root ++ "dead-birth.txt") = some deadRows ∧
      files (pathJoin dir root ++ "phys_live-birth.txt") = some liveRows ∧
      List.Forall₂ (RowOf 2) deadRows dead ∧ List.Forall₂ (RowOf 1) liveRows live ∧
      (∀ d ∈ dead, ∀ l ∈ live, d.logl < l.logl) ∧
      processSamples A R (dead ++ live) da dw w = (.ok run, w') ∧
      run.tmm = some tmm ∧ (∀ p ∈ tmm, p.1 = ⊥) ∧ src = ⟨root, dir⟩ := by
  unfold processMultinest at h
  obtain ⟨deadRows, w1, h1, h⟩ := M.bind_eq_ok.mp h
  obtain ⟨liveRows, w2, h2, h⟩ := M.bind_eq_ok.mp h
  obtain ⟨deadRows', _, h1a, h⟩ := M.bind_eq_ok.mp h
  obtain ⟨liveRows', _, h2a, h⟩ := M.bind_eq_ok.mp h
  obtain ⟨dead, w3, h3, h⟩ := M.bind_eq_ok.mp h
  obtain ⟨live, w4, h4, h⟩ := M.bind_eq_ok.mp h
  obtain ⟨_, w5, h5, h⟩ := M.bind_eq_ok.mp h
  obtain ⟨rows, w6, h6, h⟩ := M.bind_eq_ok.mp h
  obtain ⟨run', w7, h7, h⟩ := M.bind_eq_ok.mp h
  obtain ⟨_, w8, h8, h⟩ := M.bind_eq_ok.mp h
  rw [M.pure_apply] at h
  cases h
  rw [M.lift_apply] at h1 h2 h1a h2a h3 h4 h6
  rw [M.assert_apply] at h5 h8
  cases h1' : loadText files (pathJoin dir root ++ "dead-birth.txt") with
  | error e => rw [h1'] at h1; simp at h1
  | ok _ =>
  rw [h1'] at h1; cases h1
  cases h2' : loadText files (pathJoin dir root ++ "phys_live-birth.txt") with
  | error e => rw [h2'] at h2; simp at h2
  | ok _ =>
  rw [h2'] at h2; cases h2
  cases h1b : twoDims deadRows with
  | error e => rw [h1b] at h1a; simp at h1a
  | ok _ =>
  rw [h1b] at h1a; cases h1a
  cases h2b : twoDims liveRows with
  | error e => rw [h2b] at h2a; simp at h2a
  | ok _ =>
  rw [h2b] at h2a; cases h2a
  rw [twoDims_ok h1b] at h3
  rw [twoDims_ok h2b] at h4
  cases h3' : tableSamples (dropCols 2 deadRows) with
  | error e => rw [h3'] at h3; simp at h3
  | ok _ =>
  rw [h3'] at h3; cases h3
  cases h4' : tableSamples (dropCols 1 liveRows) with
  | error e => rw [h4'] at h4; simp at h4
  | ok _ =>
  rw [h4'] at h4; cases h4
  cases h6' : vstackSamples dead live with
  | error e => rw [h6'] at h6; simp at h6
  | ok _ =>
  rw [h6'] at h6; cases h6
  obtain rfl := vstackSamples_ok h6'
  split_ifs at h5 with hc5
  · split_ifs at h8 with hc8
    · cases h5
      cases h8
      have htm : ∃ tmm, run.tmm = some tmm := by
        have h := h7
        unfold processSamples at h
        obtain ⟨_, _, -, h⟩ := M.bind_eq_ok.mp h
        obtain ⟨_, _, -, h⟩ := M.bind_eq_ok.mp h
        obtain ⟨_, _, -, h⟩ := M.bind_eq_ok.mp h
        obtain ⟨acc, _, -, h⟩ := M.bind_eq_ok.mp h
        rw [M.pure_apply] at h
        cases h
        exact ⟨_, rfl⟩
      obtain ⟨tmm, htm⟩ := htm
      refine ⟨deadRows, liveRows, dead, live, tmm, loadText_ok h1', loadText_ok h2',
        tableSamples_ok.mp h3', tableSamples_ok.mp h4', ?_, h7, htm, ?_, rfl⟩
      · simpa using hc5
      · unfold allFromPrior at hc8
        rw [htm] at hc8
        intro p hp
        exact of_decide_eq_true (List.all_eq_true.mp hc8 p hp)
    · simp at h8
  · simp at h5

/-- Files which hold a rectangular table with at least two rows. -/
def Spec.HoldsRows (k : Nat) (files : Tables K) (name : String) (ss : List (Sample K)) : Prop :=
  ∃ rows, files name = some rows ∧ List.Forall₂ (RowOf k) rows ss ∧ 2 ≤ ss.length

theorem forall₂_mem_left {α β : Type} {r : α → β → Prop} {l1 : List α} {l2 : List β}
    (h : List.Forall₂ r l1 l2) {a : α} (ha : a ∈ l1) : ∃ b ∈ l2, r a b := by
  induction h with
  | nil => simp at ha
  | cons hab _ ih =>
    rcases List.mem_cons.mp ha with rfl | ha
    · exact ⟨_, by simp, hab⟩
    · obtain ⟨b, hb, hr⟩ := ih ha
      exact ⟨b, by simp [hb], hr⟩

theorem loadText_holds {k : Nat} {files : Tables K} {name : String} {ss : List (Sample K)}
    {rows : List (List K)} (hf : files name = some rows) (hr : List.Forall₂ (RowOf k) rows ss)
    (h2 : 2 ≤ ss.length) (hd : ∀ s ∈ ss, ∀ t ∈ ss, s.theta.length = t.theta.length) :
    loadText files name = .ok rows ∧ twoDims rows = .ok rows := by
  have hlen : ∀ r ∈ rows, ∃ s ∈ ss, r.length = s.theta.length + 2 + k := by
    intro r hr'
    obtain ⟨s, hs, extra, he, rfl⟩ := forall₂_mem_left hr hr'
    exact ⟨s, hs, by simp [he]; omega⟩
  unfold loadText twoDims
  rw [hf]
  dsimp only
  rw [if_neg, if_neg]
  · simp
  · simp only [Bool.or_eq_true, decide_eq_true_eq, List.any_eq_true, not_or, not_exists, not_and]
    refine ⟨by rw [hr.length_eq]; omega, ?_⟩
    intro r hr'
    obtain ⟨s, -, hl⟩ := hlen r hr'
    omega
  · simp only [List.any_eq_true, decide_eq_true_eq, not_exists, not_and]
    rintro r h1 r' h2'
    obtain ⟨s, hs, e1⟩ := hlen r h1
    obtain ⟨t, ht, e2⟩ := hlen r' h2'
    rw [e1, e2, hd s hs t ht]
    simp

theorem loadTable_holds {k : Nat} {files : Tables K} {name : String} {ss : List (Sample K)}
    {rows : List (List K)} (hf : files name = some rows) (hr : List.Forall₂ (RowOf k) rows ss)
    (h2 : 2 ≤ ss.length) (hd : ∀ s ∈ ss, ∀ t ∈ ss, s.theta.length = t.theta.length) :
    loadTable files name = .ok rows := by
  obtain ⟨e1, e2⟩ := loadText_holds hf hr h2 hd
  unfold loadTable
  rw [e1]
  exact e2

/-- C11, missing files: `OSError` if the file of dead points is missing, or that of live points
is missing and the file of dead points holds a rectangular table (of any number of rows and
columns). -/
theorem C11_missing {A : Argsort K} {files : Tables K} {root dir : String} {da dw : Bool} (w : World σ)
    (h : files (pathJoin dir root ++ "dead-birth.txt") = none ∨
      files (pathJoin dir root ++ "phys_live-birth.txt") = none ∧
      ∃ rows n, files (pathJoin dir root ++ "dead-birth.txt") = some rows ∧ ∀ r ∈ rows, r.length = n) :
    processMultinest A R files root dir da dw w = (.error .os, w) := by
  unfold processMultinest
  rcases h with h | ⟨h1, rows, n, h2, h3⟩
  · have : loadText files (pathJoin dir root ++ "dead-birth.txt") = .error .os := by unfold loadText; rw [h]
    rw [this]; rfl
  · have e1 : loadText files (pathJoin dir root ++ "dead-birth.txt") = .ok rows := by
      unfold loadText
      rw [h2]
      dsimp only
      rw [if_neg]
      simp only [List.any_eq_true, decide_eq_true_eq, not_exists, not_and]
      rintro r hr r' hr'
      rw [h3 r hr, h3 r' hr']
      simp
    have e2 : loadText files (pathJoin dir root ++ "phys_live-birth.txt") = .error .os := by unfold loadText; rw [h1]
    rw [e1, e2]; rfl

/-- C11, the other direction: on consistent dead and live points of one dimension the
run is returned exactly if the live points lie above the dead ones and no contour but
the initial one has two births; otherwise `AssertionError` is raised. -/
theorem C11_accepts {A : Argsort K} {files : Tables K} {root dir : String} {da dw : Bool}
    {dead live : List (Sample K)} {init : K}
    (hdead : HoldsRows 2 files (pathJoin dir root ++ "dead-birth.txt") dead)
    (hlive : HoldsRows 1 files (pathJoin dir root ++ "phys_live-birth.txt") live)
    (hdim : ∀ s ∈ dead ++ live, ∀ t ∈ dead ++ live, s.theta.length = t.theta.length)
    (hc : Consistent (dead ++ live) init) :
    (((∀ d ∈ dead, ∀ l ∈ live, d.logl < l.logl) ∧ OneHeir (dead ++ live) init) →
      ∃ run, ∀ w : World σ, processMultinest A R files root dir da dw w = (.ok (run, ⟨root, dir⟩), w)) ∧
    (¬ ((∀ d ∈ dead, ∀ l ∈ live, d.logl < l.logl) ∧ OneHeir (dead ++ live) init) →
      ∀ w : World σ, processMultinest A R files root dir da dw w = (.error .assertion, w)) := by
  obtain ⟨dr, hf1, hr1, hl1⟩ := hdead
  obtain ⟨lr, hf2, hr2, hl2⟩ := hlive
  obtain ⟨e1, e1'⟩ := loadText_holds hf1 hr1 hl1 (fun s hs t ht => hdim s (by simp [hs]) t (by simp [ht]))
  obtain ⟨e2, e2'⟩ := loadText_holds hf2 hr2 hl2 (fun s hs t ht => hdim s (by simp [hs]) t (by simp [ht]))
  have e3 := tableSamples_ok.mpr hr1
  have e4 := tableSamples_ok.mpr hr2
  have e5 : vstackSamples dead live = .ok (dead ++ live) := by
    unfold vstackSamples
    rw [if_pos]
    simp only [List.all_eq_true, decide_eq_true_eq]
    exact hdim
  obtain ⟨r, labels, tmm, h1, -, -, -, h4, -⟩ := process_consistent R hc A da dw (σ := σ)
  classical
  have hstart : ∀ w : World σ, processMultinest A R files root dir da dw w =
      if (∀ d ∈ dead, ∀ l ∈ live, d.logl < l.logl) ∧ OneHeir (dead ++ live) init then
        (.ok (r, ⟨root, dir⟩), w) else (.error .assertion, w) := by
    intro w
    unfold processMultinest
    rw [M.bind_ok (w' := w) (by rw [M.lift_apply, e1]), M.bind_ok (w' := w) (by rw [M.lift_apply, e2]),
      M.bind_ok (w' := w) (by rw [M.lift_apply, e1']), M.bind_ok (w' := w) (by rw [M.lift_apply, e2']),
      M.bind_ok (w' := w) (by rw [M.lift_apply, e3]), M.bind_ok (w' := w) (by rw [M.lift_apply, e4])]
    by_cases hab : ∀ d ∈ dead, ∀ l ∈ live, d.logl < l.logl
    · rw [M.bind_ok (a := ()) (w' := w) (by rw [M.assert_apply, if_pos]; simpa using hab),
        M.bind_ok (w' := w) (by rw [M.lift_apply, e5]), M.bind_ok (h1 w)]
      have hs := process_static R hc A da dw (h1 w) h4
      by_cases ho : OneHeir (dead ++ live) init
      · rw [if_pos ⟨hab, ho⟩, M.bind_ok (a := ()) (w' := w)]
        · rfl
        · rw [M.assert_apply, if_pos]
          unfold allFromPrior
          rw [h4]
          exact List.all_eq_true.mpr (fun p hp => decide_eq_true (hs.mpr ho p hp))
      · rw [if_neg (fun h => ho h.2), M.bind_error (w' := w)]
        rw [M.assert_apply, if_neg]
        unfold allFromPrior
        rw [h4]
        intro hall
        exact ho (hs.mp (fun p hp => of_decide_eq_true (List.all_eq_true.mp hall p hp)))
    · rw [if_neg (fun h => hab h.1), M.bind_error (w' := w)]
      rw [M.assert_apply, if_neg]
      simpa using hab
  constructor
  · intro h
    exact ⟨r, fun w => by rw [hstart w, if_pos h]⟩
  · intro h w
    rw [hstart w, if_neg h]

theorem rank_of_sorted {l : List K} (h : l.Pairwise (· < ·)) {i : Nat} {x : K} (hi : l[i]? = some x) :
    l.countP (fun y => decide (y < x)) = i := by
  induction l generalizing i with
  | nil => simp at hi
  | cons a l ih =>
    obtain ⟨h1, h2⟩ := List.pairwise_cons.mp h
    cases i with
    | zero =>
      simp only [List.getElem?_cons_zero, Option.some.injEq] at hi
      subst hi
      rw [List.countP_cons, List.countP_eq_zero.mpr]
      · simp
      · intro y hy
        simpa using le_of_lt (h1 y hy)
    | succ i =>
      rw [List.getElem?_cons_succ] at hi
      rw [List.countP_cons, ih h2 hi, if_pos]
      simpa using h1 x (List.mem_of_getElem? hi)

/-- C11, live counts: if each dead point was replaced by exactly one new point and the
others were sampled from the whole prior (so there is one of these for each final live
point), the number of live points is constant, until the final live points are used up
one by one. -/
theorem C11_constant {A : Argsort K} {da dw : Bool} {dead live : List (Sample K)} {init : K}
    (hc : Consistent (dead ++ live) init) (hab : ∀ d ∈ dead, ∀ l ∈ live, d.logl < l.logl)
    (hb : ((dead ++ live).map (·.birth)).Perm (List.replicate live.length init ++ dead.map (·.logl)))
    {w w' : World σ} {run : Run K}
    (h : processSamples A R (dead ++ live) da dw w = (.ok run, w')) :
    OneHeir (dead ++ live) init ∧
    run.nlive.length = dead.length + live.length ∧
    (∀ i < dead.length, run.nlive[i]? = some (live.length : Int)) ∧
    ∀ i < live.length, run.nlive[dead.length + i]? = some ((live.length - i : Nat) : Int) := by
  obtain ⟨r, labels, tmm, h1, h2, -, -, -, -, h5, h6, -⟩ := process_consistent R hc A da dw (σ := σ)
  rw [h1 w] at h
  cases h
  have hperm := sortBy_perm A (·.logl) (dead ++ live)
  have hsort := hc.sorted_strict A
  rw [← h2] at hsort
  have hlen : run.logl.length = dead.length + live.length := by
    rw [h2, List.length_map, hperm.length_eq, List.length_append]
  -- live points from births and deaths
  have hlt : ∀ s ∈ dead ++ live, s.birth < s.logl := by
    intro s hs
    rcases hc.births s hs with e | ⟨t, -, e, e'⟩
    · rw [e]; exact hc.below s hs
    · rw [e]; exact e'
  have hcount : ∀ (i : Nat) (l : K), run.logl[i]? = some l →
      liveAt (dead ++ live) l + i = live.length + dead.countP (fun d => decide (d.logl < l)) := by
    intro i l hl
    have hmem : l ∈ (dead ++ live).map (·.logl) := by
      have := List.mem_of_getElem? hl
      rw [h2] at this
      exact (hperm.map _).mem_iff.mp this
    have hinit : init < l := by
      obtain ⟨s, hs, rfl⟩ := List.mem_map.mp hmem
      exact hc.below s hs
    have e1 : i = (dead ++ live).countP (fun s => decide (s.logl < l)) := by
      have e := rank_of_sorted hsort hl
      rw [h2, List.countP_map, hperm.countP_eq] at e
      exact e.symm
    have e2 : (dead ++ live).countP (fun s => decide (s.birth < l)) =
        live.length + dead.countP (fun d => decide (d.logl < l)) := by
      have e := hb.countP_eq (fun x => decide (x < l))
      rw [List.countP_map, List.countP_append (l₁ := List.replicate _ _), List.countP_map,
        List.countP_replicate, if_pos (by simpa using hinit)] at e
      exact e
    rw [← e2, e1]
    unfold liveAt
    have key : ∀ ss : List (Sample K), (∀ s ∈ ss, s.birth < s.logl) →
        ss.countP (fun s => decide (s.birth < l ∧ l ≤ s.logl)) +
          ss.countP (fun s => decide (s.logl < l)) = ss.countP (fun s => decide (s.birth < l)) := by
      intro ss
      induction ss with
      | nil => simp
      | cons s ss ih =>
        intro hs
        have ih' := ih (fun s hs' => hs s (by simp [hs']))
        have h0 := hs s (by simp)
        simp only [List.countP_cons]
        by_cases c1 : s.logl < l
        · have c2 : s.birth < l := lt_trans h0 c1
          rw [decide_eq_true c1, decide_eq_true c2,
            decide_eq_false (fun h : s.birth < l ∧ l ≤ s.logl => absurd h.2 (not_le.mpr c1))]
          simp only [if_true, Bool.false_eq_true, if_false]
          omega
        · by_cases c2 : s.birth < l
          · rw [decide_eq_false c1, decide_eq_true c2,
              decide_eq_true (show s.birth < l ∧ l ≤ s.logl from ⟨c2, not_lt.mp c1⟩)]
            simp only [if_true, Bool.false_eq_true, if_false]
            omega
          · rw [decide_eq_false c1, decide_eq_false c2,
              decide_eq_false (fun h : s.birth < l ∧ l ≤ s.logl => c2 h.1)]
            simp only [Bool.false_eq_true, if_false]
            omega
    exact key _ hlt
  -- which samples come first
  have hpart : ∀ (i : Nat) (l : K), run.logl[i]? = some l →
      (i < dead.length → dead.countP (fun d => decide (d.logl < l)) = i) ∧
      (dead.length ≤ i → dead.countP (fun d => decide (d.logl < l)) = dead.length) := by
    intro i l hl
    have hrank : (dead ++ live).countP (fun s => decide (s.logl < l)) = i := by
      have e := rank_of_sorted hsort hl
      rw [h2, List.countP_map, hperm.countP_eq] at e
      exact e
    rw [List.countP_append] at hrank
    have hmem : l ∈ (dead ++ live).map (·.logl) := by
      have := List.mem_of_getElem? hl
      rw [h2] at this
      exact (hperm.map _).mem_iff.mp this
    obtain ⟨s, hs, rfl⟩ := List.mem_map.mp hmem
    rcases List.mem_append.mp hs with hs | hs
    · have h0 : live.countP (fun t => decide (t.logl < s.logl)) = 0 := by
        rw [List.countP_eq_zero]
        intro t ht
        simpa using le_of_lt (hab s hs t ht)
      have h1 : dead.countP (fun t => decide (t.logl < s.logl)) < dead.length := by
        rw [List.countP_eq_length_filter]
        exact List.length_filter_lt_length_iff_exists.mpr ⟨s, hs, by simp⟩
      omega
    · have h0 : dead.countP (fun t => decide (t.logl < s.logl)) = dead.length := by
        rw [List.countP_eq_length]
        intro t ht
        simpa using hab t ht s hs
      omega
  refine ⟨?_, by rw [h5, List.length_append], ?_, ?_⟩
  · intro s hs t ht hbt hbi
    -- the non-initial births are distinct
    have hnd : ((dead ++ live).map (·.birth)).countP (fun x => decide (x = s.birth)) ≤ 1 := by
      rw [hb.countP_eq, List.countP_append, List.countP_replicate, if_neg (by simpa using fun h => hbi h.symm)]
      have hd : (dead.map (·.logl)).Nodup := by
        have := hc.distinct
        rw [List.map_append] at this
        exact (List.nodup_append.mp this).1
      have := List.nodup_iff_count_le_one.mp hd s.birth
      rw [List.count_eq_countP] at this
      simp only [zero_add]
      refine le_trans (le_of_eq (List.countP_congr ?_)) this
      intro x _
      simp
    by_contra hne
    obtain ⟨i, hi⟩ := List.mem_iff_getElem?.mp hs
    obtain ⟨j, hj⟩ := List.mem_iff_getElem?.mp ht
    have hij : i ≠ j := by
      rintro rfl
      rw [hi] at hj; cases hj; exact hne rfl
    have hwi : i ∈ whereIdx (fun x => decide (x = s.birth)) ((dead ++ live).map (·.birth)) := by
      rw [mem_whereIdx]
      exact ⟨s.birth, by rw [List.getElem?_map, hi]; rfl, by simp⟩
    have hwj : j ∈ whereIdx (fun x => decide (x = s.birth)) ((dead ++ live).map (·.birth)) := by
      rw [mem_whereIdx]
      exact ⟨t.birth, by rw [List.getElem?_map, hj]; rfl, by simp [hbt]⟩
    rw [← length_whereIdx] at hnd
    revert hwi hwj hnd
    generalize whereIdx (fun x => decide (x = s.birth)) ((dead ++ live).map (·.birth)) = ws
    intro hnd hwi hwj
    rcases ws with _ | ⟨a, _ | ⟨b, ws⟩⟩
    · simp at hwi
    · simp only [List.mem_singleton] at hwi hwj; omega
    · simp at hnd
  · intro i hi
    have hil : i < run.logl.length := by omega
    have hl := List.getElem?_eq_getElem hil
    have e := hcount i _ hl
    have e' := (hpart i _ hl).1 hi
    rw [h6 i _ hl]
    congr 2
    omega
  · intro i hi
    have hil : dead.length + i < run.logl.length := by omega
    have hl := List.getElem?_eq_getElem hil
    have e := hcount _ _ hl
    have e' := (hpart _ _ hl).2 (by omega)
    rw [h6 _ _ hl]
    congr 2
    omega

section examples

/-- Files of a MultiNest run with two live points. -/
def exFiles : Tables ℤ := fun name =>
  if name = "chains/rundead-birth.txt" then
    some [[10, 1, -100, 0, 0], [20, 2, -100, 0, 0], [30, 4, 1, 0, 0]]
  else if name = "chains/runphys_live-birth.txt" then some [[40, 5, 2, 0], [50, 6, 4, 0]]
  else none

def exDead : List (Sample ℤ) := [⟨[10], 1, -100⟩, ⟨[20], 2, -100⟩, ⟨[30], 4, 1⟩]
def exLive : List (Sample ℤ) := [⟨[40], 5, 2⟩, ⟨[50], 6, 4⟩]

def exMultinestRun : Run ℤ :=
  { logl := [1, 2, 4, 5, 6], nlive := [2, 2, 2, 2, 1],
    theta := [[10], [20], [30], [40], [50]], labels := some [0, 1, 0, 1, 0],
    tmm := some [(⊥, 6), (⊥, 5)] }

example : processMultinest (stableSort ℤ) (counterRng ℤ (by decide)) exFiles "run" "chains" false false
    ⟨7, []⟩ = (.ok (exMultinestRun, ⟨"run", "chains"⟩), ⟨7, []⟩) := by
  have h1 : exFiles (pathJoin "chains" "run" ++ "dead-birth.txt") =
      some [[10, 1, -100, 0, 0], [20, 2, -100, 0, 0], [30, 4, 1, 0, 0]] := by decide
  have h2 : exFiles (pathJoin "chains" "run" ++ "phys_live-birth.txt") =
      some [[40, 5, 2, 0], [50, 6, 4, 0]] := by decide
  unfold processMultinest loadText
  rw [h1, h2]
  rfl

theorem exMultinest_consistent : Consistent (exDead ++ exLive) (-100) where
  nonempty := by decide
  distinct := by decide
  below := by decide
  births := by decide

example : OneHeir (exDead ++ exLive) (-100) := by unfold OneHeir; decide
example : ∀ d ∈ exDead, ∀ l ∈ exLive, d.logl < l.logl := by decide
example : ((exDead ++ exLive).map (·.birth)).Perm
    (List.replicate exLive.length (-100) ++ exDead.map (·.logl)) := by decide
example : HoldsRows 2 exFiles (pathJoin "chains" "run" ++ "dead-birth.txt") exDead :=
  ⟨[[10, 1, -100, 0, 0], [20, 2, -100, 0, 0], [30, 4, 1, 0, 0]], by decide,
    .cons ⟨[0, 0], rfl, rfl⟩ (.cons ⟨[0, 0], rfl, rfl⟩ (.cons ⟨[0, 0], rfl, rfl⟩ .nil)), by decide⟩

/-- The file of live points is missing; that of dead points has a single row, which would raise `IndexError` later. -/
example : processMultinest (stableSort ℤ) (counterRng ℤ (by decide))
    (fun name => if name = "chains/rundead-birth.txt" then some [[10, 1, -100, 0, 0]] else none) "run" "chains" false false
    ⟨7, []⟩ = (.error .os, ⟨7, []⟩) :=
  C11_missing _ _ (.inr ⟨by decide, [[10, 1, -100, 0, 0]], 5, by decide, by simp⟩)

/-- Two points born on contour 1: the run is not static and is rejected. -/
example : ¬ OneHeir (K := ℤ) [⟨[10], 1, -100⟩, ⟨[20], 2, 1⟩, ⟨[30], 4, 1⟩] (-100) := by
  unfold OneHeir; decide

end examples
end Nestcheck
