import Verif.Proofs.CombineStatic
import Verif.Props.Process
import Mathlib.Tactic.IntervalCases
import Mathlib.Tactic.FinCases
import Verif.Proofs.RngIndep

/-
C17, C18, C22, C23: splitting runs into threads and recombining threads.
-/

set_option linter.unusedSectionVars false

namespace Nestcheck
open Spec
variable {σ K : Type} [CommRing K] [LinearOrder K] (R : Rng σ K)

/-- C17.  `get_run_threads` of a run of the documented format succeeds without
effects and returns one run per thread, in label order: the samples with that
label in the order of the run, one live point throughout, only that label and that
row of `thread_min_max`.  Together the threads have exactly the samples of the run. -/
theorem C17_split {r : Run K} {labels : List Int} {tmm : List (WithBot K × K)}
    (h : ValidWith r labels tmm) :
    ∃ ts : List (Run K), (∀ w : World σ, getRunThreads r w = (.ok ts, w)) ∧
      ts.length = tmm.length ∧
      (∀ (k : Nat) (t : Run K) (mm : WithBot K × K), ts[k]? = some t → tmm[k]? = some mm →
        t.logl = pick labels k r.logl ∧ t.theta = pick labels k r.theta ∧ t.logl ≠ [] ∧
        t.logl.Pairwise (· ≤ ·) ∧ t.nlive = List.replicate t.logl.length 1 ∧
        t.labels = some (List.replicate t.logl.length (k : Int)) ∧ t.tmm = some [mm]) ∧
      (ts.flatMap (fun t => t.logl.zip t.theta)).Perm (r.logl.zip r.theta) := by
  refine ⟨_, getRunThreads_ok h, by simp, ?_, ?_⟩
  · intro k t mm hk hmm
    have hkl : k < tmm.length := (List.getElem?_eq_some_iff.mp hmm).1
    rw [List.getElem?_map, List.getElem?_range hkl] at hk
    simp only [Option.map_some, Option.some.injEq] at hk
    subst hk
    obtain ⟨-, -, -, h2, -, hs, hok⟩ := validWith_iff.mp h
    have h3 := ((threadsOK_iff_pick hs h2).mp hok).2.2 k mm hmm
    refine ⟨rfl, rfl, ?_, hs.sublist pick_sublist, rfl, rfl, ?_⟩
    · exact List.ne_nil_of_mem h3.2
    · simp [threadRun, List.getD_eq_getElem?_getD, hmm]
  · rw [List.flatMap_map]
    have : ∀ k : Nat, (threadRun (pick labels k r.logl) (pick labels k r.theta) (k : Int)
        (tmm.getD k (⊥, 0))).logl.zip (threadRun (pick labels k r.logl) (pick labels k r.theta) (k : Int)
        (tmm.getD k (⊥, 0))).theta = pick labels k (r.logl.zip r.theta) := by
      intro k
      simp only [threadRun]
      exact (pick_zip (by rw [h.labels_len]) (by rw [h.labels_len, h.theta_len])).symm
    simp only [this]
    exact pick_perm (fun k hk => (h.labels_range k).mp hk) (by
      rw [List.length_zip, h.theta_len, h.labels_len]; simp)

/-- The thread members of a run are usable, or have been set to `None`. -/
def Spec.ThreadsUsable (run : Run K) : Prop :=
  (run.labels = none ∧ run.tmm = none) ∨ Valid run

theorem finishThreads_usable {rows : List (Row K)} {nl : List Int} {tmm : List (WithBot K × K)}
    (hs : rows.Pairwise (fun a b => a.logl ≤ b.logl)) (hn : nl.length = rows.length) :
    ThreadsUsable (finishThreads (runOfRows rows nl tmm)) := by
  unfold finishThreads
  cases hc : checkThreads (runOfRows rows nl tmm) with
  | error e => exact .inl ⟨rfl, rfl⟩
  | ok u =>
    right
    cases hl : allSome (rows.map (·.label)) with
    | none =>
      exfalso
      unfold checkThreads runOfRows at hc
      simp only [hl] at hc
      simp at hc
    | some ls =>
      have hlen := congrArg List.length (allSome_eq_some.mp hl)
      simp only [List.length_map] at hlen
      refine ⟨ls, tmm, validWith_iff.mpr ⟨hl, rfl, ?_, ?_, ?_, ?_, ?_⟩⟩
      · simp [runOfRows, hn]
      · simp [runOfRows, hlen]
      · simp [runOfRows]
      · simp only [runOfRows]; rw [List.pairwise_map]; exact hs
      · exact (checkThreads_iff (r := runOfRows rows nl tmm) (labels := ls) (tmm := tmm) hl rfl
          (by simp [runOfRows, hlen])).mp hc

theorem finishThreads_members {rows : List (Row K)} {nl : List Int} {tmm : List (WithBot K × K)} :
    (finishThreads (runOfRows rows nl tmm)).logl = rows.map (·.logl) ∧
    (finishThreads (runOfRows rows nl tmm)).nlive = nl ∧
    (finishThreads (runOfRows rows nl tmm)).theta = rows.map (·.theta) := by
  unfold finishThreads
  split <;> exact ⟨rfl, rfl, rfl⟩

theorem perm_zip_of_rows {threads : List (Run K)} {rows0 : List (Row K)}
    (h1 : rows0.map (·.logl) = threads.flatMap (·.logl))
    (h3 : rows0.map (·.theta) = threads.flatMap (·.theta))
    (hl : ∀ t ∈ threads, t.theta.length = t.logl.length) :
    rows0.map (fun r => (r.logl, r.theta)) = threads.flatMap (fun t => t.logl.zip t.theta) := by
  have e : rows0.map (fun r => (r.logl, r.theta)) = (rows0.map (·.logl)).zip (rows0.map (·.theta)) := by
    rw [List.zip_map']
  rw [e, h1, h3]
  clear e h1 h3
  induction threads with
  | nil => rfl
  | cons t ts ih =>
    simp only [List.flatMap_cons]
    rw [List.zip_append (hl t (by simp)).symm, ih (fun x hx => hl x (by simp [hx]))]

theorem forall₂_left {α β : Type} {P : α → β → Prop} {xs : List α} {ys : List β}
    (h : List.Forall₂ P xs ys) {x : α} (hx : x ∈ xs) : ∃ y ∈ ys, P x y := by
  induction h with
  | nil => simp at hx
  | cons h1 h2 ih =>
    rcases List.mem_cons.mp hx with rfl | hx
    · exact ⟨_, by simp, h1⟩
    · obtain ⟨y, hy, hp⟩ := ih hx
      exact ⟨y, by simp [hy], hp⟩

/-- C22.  Any non-empty list of threads (repetitions allowed) which start from the
whole prior can be combined.  The run has the samples of all threads, ascending.
Live counts: there are distinct positions `ends`, one for the end of each thread,
such that `nlive[i]` is the number of them at or after position `i`.  So the count
is between the number of threads ending above `logl[i]` and the number ending at or
above it, is at least 1, and is 1 at the last sample. -/
theorem C22_static {A : Argsort K} {threads : List (Run K)} {tmm : List (WithBot K × K)} (abp : Bool)
    (h0 : threads ≠ []) (hT : List.Forall₂ (fun t p => IsThread t p.1 p.2) threads tmm)
    (hdim : SameDim (threads.flatMap (·.theta))) (hs : ∀ p ∈ tmm, p.1 = ⊥) :
    ∃ run : Run K, (∀ w : World σ, combineThreads A R threads abp w = (.ok run, w)) ∧
      (run.logl.zip run.theta).Perm (threads.flatMap (fun t => t.logl.zip t.theta)) ∧
      run.logl.Pairwise (· ≤ ·) ∧ run.theta.length = run.logl.length ∧
      run.nlive.length = run.logl.length ∧ ThreadsUsable run ∧
      (∃ ends : List Nat, ends.Nodup ∧ (∀ k ∈ ends, k < run.logl.length) ∧
        (ends.filterMap (fun k => run.logl[k]?)).Perm (tmm.map (·.2)) ∧
        ∀ i < run.logl.length, run.nlive[i]? = some (ends.countP (fun k => decide (i ≤ k)) : Int)) ∧
      (∀ (i : Nat) (l : K) (n : Int), run.logl[i]? = some l → run.nlive[i]? = some n →
        1 ≤ n ∧ (tmm.countP (fun p => decide (l < p.2)) : Int) ≤ n ∧
        n ≤ tmm.countP (fun p => decide (l ≤ p.2))) ∧
      run.nlive.getLast? = some 1 := by
  obtain ⟨rows, nl, h1, h2, ⟨rows0, r1, r2, r3, r4⟩, h3, ends, e1, e2, e3, e4, e5⟩ :=
    combineThreads_static R (A := A) (abp := abp) h0 hT hdim hs (σ := σ)
  obtain ⟨m1, m2, m3⟩ := finishThreads_members (rows := rows) (nl := nl) (tmm := tmm)
  have hsort : (rows.map (·.logl)).Pairwise (· ≤ ·) := by rw [List.pairwise_map]; exact h2
  have hgather : ends.filterMap (fun k => (rows.map (·.logl))[k]?) = (gather rows ends).map (·.logl) := by
    rw [← gather_map]; rfl
  have hends : (ends.filterMap (fun k => (rows.map (·.logl))[k]?)).Perm (tmm.map (·.2)) := by
    rw [hgather]; exact e3
  have hne : rows ≠ [] := by
    rintro rfl
    obtain ⟨t, ts, rfl⟩ := List.exists_cons_of_ne_nil h0
    cases hT with
    | cons hh _ =>
      have h0' : rows0 = [] := r4.nil_eq.symm
      rw [h0', List.map_nil, List.flatMap_cons] at r1
      exact hh.nonempty (List.append_eq_nil_iff.mp r1.symm).1
  have hpos : 0 < rows.length := List.length_pos_iff.mpr hne
  have hone : ∀ i < rows.length, 1 ≤ ends.countP (fun k => decide (i ≤ k)) := by
    intro i hi
    rw [Nat.succ_le_iff, List.countP_pos_iff]
    by_cases hmem : i ∈ ends
    · exact ⟨i, hmem, by simp⟩
    · obtain ⟨k', hk', hlt, -⟩ := e4 i _ (List.getElem?_eq_getElem hi) hmem
      exact ⟨k', hk', by simpa using hlt.le⟩
  refine ⟨finishThreads (runOfRows rows nl tmm), h1, ?_, ?_, ?_, ?_, finishThreads_usable h2 h3, ?_, ?_, ?_⟩
  · rw [m1, m3, List.zip_map', ← perm_zip_of_rows r1 r3 (fun t ht => by
      obtain ⟨p, -, hp⟩ := forall₂_left hT ht; exact hp.theta_len)]
    exact r4.map _
  · rw [m1]; exact hsort
  · rw [m1, m3]; simp
  · rw [m1, m2]; simp [h3]
  · rw [m1, m2]
    exact ⟨ends, e1, by simpa using e2, hends, by simpa using e5⟩
  · rw [m1, m2]
    intro i l n hl hn
    have hi : i < rows.length := by simpa using (List.getElem?_eq_some_iff.mp hl).1
    rw [e5 i hi] at hn
    cases hn
    have hcount : ∀ q : K → Bool, tmm.countP (fun p => q p.2) =
        ends.countP (fun k => ((rows.map (·.logl))[k]?.map q).getD false) := by
      intro q
      have := hends.countP_eq q
      rw [List.countP_filterMap, List.countP_map] at this
      rw [this]; rfl
    refine ⟨by have := hone i hi; omega, ?_, ?_⟩
    · rw [hcount (fun x => decide (l < x))]
      have : ends.countP (fun k => ((rows.map (·.logl))[k]?.map (fun x => decide (l < x))).getD false) ≤
          ends.countP (fun k => decide (i ≤ k)) := by
        apply List.countP_mono_left
        intro k _ hk
        rw [decide_eq_true_iff]
        by_contra hc
        cases hkl : (rows.map (·.logl))[k]? with
        | none => rw [hkl] at hk; simp at hk
        | some x =>
          rw [hkl] at hk
          simp at hk
          exact absurd (pairwise_iff_getElem?.mp hsort k i x l (by omega) hkl hl) (not_le.mpr hk)
      omega
    · rw [hcount (fun x => decide (l ≤ x))]
      have : ends.countP (fun k => decide (i ≤ k)) ≤
          ends.countP (fun k => ((rows.map (·.logl))[k]?.map (fun x => decide (l ≤ x))).getD false) := by
        apply List.countP_mono_left
        intro k hk hik
        rw [decide_eq_true_iff] at hik
        have hkl : k < (rows.map (·.logl)).length := by simpa using e2 k hk
        have hg := List.getElem?_eq_getElem hkl
        rw [hg]
        simp only [Option.map_some, Option.getD_some, decide_eq_true_eq]
        rcases Nat.lt_or_eq_of_le hik with h | rfl
        · exact pairwise_iff_getElem?.mp hsort i k l _ h hl hg
        · rw [hl] at hg; exact (Option.some.inj hg).le
      omega
  · rw [m2, List.getLast?_eq_getElem?, h3, e5 _ (by omega)]
    have h5 := hone (rows.length - 1) (by omega)
    have h6 : ends.countP (fun k => decide (rows.length - 1 ≤ k)) ≤ ends.countP (fun k => k == rows.length - 1) := by
      apply List.countP_mono_left
      intro k hk hle
      have := e2 k hk
      simp at hle ⊢
      omega
    have h7 := List.nodup_iff_count_le_one.mp e1 (rows.length - 1)
    rw [List.count] at h7
    have h8 : ends.countP (fun k => decide (rows.length - 1 ≤ k)) = 1 := by omega
    rw [h8]; rfl

/-- C23.  Threads with pairwise different sample logls can be combined whenever each
finite starting contour is the logl of a sample other than the lowest (with or
without `assert_birth_point`), and then the live count at each sample is the number
of threads which start below it and end at or above it. -/
theorem C23_dynamic {A : Argsort K} {threads : List (Run K)} {tmm : List (WithBot K × K)} (abp : Bool)
    (h0 : threads ≠ []) (hT : List.Forall₂ (fun t p => IsThread t p.1 p.2) threads tmm)
    (hdim : SameDim (threads.flatMap (·.theta)))
    (hnd : (threads.flatMap (·.logl)).Nodup)
    (hb : ∀ p ∈ tmm, ∀ s : K, p.1 = (s : WithBot K) → s ∈ threads.flatMap (·.logl) ∧
      ∃ l ∈ threads.flatMap (·.logl), l < s) :
    ∃ run : Run K, (∀ w : World σ, combineThreads A R threads abp w = (.ok run, w)) ∧
      (run.logl.zip run.theta).Perm (threads.flatMap (fun t => t.logl.zip t.theta)) ∧
      run.logl.Pairwise (· < ·) ∧ run.theta.length = run.logl.length ∧
      run.nlive.length = run.logl.length ∧ ThreadsUsable run ∧
      ∀ (i : Nat) (l : K), run.logl[i]? = some l → run.nlive[i]? =
        some (tmm.countP (fun p => decide (p.1 < (l : WithBot K) ∧ l ≤ p.2)) : Int) := by
  obtain ⟨rows, nl, h1, h2, ⟨rows0, r1, r2, r3, r4⟩, h3, h4⟩ :=
    combineThreads_dynamic R (A := A) (abp := abp) h0 hT hdim hnd hb (σ := σ)
  obtain ⟨m1, m2, m3⟩ := finishThreads_members (rows := rows) (nl := nl) (tmm := tmm)
  refine ⟨finishThreads (runOfRows rows nl tmm), h1, ?_, ?_, ?_, ?_,
    finishThreads_usable (h2.imp le_of_lt) h3, ?_⟩
  · rw [m1, m3, List.zip_map', ← perm_zip_of_rows r1 r3 (fun t ht => by
      obtain ⟨p, -, hp⟩ := forall₂_left hT ht; exact hp.theta_len)]
    have := r4.map (fun q => (q.1, q.2.2))
    rwa [List.map_map, List.map_map] at this
  · rw [m1, List.pairwise_map]; exact h2
  · rw [m1, m3]; simp
  · rw [m1, m2]; simp [h3]
  · rw [m1, m2]
    intro i l hl
    rw [List.getElem?_map, Option.map_eq_some_iff] at hl
    obtain ⟨r, hr, rfl⟩ := hl
    exact h4 i r hr

theorem map3_eq {α β γ δ : Type} {f : α → β} {g : α → γ} {h : α → δ} {xs ys : List α}
    (h1 : xs.map f = ys.map f) (h2 : xs.map g = ys.map g) (h3 : xs.map h = ys.map h) :
    xs.map (fun a => (f a, g a, h a)) = ys.map (fun a => (f a, g a, h a)) := by
  have e : ∀ zs : List α, zs.map (fun a => (f a, g a, h a)) =
      (zs.map f).zip ((zs.map g).zip (zs.map h)) := by
    intro zs; rw [List.zip_map', List.zip_map']
  rw [e, e, h1, h2, h3]

/-- The runs which `combine_threads` reproduces from their threads: documented
format, distinct logls, every thread starting strictly below its first sample and
from the whole prior or on a sample other than the lowest, and live counts equal to
the number of threads present. -/
structure Spec.Recombinable (r : Run K) (labels : List Int) (tmm : List (WithBot K × K)) : Prop
    extends ValidWith r labels tmm where
  distinct : Distinct r.logl
  dim : SameDim r.theta
  born : ∀ (k : Nat) (mm : WithBot K × K), tmm[k]? = some mm →
    ∀ l ∈ pick labels k r.logl, mm.1 < (l : WithBot K)
  starts : ∀ mm ∈ tmm, ∀ s : K, mm.1 = (s : WithBot K) → s ∈ r.logl ∧ r.logl[0]? ≠ some s
  live : ∀ (i : Nat) (l : K), r.logl[i]? = some l → r.nlive[i]? =
    some (tmm.countP (fun p => decide (p.1 < (l : WithBot K) ∧ l ≤ p.2)) : Int)

/-- C18.  Splitting such a run into threads and combining them gives the run itself,
in every member, and has no other effect. -/
theorem C18_split_combine {A : Argsort K} {r : Run K} {labels : List Int}
    {tmm : List (WithBot K × K)} (h : Recombinable r labels tmm) (abp : Bool) (w : World σ) :
    (getRunThreads r >>= fun ts => combineThreads A R ts abp) w = (.ok r, w) := by
  have hv := h.toValidWith
  obtain ⟨hl, ht, h1, h2, h3, hs, hok⟩ := validWith_iff.mp hv
  obtain ⟨q1, q2, q3⟩ := (threadsOK_iff_pick hs h2).mp hok
  have hstrict : r.logl.Pairwise (· < ·) := by
    rw [pairwise_iff_getElem?]
    intro i j x y hij hx hy
    exact lt_of_le_of_ne (h.sorted i j x y hij hx hy) (h.distinct i j x y hij hx hy)
  have hne : tmm ≠ [] := by
    obtain ⟨p, hp, -⟩ := q2; exact List.ne_nil_of_mem hp
  have hlne : r.logl ≠ [] := by
    obtain ⟨mm, hmm⟩ := List.exists_mem_of_ne_nil _ hne
    obtain ⟨k, hk⟩ := List.mem_iff_getElem?.mp hmm
    obtain ⟨i, -, hi⟩ := mem_pick.mp (q3 k mm hk).2
    exact List.ne_nil_of_mem (List.mem_of_getElem? hi)
  obtain ⟨rowsR, -, a1, a2, -, a4⟩ := arrayGivenRun_ok hl h2 h1 h3 hlne
  set ts : List (Run K) := (List.range tmm.length).map (fun k : Nat =>
      threadRun (pick labels k r.logl) (pick labels k r.theta) k (tmm.getD k (⊥, 0))) with hts
  rw [M.bind_ok (getRunThreads_ok hv w), ← hts]
  have hpl : labels.length = rowsR.length := by
    have := congrArg List.length a2; simpa using this.symm
  have hperm : ((List.range tmm.length).flatMap (fun k : Nat => pick labels (k : Int) rowsR)).Perm rowsR :=
    pick_perm (fun k hk => (q1 k).mp hk) hpl
  have f1 : ts.flatMap (·.logl) =
      ((List.range tmm.length).flatMap (fun k : Nat => pick labels (k : Int) rowsR)).map (·.logl) := by
    rw [hts, List.flatMap_map, List.map_flatMap]
    apply List.flatMap_congr
    intro k _
    simp only [threadRun]
    rw [← pick_map, a1]
  have f3 : ts.flatMap (·.theta) =
      ((List.range tmm.length).flatMap (fun k : Nat => pick labels (k : Int) rowsR)).map (·.theta) := by
    rw [hts, List.flatMap_map, List.map_flatMap]
    apply List.flatMap_congr
    intro k _
    simp only [threadRun]
    rw [← pick_map, a4]
  have f2 : ts.flatMap labelColumn =
      ((List.range tmm.length).flatMap (fun k : Nat => pick labels (k : Int) rowsR)).map (·.label) := by
    rw [hts, List.flatMap_map, List.map_flatMap]
    apply List.flatMap_congr
    intro k _
    simp only [threadRun, labelColumn]
    rw [← a1, pick_map, List.length_map, List.map_replicate, eq_comm, List.eq_replicate_iff]
    refine ⟨by simp, ?_⟩
    intro b hb
    obtain ⟨x, hx, rfl⟩ := List.mem_map.mp hb
    obtain ⟨i, hi, hxi⟩ := mem_pick.mp hx
    have : (rowsR.map (·.label))[i]? = some x.label := by rw [List.getElem?_map, hxi]; rfl
    rw [a2, List.getElem?_map, hi] at this
    simpa using this.symm
  have hT : List.Forall₂ (fun t p => IsThread t p.1 p.2) ts tmm := by
    rw [List.forall₂_iff_get]
    refine ⟨by simp [hts], ?_⟩
    intro k hk1 hk2
    have hmm : tmm[k]? = some tmm[k] := List.getElem?_eq_getElem hk2
    simp only [hts, List.get_eq_getElem, List.getElem_map, List.getElem_range]
    have hsub : (pick labels k r.logl).Pairwise (· < ·) := hstrict.sublist pick_sublist
    have hgd : tmm.getD k (⊥, 0) = tmm[k] := by rw [List.getD_eq_getElem?_getD, hmm]; rfl
    refine ⟨List.ne_nil_of_mem (q3 k _ hmm).2, pairwise_iff_getElem?.mp hsub, rfl, ?_, ?_, ?_, ?_, ?_⟩
    · simp only [threadRun]
      rw [length_pick (by rw [h2, h3]), length_pick (by rw [h2])]
    · intro ls hls
      simp only [threadRun, Option.some.injEq] at hls
      rw [← hls]; simp [threadRun]
    · simp only [threadRun]; rw [hgd]
    · simp only [threadRun]
      exact getLast?_sorted (hsub.imp le_of_lt) (q3 k _ hmm).2 (fun x hx => ((q3 k _ hmm).1 x hx).2)
    · intro l hl'
      exact h.born k _ hmm l hl'
  have hmemL : ∀ l, l ∈ ts.flatMap (·.logl) ↔ l ∈ r.logl := by
    intro l; rw [f1, (hperm.map _).mem_iff, a1]
  obtain ⟨rows, nl, c1, c2, ⟨rows0, r1, r2, r3, r4⟩, c3, c4⟩ :=
    combineThreads_dynamic R (A := A) (abp := abp) (threads := ts) (tmm := tmm) (σ := σ)
      (by rw [hts]; simpa using hne) hT
      (by
        rw [f3]
        intro s hs' t ht'
        rw [(hperm.map _).mem_iff, a4] at hs' ht'
        exact h.dim s hs' t ht')
      (by rw [f1, (hperm.map _).nodup_iff, a1]; exact hstrict.imp ne_of_lt)
      (by
        intro p hp s hps
        obtain ⟨s1, s2⟩ := h.starts p hp s hps
        rw [hmemL]
        refine ⟨s1, ?_⟩
        obtain ⟨x, xs, hx⟩ := List.exists_cons_of_ne_nil hlne
        refine ⟨x, by rw [hmemL, hx]; simp, ?_⟩
        rw [hx] at s1 s2 hstrict
        rcases List.mem_cons.mp s1 with rfl | s1
        · simp at s2
        · exact List.rel_of_pairwise_cons hstrict s1)
  rw [c1 w]
  -- the rows are those of the run
  have htrip : rows.map (fun r => (r.logl, r.label, r.theta)) =
      rowsR.map (fun r => (r.logl, r.label, r.theta)) := by
    have hp2 : (rows.map (fun r => (r.logl, r.label, r.theta))).Perm
        (rowsR.map (fun r => (r.logl, r.label, r.theta))) := by
      refine r4.trans ?_
      rw [map3_eq (r1.trans f1) (r2.trans f2) (r3.trans f3)]
      exact hperm.map _
    refine hp2.eq_of_pairwise (le := fun a b => a.1 < b.1)
      (fun a b _ _ h1 h2 => absurd h1 (lt_asymm h2)) ?_ ?_
    · rw [List.pairwise_map]; exact c2
    · rw [List.pairwise_map]
      have : (rowsR.map (·.logl)).Pairwise (· < ·) := by rw [a1]; exact hstrict
      rwa [List.pairwise_map] at this
  have g1 : rows.map (·.logl) = r.logl := by
    have := congrArg (List.map (·.1)) htrip
    rw [List.map_map, List.map_map] at this
    exact this.trans a1
  have g2 : rows.map (·.label) = labels.map some := by
    have := congrArg (List.map (·.2.1)) htrip
    rw [List.map_map, List.map_map] at this
    exact this.trans a2
  have g3 : rows.map (·.theta) = r.theta := by
    have := congrArg (List.map (·.2.2)) htrip
    rw [List.map_map, List.map_map] at this
    exact this.trans a4
  have hrl : rows.length = r.logl.length := by rw [← g1, List.length_map]
  have g4 : nl = r.nlive := by
    apply List.ext_getElem?
    intro i
    by_cases hi : i < rows.length
    · have hg := List.getElem?_eq_getElem hi
      rw [c4 i _ hg, h.live i rows[i].logl]
      rw [← g1, List.getElem?_map, hg]; rfl
    · rw [List.getElem?_eq_none (by omega), List.getElem?_eq_none (by omega)]
  have hrun : runOfRows rows nl tmm = r := by
    unfold runOfRows
    rw [g1, g2, g3, g4, allSome_map_some, ← hl, ← ht]
  rw [hrun]
  unfold finishThreads
  rw [(checkThreads_iff hl ht h2).mpr hok]

/-! ### C10 for `combine_threads` -/

theorem Spec.RngIndependent.seeded {α β : Type} {x : M σ α} {f : α → M σ β} (seed : Nat)
    (hf : ∀ a, RngIndependent (f a)) :
    RngIndependent (M.getState >>= fun st => npSeed R seed >>= fun _ => x >>= fun a =>
      M.setState st >>= fun _ => f a) := by
  intro s s' ws
  simp only [M.bind_apply, M.getState_apply, npSeed, M.setState_apply]
  rcases x ⟨R.seed seed, ws⟩ with ⟨x1, s1, ws1⟩
  cases x1 with
  | error e => exact ⟨rfl, rfl⟩
  | ok a => exact hf a s s' ws1

theorem Spec.RngRestored.seeded {α β : Type} {x : M σ α} {f : α → M σ β} (seed : Nat)
    (hf : ∀ a, RngRestored (f a)) :
    RngRestored (M.getState >>= fun st => npSeed R seed >>= fun _ => x >>= fun a =>
      M.setState st >>= fun _ => f a) := by
  intro w b w' h
  simp only [M.bind_apply, M.getState_apply, npSeed, M.setState_apply] at h
  rcases hx : x ⟨R.seed seed, w.warns⟩ with ⟨x1, s1, ws1⟩
  rw [hx] at h
  cases x1 with
  | error e => simp at h
  | ok a =>
    have := hf a ⟨w.rng, ws1⟩ b w' h
    exact this

theorem rngIndependent_dict (rows : List (Row K)) (tmm : List (WithBot K × K)) :
    RngIndependent (dictGivenRunArray rows tmm : M σ (Run K)) := by
  unfold dictGivenRunArray
  dsimp only
  split
  · exact .raise _
  · exact .bind (.assert _) fun _ => .bind (.ite (.bind (.warn _) fun _ => .pure _) (.pure _)) fun _ =>
      .bind (.assert _) fun _ => .bind (.assert _) fun _ => .pure _

theorem rngRestored_dict (rows : List (Row K)) (tmm : List (WithBot K × K)) :
    RngRestored (dictGivenRunArray rows tmm : M σ (Run K)) := by
  unfold dictGivenRunArray
  dsimp only
  split
  · exact .raise _
  · exact .bind (.assert _) fun _ => .bind (.ite (.bind (.warn _) fun _ => .pure _) (.pure _)) fun _ =>
      .bind (.assert _) fun _ => .bind (.assert _) fun _ => .pure _

/-- C10 for `combine_threads`: a call that returns leaves numpy's random state as it
was, and its result does not depend on that state. -/
theorem C10_combine_threads (A : Argsort K) (threads : List (Run K)) (abp : Bool) :
    RngRestored (combineThreads A R threads abp) ∧
    RngIndependent (combineThreads A R threads abp) := by
  constructor
  · refine .bind (.lift _) fun tmm => .bind (.assert _) fun _ => .bind (.lift _) fun arrs =>
      .bind (.lift _) fun rows => .seeded R 0 fun rows => .bind (rngRestored_dict _ _) fun run => ?_
    split
    · exact .pure _
    · exact .pure _
    · exact .raise _
  · refine .bind (.lift _) fun tmm => .bind (.assert _) fun _ => .bind (.lift _) fun arrs =>
      .bind (.lift _) fun rows => .seeded R 0 fun rows => .bind (rngIndependent_dict _ _) fun run => ?_
    split
    · exact .pure _
    · exact .pure _
    · exact .raise _

section examples

/-- A dynamic run of three threads: two from the whole prior and one started on the
second sample. -/
def exDynamic : Run ℤ :=
  { logl := [3, 5, 7, 8, 9, 12], nlive := [2, 2, 3, 2, 2, 1],
    theta := [[2], [1], [3], [4], [5], [6]], labels := some [0, 1, 0, 2, 1, 2],
    tmm := some [(⊥, 7), (⊥, 9), ((5 : ℤ), 12)] }

theorem exDynamic_valid : ValidWith exDynamic [0, 1, 0, 2, 1, 2] [(⊥, 7), (⊥, 9), ((5 : ℤ), 12)] :=
  validWith_iff.mpr ⟨rfl, rfl, rfl, rfl, rfl, by decide,
    (checkThreads_iff (r := exDynamic) rfl rfl rfl).mp (by decide)⟩

theorem exDynamic_recombinable :
    Recombinable exDynamic [0, 1, 0, 2, 1, 2] [(⊥, 7), (⊥, 9), ((5 : ℤ), 12)] where
  toValidWith := exDynamic_valid
  distinct := by
    intro i j x y hij hx hy
    exact ne_of_lt ((pairwise_iff_getElem? (R := (· < ·))).mp (show exDynamic.logl.Pairwise (· < ·) by decide)
      i j x y hij hx hy)
  dim := by unfold SameDim; decide
  born := by
    intro k mm h
    have : k < 3 := (List.getElem?_eq_some_iff.mp h).1
    interval_cases k <;> (simp only [List.getElem?_cons_zero, List.getElem?_cons_succ, Option.some.injEq] at h; subst h; decide)
  starts := by
    intro mm hmm s hs
    fin_cases hmm
    · simp at hs
    · simp at hs
    · have : s = 5 := by simpa using hs.symm
      subst this; decide
  live := by
    intro i l h
    have hi : i < 6 := (List.getElem?_eq_some_iff.mp h).1
    interval_cases i <;> (simp only [exDynamic, List.getElem?_cons_zero, List.getElem?_cons_succ, Option.some.injEq] at h; subst h; decide)

example (s : Nat) : (getRunThreads exDynamic >>= fun ts =>
    combineThreads (stableSort ℤ) (counterRng ℤ (by decide)) ts true) ⟨s, []⟩ = (.ok exDynamic, ⟨s, []⟩) := by
  rfl

/-- C17: the threads of `exDynamic`. -/
def exThreads : List (Run ℤ) :=
  [{ logl := [3, 7], nlive := [1, 1], theta := [[2], [3]], labels := some [0, 0], tmm := some [(⊥, 7)] },
   { logl := [5, 9], nlive := [1, 1], theta := [[1], [5]], labels := some [1, 1], tmm := some [(⊥, 9)] },
   { logl := [8, 12], nlive := [1, 1], theta := [[4], [6]], labels := some [2, 2],
     tmm := some [((5 : ℤ), 12)] }]

example (s : Nat) : getRunThreads exDynamic ⟨s, []⟩ = (.ok exThreads, ⟨s, []⟩) := by rfl

/-- C23: `exThreads` meet the hypotheses of `C23_dynamic`. -/
example : List.Forall₂ (fun t p => IsThread t p.1 p.2) exThreads
    ([(⊥, 7), (⊥, 9), ((5 : ℤ), 12)] : List (WithBot ℤ × ℤ)) := by
  refine .cons ?_ (.cons ?_ (.cons ?_ .nil)) <;>
  exact ⟨by decide, (pairwise_iff_getElem? (R := (· < ·))).mp (by decide), rfl, rfl,
    by intro ls h; obtain rfl := Option.some.inj h; rfl, rfl, rfl, by decide⟩

/-- C22: a bootstrap style list with a repeated thread. -/
example (s : Nat) : combineThreads (stableSort ℤ) (counterRng ℤ (by decide))
    (exThreads.take 2 ++ exThreads.take 1) true ⟨s, []⟩ =
    (.ok { logl := [3, 3, 5, 7, 7, 9], nlive := [3, 3, 3, 3, 2, 1],
           theta := [[2], [2], [1], [3], [3], [5]], labels := none, tmm := none }, ⟨s, []⟩) := by rfl

/-- C18, what fails.  A run which `process_samples_array` itself produces from consistent
samples, and which `check_ns_run` accepts, but in which one thread was born on the
lowest sample: splitting it into threads and combining them raises an AssertionError,
since the birth is counted both in the first live count and as a change. -/
theorem C18_lowest_birth_fails (s : Nat) :
    processSamples (stableSort ℤ) (counterRng ℤ (by decide)) exSamples true false
      ⟨s, []⟩ = (.ok exProcessed, ⟨s, []⟩) ∧
    checkRun (stableSort ℤ) exProcessed true false (⟨s, []⟩ : World Nat) = (.ok (), ⟨s, []⟩) ∧
    ((getRunThreads exProcessed >>= fun ts =>
      combineThreads (stableSort ℤ) (counterRng ℤ (by decide)) ts true) ⟨s, []⟩).1 =
        .error .assertion := ⟨rfl, rfl, rfl⟩

/-- C22, the hypothesis that threads ascend strictly is needed: with two equal samples
at the end of one thread, an argsort which puts the last of them first makes the live count zero
before the end. -/
theorem C22_ties_fail : ∃ A : Argsort ℤ, ∀ s : Nat,
    (combineThreads A (counterRng ℤ (by decide))
      [{ logl := [3, 3], nlive := [1, 1], theta := [[2], [3]], labels := some [0, 0], tmm := some [(⊥, 3)] }]
      true ⟨s, []⟩).1 = .error .assertion := by
  exact ⟨antistableSort ℤ, fun s => rfl⟩

/-- C10, what fails: an exception in `combine_threads` between the seeding and the
restoration of the state leaves numpy's generator seeded with 0. -/
theorem C10_combine_leak_on_error : ∃ ts : List (Run ℤ), ¬ ∀ s : Nat,
    (combineThreads (stableSort ℤ) (counterRng ℤ (by decide)) ts true ⟨s, []⟩).2.rng = s :=
  ⟨exThreads.drop 2, fun h => absurd (h 41) (by decide)⟩

end examples
end Nestcheck
