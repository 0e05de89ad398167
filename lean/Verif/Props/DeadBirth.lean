import Verif.Model.DeadBirth
import Verif.Proofs.CombineRuns
import Verif.Props.Combine
import Verif.Props.Process

/-
C15, C16: dead-birth arrays of runs.
-/

set_option linter.unusedSectionVars false

namespace Nestcheck
open Spec
variable {σ K : Type} [CommRing K] [LinearOrder K] (R : Rng σ K)

theorem countP_eq_sum {α : Type} (p : α → Bool) (xs : List α) :
    xs.countP p = (xs.map (fun x => if p x = true then 1 else 0)).sum := by
  induction xs with
  | nil => rfl
  | cons x xs ih => rw [List.countP_cons, List.map_cons, List.sum_cons, ih, Nat.add_comm]

theorem pick_cons {α : Type} {l : Int} {ls : List Int} {k : Int} {x : α} {xs : List α} :
    pick (l :: ls) k (x :: xs) = if l = k then x :: pick ls k xs else pick ls k xs := by
  unfold pick
  rw [List.zip_cons_cons, List.filter_cons]
  by_cases h : l = k <;> simp [h]

theorem pick_head {α : Type} {labels : List Int} {k : Int} {xs : List α} {a : α}
    (h : (pick labels k xs)[0]? = some a) : ∃ i, FirstOf labels k i ∧ xs[i]? = some a := by
  induction labels generalizing xs with
  | nil => simp [pick] at h
  | cons l ls ih =>
    cases xs with
    | nil => simp [pick] at h
    | cons x xs =>
      rw [pick_cons] at h
      by_cases hl : l = k
      · rw [if_pos hl] at h
        exact ⟨0, ⟨by simp [hl], by intro j hj; omega⟩, by simpa using h⟩
      · rw [if_neg hl] at h
        obtain ⟨i, ⟨h1, h2⟩, h3⟩ := ih h
        refine ⟨i + 1, ⟨by simpa using h1, ?_⟩, by simpa using h3⟩
        intro j hj
        cases j with
        | zero => simpa using hl
        | succ j => simpa using h2 j (by omega)

theorem consecutive_succ {labels : List Int} {l : Int} {i j : Nat} (h : Consecutive labels i j) :
    Consecutive (l :: labels) (i + 1) (j + 1) := by
  obtain ⟨h1, k, h2, h3, h4⟩ := h
  refine ⟨by omega, k, by simpa using h2, by simpa using h3, ?_⟩
  intro m hm1 hm2
  cases m with
  | zero => omega
  | succ m => simpa using h4 m (by omega) (by omega)

theorem pick_consec {α : Type} {labels : List Int} {k : Int} {xs : List α} {a b : α} {j : Nat}
    (ha : (pick labels k xs)[j]? = some a) (hb : (pick labels k xs)[j + 1]? = some b) :
    ∃ i i', Consecutive labels i i' ∧ xs[i]? = some a ∧ xs[i']? = some b := by
  induction labels generalizing xs j with
  | nil => simp [pick] at ha
  | cons l ls ih =>
    cases xs with
    | nil => simp [pick] at ha
    | cons x xs =>
      rw [pick_cons] at ha hb
      by_cases hl : l = k
      · rw [if_pos hl] at ha hb
        cases j with
        | zero =>
          obtain ⟨i, ⟨h1, h2⟩, h3⟩ := pick_head (by simpa using hb : (pick ls k xs)[0]? = some b)
          refine ⟨0, i + 1, ⟨by omega, k, by simp [hl], by simpa using h1, ?_⟩, by simpa using ha,
            by simpa using h3⟩
          intro m hm1 hm2
          cases m with
          | zero => omega
          | succ m => simpa using h2 m (by omega)
        | succ j =>
          obtain ⟨i, i', h1, h2, h3⟩ := ih (by simpa using ha) (by simpa using hb)
          exact ⟨i + 1, i' + 1, consecutive_succ h1, by simpa using h2, by simpa using h3⟩
      · rw [if_neg hl] at ha hb
        obtain ⟨i, i', h1, h2, h3⟩ := ih ha hb
        exact ⟨i + 1, i' + 1, consecutive_succ h1, by simpa using h2, by simpa using h3⟩

/-- The rows of one thread in closed form. -/
def chain (loglInit : K) (start : WithBot K) (theta : List (List K)) (logl : List K) : List (Sample K) :=
  List.zipWith (fun th (p : K × K) => ⟨th, p.1, p.2⟩) theta
    (logl.zip (firstBirth loglInit start :: logl.dropLast))

theorem threadSamples_threadRun {loglInit : K} {logl : List K} {theta : List (List K)} {k : Int}
    {mm : WithBot K × K} (h1 : theta.length = logl.length) (h2 : logl ≠ []) :
    threadSamples loglInit (threadRun logl theta k mm) = .ok (chain loglInit mm.1 theta logl) := by
  obtain ⟨a, b⟩ := mm
  simp [threadSamples, threadRun, h1, h2, chain]

theorem threadSamplesLoop_map {loglInit : K} {α : Type} (f : α → Run K) (g : α → List (Sample K)) (ks : List α)
    (h : ∀ k ∈ ks, threadSamples loglInit (f k) = .ok (g k)) :
    threadSamplesLoop loglInit (ks.map f) = .ok (ks.map g) := by
  induction ks with
  | nil => rfl
  | cons k ks ih =>
    rw [List.map_cons, threadSamplesLoop, h k (by simp), ih (fun x hx => h x (by simp [hx]))]
    rfl

/-- `run_dead_birth_array` of a valid run with distinct logls. -/
theorem runDeadBirth_ok {A : Argsort K} {r : Run K} {labels : List Int} {tmm : List (WithBot K × K)}
    (hv : ValidWith r labels tmm) (hs : r.logl.Pairwise (· < ·)) (loglInit : K) (da dw : Bool) (w : World σ) :
    runDeadBirth A r loglInit da dw w = (.ok (sortBy A (·.logl) ((List.range tmm.length).flatMap
      (fun k : Nat => chain loglInit (tmm.getD k (⊥, 0)).1 (pick labels k r.theta) (pick labels k r.logl)))), w) := by
  obtain ⟨hl, ht, h1, h2, h3, hs', hok⟩ := validWith_iff.mp hv
  obtain ⟨q1, q2, q3⟩ := (threadsOK_iff_pick hs' h2).mp hok
  have hne : tmm ≠ [] := by obtain ⟨p, hp, -⟩ := q2; exact List.ne_nil_of_mem hp
  unfold runDeadBirth
  rw [M.bind_ok (checkRun_strict ⟨_, _, hv⟩ hs da dw w), M.bind_ok (getRunThreads_ok hv w)]
  have hloop := threadSamplesLoop_map (loglInit := loglInit) (fun k : Nat =>
      threadRun (pick labels k r.logl) (pick labels k r.theta) k (tmm.getD k (⊥, 0)))
      (fun k : Nat => chain loglInit (tmm.getD k (⊥, 0)).1 (pick labels k r.theta) (pick labels k r.logl))
      (List.range tmm.length) (by
        intro k hk
        rw [List.mem_range] at hk
        apply threadSamples_threadRun
        · rw [length_pick (by rw [h2, h3]), length_pick (by rw [h2])]
        · exact List.ne_nil_of_mem (q3 k _ (List.getElem?_eq_getElem hk)).2)
  rw [M.bind_ok (a := _) (w' := w) (by rw [M.lift_apply, hloop]),
    M.bind_ok (a := ()) (w' := w) (by rw [if_neg (by simpa using hne)]; rfl)]
  rw [← List.flatMap_def]
  rfl

theorem chain_eq {loglInit : K} {start : WithBot K} {S : List (Sample K)}
    (h0 : ∀ s, S[0]? = some s → s.birth = firstBirth loglInit start)
    (hc : ∀ (j : Nat) (a b : Sample K), S[j]? = some a → S[j + 1]? = some b → b.birth = a.logl) :
    chain loglInit start (S.map (·.theta)) (S.map (·.logl)) = S := by
  unfold chain
  apply List.ext_getElem
  · simp; omega
  · intro i h1 h2
    simp only [List.getElem_zipWith, List.getElem_map, List.getElem_zip]
    have : (firstBirth loglInit start :: (S.map (·.logl)).dropLast)[i]'(by simp; omega) = S[i].birth := by
      cases i with
      | zero => simpa using (h0 _ (List.getElem?_eq_getElem h2)).symm
      | succ i =>
        simpa using (hc i _ _ (List.getElem?_eq_getElem (by omega)) (List.getElem?_eq_getElem h2)).symm
    rw [this]

/-- C15.  The dead-birth array of the run made from a consistent dead-birth array is
that array, sorted by logl. -/
theorem C15_dead_birth_roundtrip {samples : List (Sample K)} {init : K} (hc : Consistent samples init)
    (A : Argsort K) (da dw da' dw' : Bool) (w : World σ) :
    (processSamples A R samples da dw >>= fun r => runDeadBirth A r init da' dw') w =
      (.ok (sortBy A (·.logl) samples), w) := by
  obtain ⟨r, labels, tmm, h1, h2, h3, h4, h5, h6, h7, -, h8, h9, h10, h11, h12⟩ :=
    process_consistent R hc A da dw (σ := σ)
  obtain ⟨hv, -⟩ := C03_valid_lossless R hc A da dw w w (h1 w)
  obtain ⟨labels', tmm', hv⟩ := hv
  have e1 : labels' = labels := by have := hv.labels_eq; rw [h4] at this; exact (Option.some.inj this).symm
  have e2 : tmm' = tmm := by have := hv.tmm_eq; rw [h5] at this; exact (Option.some.inj this).symm
  subst e1 e2
  have hstrict : r.logl.Pairwise (· < ·) := by rw [h2]; exact hc.sorted_strict A
  rw [M.bind_ok (h1 w), runDeadBirth_ok hv hstrict]
  set S := sortBy A (fun s : Sample K => s.logl) samples with hS
  have hSlen : S.length = samples.length := (sortBy_perm A _ samples).length_eq
  have hchain : ∀ k < tmm'.length, chain init (tmm'.getD k (⊥, 0)).1 (pick labels' k r.theta) (pick labels' k r.logl) =
      pick labels' k S := by
    intro k hk
    have hgd : tmm'.getD k (⊥, 0) = tmm'[k] := by
      rw [List.getD_eq_getElem?_getD, List.getElem?_eq_getElem hk]; rfl
    rw [hgd, h2, h3, pick_map, pick_map]
    apply chain_eq
    · intro s hs
      obtain ⟨i, hi, hsi⟩ := pick_head hs
      have := h10 k i s _ hi (List.getElem?_eq_getElem hk) hsi
      rw [this]
      by_cases hb : s.birth = init
      · rw [if_pos hb, hb]; rfl
      · rw [if_neg hb]; rfl
    · intro j a b ha hb
      obtain ⟨i, i', hcon, hi, hi'⟩ := pick_consec ha hb
      exact h9 i i' a b hcon hi hi'
  have hflat : (List.range tmm'.length).flatMap (fun k : Nat => chain init (tmm'.getD k (⊥, 0)).1
      (pick labels' k r.theta) (pick labels' k r.logl)) =
      (List.range tmm'.length).flatMap (fun k : Nat => pick labels' k S) := by
    apply List.flatMap_congr
    intro k hk
    exact hchain k (List.mem_range.mp hk)
  rw [hflat]
  have hp : ((List.range tmm'.length).flatMap (fun k : Nat => pick labels' (k : Int) S)).Perm samples :=
    (pick_perm (fun k hk => (h8 k).mp hk) (by rw [h6, hSlen])).trans (sortBy_perm A _ samples)
  rw [sortBy_congr A hp ((hp.map _).nodup_iff.mpr hc.distinct)]

/-- C16, first part.  Processing the dead-birth array of a run made by
`process_samples_array` gives the run again, in every member. -/
theorem C16_processed {samples : List (Sample K)} {init : K} (hc : Consistent samples init)
    (A : Argsort K) (da dw da' dw' : Bool) (w : World σ) {r : Run K} {w' : World σ}
    (h : processSamples A R samples da dw w = (.ok r, w')) :
    (runDeadBirth A r init da' dw' >>= fun s => processSamples A R s da dw) w = (.ok r, w) := by
  obtain ⟨r', h1, -⟩ := C01_nlive_exact R hc A da dw (σ := σ)
  rw [h1 w] at h
  cases h
  have h2 := C15_dead_birth_roundtrip R hc A da dw da' dw' w
  rw [M.bind_ok (h1 w)] at h2
  rw [M.bind_ok h2, ← h1 w]
  have hp := sortBy_perm A (fun s : Sample K => s.logl) samples
  exact C04_row_order R A A hp ((hp.map _).nodup_iff.mpr hc.distinct) da dw w

theorem chain_cons {b : K} {t : List K} {ts : List (List K)} {x : K} {xs : List K} (start : WithBot K) :
    chain b start (t :: ts) (x :: xs) = ⟨t, x, firstBirth b start⟩ :: chain x ⊥ ts xs := by
  unfold chain
  rw [List.zip_cons_cons, List.zipWith_cons_cons]
  congr 2
  cases xs with
  | nil => rfl
  | cons y ys => rfl

theorem chain_map {b : K} {start : WithBot K} {ts : List (List K)} {xs : List K} (h : ts.length = xs.length) :
    (chain b start ts xs).map (·.logl) = xs ∧ (chain b start ts xs).map (·.theta) = ts ∧
    (chain b start ts xs).map (fun s => (s.logl, s.theta)) = xs.zip ts := by
  unfold chain
  refine ⟨?_, ?_, ?_⟩ <;> (apply List.ext_getElem <;> [(simp; omega); (intro i h1 h2; simp)])

/-- Births within a thread. -/
theorem chain_births {b : K} {start : WithBot K} {ts : List (List K)} {xs : List K} (h : ts.length = xs.length)
    (hs : xs.Pairwise (· < ·)) : ∀ s ∈ chain b start ts xs,
      s.birth = firstBirth b start ∨ (s.birth ∈ xs ∧ s.birth < s.logl) := by
  induction xs generalizing ts b start with
  | nil => intro s hs; simp [chain] at hs
  | cons x xs ih =>
    cases ts with
    | nil => simp at h
    | cons t ts =>
      rw [List.pairwise_cons] at hs
      intro s hmem
      rw [chain_cons] at hmem
      rcases List.mem_cons.mp hmem with rfl | hmem
      · exact .inl rfl
      · right
        rcases ih (by simpa using h) hs.2 s hmem with h1 | ⟨h1, h2⟩
        · have hx : s.birth = x := h1
          have hl : s.logl ∈ xs := by
            have := (chain_map (b := x) (start := ⊥) (by simpa using h : ts.length = xs.length)).1
            rw [← this]; exact List.mem_map.mpr ⟨s, hmem, rfl⟩
          rw [hx]; exact ⟨by simp, hs.1 _ hl⟩
        · exact ⟨by simp [h1], h2⟩

/-- A thread has one live point from its start to its end. -/
theorem chain_live {b : K} {start : WithBot K} {ts : List (List K)} {xs : List K} (h : ts.length = xs.length)
    (hs : xs.Pairwise (· < ·)) (hb : ∀ x ∈ xs, firstBirth b start < x) {stop : K} (hl : xs.getLast? = some stop)
    (l : K) : liveAt (chain b start ts xs) l = if firstBirth b start < l ∧ l ≤ stop then 1 else 0 := by
  induction xs generalizing ts b start with
  | nil => simp at hl
  | cons x xs ih =>
    cases ts with
    | nil => simp at h
    | cons t ts =>
      rw [List.pairwise_cons] at hs
      rw [chain_cons, liveAt, List.countP_cons]
      cases xs with
      | nil =>
        have : x = stop := by simpa using hl
        subst this
        have hn : chain x ⊥ ts ([] : List K) = [] := by simp [chain]
        rw [hn]
        simp
      | cons y ys =>
        have hl' : (y :: ys).getLast? = some stop := by rw [← hl]; simp
        have hxs : x < stop := hs.1 stop (List.mem_of_getLast? hl')
        have := ih (b := x) (start := ⊥) (ts := ts) (by simpa using h) hs.2 (fun z hz => hs.1 z hz) hl'
        rw [liveAt] at this
        rw [this]
        have hbx : firstBirth b start < x := hb x (by simp)
        have e : firstBirth x (⊥ : WithBot K) = x := rfl
        rw [e]
        dsimp only
        by_cases h1 : firstBirth b start < l
        · by_cases h2 : l ≤ x
          · have h3 : ¬ x < l := not_lt.mpr h2
            have h4 : l ≤ stop := le_of_lt (lt_of_le_of_lt h2 hxs)
            simp [h1, h2, h3, h4]
          · have h3 : x < l := not_le.mp h2
            simp [h1, h2, h3]
        · have h3 : ¬ x < l := fun hc => h1 (lt_trans hbx hc)
          simp [h1, h3]

/-- The runs whose dead-birth array can be processed: documented format, distinct
logls, threads starting strictly below their first sample, from the whole prior or
on the contour of a sample. -/
structure Spec.Writable (r : Run K) (labels : List Int) (tmm : List (WithBot K × K)) : Prop
    extends ValidWith r labels tmm where
  distinct : Distinct r.logl
  born : ∀ (k : Nat) (mm : WithBot K × K), tmm[k]? = some mm →
    ∀ l ∈ pick labels k r.logl, mm.1 < (l : WithBot K)
  starts : ∀ mm ∈ tmm, ∀ s : K, mm.1 = (s : WithBot K) → s ∈ r.logl

/-- The samples of the dead-birth array, thread by thread. -/
def writtenSamples (r : Run K) (labels : List Int) (tmm : List (WithBot K × K)) (init : K) : List (Sample K) :=
  (List.range tmm.length).flatMap (fun k : Nat =>
    chain init (tmm.getD k (⊥, 0)).1 (pick labels k r.theta) (pick labels k r.logl))

/-- The written samples are those of a process started at `init`, and sorted they are the samples of the run. -/
theorem written_consistent {r : Run K} {labels : List Int} {tmm : List (WithBot K × K)}
    (h : Writable r labels tmm) {init : K} (hi : ∀ l ∈ r.logl, init < l) (A : Argsort K) :
    r.logl.Pairwise (· < ·) ∧ Consistent (writtenSamples r labels tmm init) init ∧
      ((writtenSamples r labels tmm init).map (·.logl)).Perm r.logl ∧
      (sortBy A (fun s : Sample K => s.logl) (writtenSamples r labels tmm init)).map (fun s => (s.logl, s.theta)) =
        r.logl.zip r.theta := by
  unfold writtenSamples
  have hv := h.toValidWith
  obtain ⟨hl, ht, h1, h2, h3, hs, hok⟩ := validWith_iff.mp hv
  obtain ⟨q1, q2, q3⟩ := (threadsOK_iff_pick hs h2).mp hok
  have hstrict : r.logl.Pairwise (· < ·) := by
    rw [pairwise_iff_getElem?]
    intro i j x y hij hx hy
    exact lt_of_le_of_ne (h.sorted i j x y hij hx hy) (h.distinct i j x y hij hx hy)
  set C : Nat → List (Sample K) := fun k => chain init (tmm.getD k (⊥, 0)).1 (pick labels k r.theta)
    (pick labels k r.logl) with hC
  set S := (List.range tmm.length).flatMap C with hS
  have hlenp : ∀ k : Int, (pick labels k r.theta).length = (pick labels k r.logl).length := fun k => by
    rw [length_pick (by rw [h2, h3]), length_pick (by rw [h2])]
  have hz : (S.map (fun s => (s.logl, s.theta))).Perm (r.logl.zip r.theta) := by
    rw [hS, List.map_flatMap]
    have : (fun k : Nat => (C k).map (fun s => (s.logl, s.theta))) =
        fun k : Nat => pick labels k (r.logl.zip r.theta) := by
      funext k
      rw [hC, (chain_map (hlenp k)).2.2, pick_zip (by rw [h2]) (by rw [h2, h3])]
    rw [this]
    exact pick_perm (fun k hk => (q1 k).mp hk) (by rw [List.length_zip, h3, h2]; simp)
  have hlog : (S.map (·.logl)).Perm r.logl := by
    have := hz.map (·.1)
    rwa [List.map_map, List.map_fst_zip (by rw [h3])] at this
  have hsub : ∀ k : Int, (pick labels k r.logl).Pairwise (· < ·) := fun k => hstrict.sublist pick_sublist
  have hgd : ∀ k (hk : k < tmm.length), tmm.getD k (⊥, 0) = tmm[k] := by
    intro k hk; rw [List.getD_eq_getElem?_getD, List.getElem?_eq_getElem hk]; rfl
  have hfb : ∀ k (hk : k < tmm.length), ∀ l ∈ pick labels k r.logl, firstBirth init tmm[k].1 < l := by
    intro k hk l hlm
    have hb := h.born k _ (List.getElem?_eq_getElem hk) l hlm
    cases hst : tmm[k].1 with
    | bot => exact hi l (pick_sublist.subset hlm)
    | coe s => rw [hst] at hb; exact WithBot.coe_lt_coe.mp hb
  have hcons : Consistent S init := by
    refine ⟨?_, ?_, ?_, ?_⟩
    · intro hc
      rw [hc] at hlog
      exact Valid.logl_ne ⟨_, _, hv⟩ hlog.nil_eq.symm
    · exact hlog.nodup_iff.mpr (hstrict.imp ne_of_lt)
    · intro s hsm
      exact hi _ (hlog.mem_iff.mp (List.mem_map.mpr ⟨s, hsm, rfl⟩))
    · intro s hsm
      have hex : ∀ b : K, b ∈ r.logl → ∃ t ∈ S, b = t.logl := by
        intro b hb
        obtain ⟨t, ht, e⟩ := List.mem_map.mp (hlog.mem_iff.mpr hb)
        exact ⟨t, ht, e.symm⟩
      obtain ⟨k, hk, hsk⟩ := List.mem_flatMap.mp hsm
      rw [List.mem_range] at hk
      rw [hC] at hsk
      have hlm : s.logl ∈ pick labels k r.logl := by
        rw [← (chain_map (b := init) (start := (tmm.getD k (⊥, 0)).1) (hlenp k)).1]
        exact List.mem_map.mpr ⟨s, hsk, rfl⟩
      rcases chain_births (hlenp k) (hsub k) s hsk with h4 | ⟨h4, h5⟩
      · rw [hgd k hk] at h4
        cases hst : tmm[k].1 with
        | bot => left; rw [h4, hst]; rfl
        | coe b =>
          right
          rw [hst] at h4
          have h4' : s.birth = b := h4
          obtain ⟨t, htS, e⟩ := hex b (h.starts _ (List.getElem_mem hk) b hst)
          have := hfb k hk _ hlm
          rw [hst] at this
          exact ⟨t, htS, by rw [h4', e], by rw [← e]; exact this⟩
      · right
        obtain ⟨t, htS, e⟩ := hex _ (pick_sublist.subset h4)
        exact ⟨t, htS, e, by rw [← e]; exact h5⟩
  have hp : (sortBy A (fun s : Sample K => s.logl) S).Perm S := sortBy_perm A _ S
  have hrows : (sortBy A (fun s : Sample K => s.logl) S).map (fun s => (s.logl, s.theta)) = r.logl.zip r.theta := by
    have hstr := hcons.sorted_strict A
    refine ((hp.map _).trans hz).eq_of_pairwise (le := fun a b => a.1 < b.1)
      (fun a b _ _ h1 h2 => absurd h1 (lt_asymm h2)) ?_ ?_
    · rw [List.pairwise_map] at hstr ⊢; exact hstr
    · have e : r.logl = (r.logl.zip r.theta).map (·.1) := (List.map_fst_zip (by omega)).symm
      have hst := hstrict
      rw [e, List.pairwise_map] at hst
      exact hst
  exact ⟨hstrict, hcons, hlog, hrows⟩

/-- C16, second part.  Writing any such run and processing it again succeeds and
reproduces the samples in a run of the documented format; each live count is the number of threads of the run that are
present.  So if the live counts of the run were those, they are reproduced too. -/
theorem C16_rewrite {r : Run K} {labels : List Int} {tmm : List (WithBot K × K)}
    (h : Writable r labels tmm) {init : K} (hi : ∀ l ∈ r.logl, init < l) (A : Argsort K)
    (da dw da' dw' : Bool) :
    ∃ r' : Run K, (∀ w : World σ, (runDeadBirth A r init da' dw' >>= fun s => processSamples A R s da dw) w =
        (.ok r', w)) ∧ Valid r' ∧ r'.logl = r.logl ∧ r'.theta = r.theta ∧ r'.nlive.length = r.logl.length ∧
      ∀ (i : Nat) (l : K), r.logl[i]? = some l → r'.nlive[i]? =
        some (tmm.countP (fun p => decide (p.1 < (l : WithBot K) ∧ l ≤ p.2)) : Int) := by
  have hv := h.toValidWith
  obtain ⟨hl, ht, h1, h2, h3, hs, hok⟩ := validWith_iff.mp hv
  obtain ⟨q1, q2, q3⟩ := (threadsOK_iff_pick hs h2).mp hok
  obtain ⟨hstrict, hcons, hlog, hrows⟩ := written_consistent h hi A
  have hlenp : ∀ k : Int, (pick labels k r.theta).length = (pick labels k r.logl).length := fun k => by
    rw [length_pick (by rw [h2, h3]), length_pick (by rw [h2])]
  have hsub : ∀ k : Int, (pick labels k r.logl).Pairwise (· < ·) := fun k => hstrict.sublist pick_sublist
  have hgd : ∀ k (hk : k < tmm.length), tmm.getD k (⊥, 0) = tmm[k] := by
    intro k hk; rw [List.getD_eq_getElem?_getD, List.getElem?_eq_getElem hk]; rfl
  have hfb : ∀ k (hk : k < tmm.length), ∀ l ∈ pick labels k r.logl, firstBirth init tmm[k].1 < l := by
    intro k hk l hlm
    have hb := h.born k _ (List.getElem?_eq_getElem hk) l hlm
    cases hst : tmm[k].1 with
    | bot => exact hi l (pick_sublist.subset hlm)
    | coe s => rw [hst] at hb; exact WithBot.coe_lt_coe.mp hb
  set S := writtenSamples r labels tmm init with hS
  set C : Nat → List (Sample K) := fun k => chain init (tmm.getD k (⊥, 0)).1 (pick labels k r.theta)
    (pick labels k r.logl) with hC
  have hp : (sortBy A (fun s : Sample K => s.logl) S).Perm S := sortBy_perm A _ S
  obtain ⟨r', labels', tmm', g1, g2, g3, -, -, -, g6, g7, -⟩ := process_consistent R hcons A da dw (σ := σ)
  have hlogl : r'.logl = r.logl := by
    have := congrArg (List.map (·.1)) hrows
    rw [List.map_map, List.map_fst_zip (by rw [h3])] at this
    rw [g2]; exact this
  refine ⟨r', ?_, (C03_valid_lossless R hcons A da dw ⟨R.seed 0, []⟩ _ (g1 _)).1, hlogl, ?_, ?_, ?_⟩
  · intro w
    rw [M.bind_ok (runDeadBirth_ok hv hstrict init da' dw' w), ← g1 w]
    exact C04_row_order R A A hp ((hp.map _).nodup_iff.mpr hcons.distinct) da dw w
  · have := congrArg (List.map (·.2)) hrows
    rw [List.map_map, List.map_snd_zip (by rw [h3])] at this
    rw [g3]; exact this
  · rw [g6, ← hlog.length_eq, List.length_map]
  · intro i l hil
    rw [g7 i l (by rw [hlogl]; exact hil)]
    congr 2
    have hlm : l ∈ r.logl := List.mem_of_getElem? hil
    have hsum : liveAt S l = ((List.range tmm.length).map (fun k => liveAt (C k) l)).sum := by
      rw [hS]
      unfold liveAt writtenSamples
      rw [List.countP_flatMap]
      rfl
    rw [hsum]
    have htm : tmm = (List.range tmm.length).map (fun k => tmm.getD k (⊥, 0)) := by
      apply List.ext_getElem
      · simp
      · intro j hj1 hj2; rw [List.getElem_map, List.getElem_range, hgd j hj1]
    conv_rhs => rw [htm, List.countP_map, countP_eq_sum]
    congr 1
    apply List.map_congr_left
    intro k hk
    rw [List.mem_range] at hk
    have hq := q3 k _ (List.getElem?_eq_getElem hk)
    have hlast : (pick labels k r.logl).getLast? = some tmm[k].2 :=
      getLast?_sorted ((hsub k).imp le_of_lt) hq.2 (fun x hx => (hq.1 x hx).2)
    simp only [hC, Function.comp, hgd k hk]
    rw [chain_live (hlenp k) (hsub k) (hfb k hk) hlast]
    have hiff : firstBirth init tmm[k].1 < l ↔ tmm[k].1 < (l : WithBot K) := by
      cases hst : tmm[k].1 with
      | bot => exact ⟨fun _ => WithBot.bot_lt_coe l, fun _ => hi l hlm⟩
      | coe s => exact WithBot.coe_lt_coe.symm
    simp [hiff]

/-- C16, live counts reproduced. -/
theorem C16_rewrite_nlive {r : Run K} {labels : List Int} {tmm : List (WithBot K × K)}
    (h : Writable r labels tmm) {init : K} (hi : ∀ l ∈ r.logl, init < l)
    (hlive : ∀ (i : Nat) (l : K), r.logl[i]? = some l → r.nlive[i]? =
      some (tmm.countP (fun p => decide (p.1 < (l : WithBot K) ∧ l ≤ p.2)) : Int)) (A : Argsort K)
    (da dw da' dw' : Bool) :
    ∃ r' : Run K, (∀ w : World σ, (runDeadBirth A r init da' dw' >>= fun s => processSamples A R s da dw) w =
        (.ok r', w)) ∧ Valid r' ∧ r'.logl = r.logl ∧ r'.theta = r.theta ∧ r'.nlive = r.nlive := by
  obtain ⟨r', h1, hv, h2, h3, h4, h5⟩ := C16_rewrite R h hi A da dw da' dw' (σ := σ)
  refine ⟨r', h1, hv, h2, h3, ?_⟩
  refine nlive_ext (by rw [h4, h2]) h.nlive_len h2 (fun _ => rfl) ?_ hlive
  intro i l hil
  exact h5 i l (by rw [← h2]; exact hil)

section examples

/-- C15 on the samples of Props/Process. -/
example (s : Nat) : (processSamples (stableSort ℤ) (counterRng ℤ (by decide)) exSamples true false >>=
    fun r => runDeadBirth (stableSort ℤ) r (-100) true false) ⟨s, []⟩ =
    (.ok [⟨[2], 3, -100⟩, ⟨[1], 5, -100⟩, ⟨[3], 7, 3⟩, ⟨[4], 8, 3⟩, ⟨[5], 9, 5⟩, ⟨[6], 12, 8⟩], ⟨s, []⟩) := by rfl

/-- C16: a run of two threads, the second started on the contour of a sample of the first. -/
def exSwap : Run ℤ :=
  { logl := [1, 5, 7, 9, 12], nlive := [1, 1, 2, 2, 1], theta := [[1], [2], [3], [4], [5]],
    labels := some [0, 0, 1, 0, 1], tmm := some [(⊥, 9), ((5 : ℤ), 12)] }

theorem exSwap_writable : Writable exSwap [0, 0, 1, 0, 1] [(⊥, 9), ((5 : ℤ), 12)] where
  toValidWith := validWith_iff.mpr ⟨rfl, rfl, rfl, rfl, rfl, by decide,
    (checkThreads_iff (r := exSwap) rfl rfl rfl).mp (by decide)⟩
  distinct := by
    intro i j x y hij hx hy
    exact ne_of_lt ((pairwise_iff_getElem? (R := (· < ·))).mp (show exSwap.logl.Pairwise (· < ·) by decide)
      i j x y hij hx hy)
  born := by
    intro k mm h
    have : k < 2 := (List.getElem?_eq_some_iff.mp h).1
    interval_cases k <;> (simp only [List.getElem?_cons_zero, List.getElem?_cons_succ, Option.some.injEq] at h; subst h; decide)
  starts := by
    intro mm hmm s hs
    fin_cases hmm
    · simp at hs
    · have : s = 5 := by simpa using hs.symm
      subst this; decide

/-- C16, what does not hold: the decomposition into threads is not kept, since the
dead-birth format does not say which of two points born on a contour continues the thread.
Here the thread (1, 5, 9) becomes (1, 5, 7, 12). -/
theorem C16_threads_change (s : Nat) :
    (runDeadBirth (stableSort ℤ) exSwap (-100) true false >>= fun x =>
      processSamples (stableSort ℤ) (counterRng ℤ (by decide)) x true false) ⟨s, []⟩ =
    (.ok { exSwap with labels := some [0, 0, 0, 1, 0], tmm := some [(⊥, 12), ((5 : ℤ), 9)] }, ⟨s, []⟩) := by
  rfl

end examples
end Nestcheck
