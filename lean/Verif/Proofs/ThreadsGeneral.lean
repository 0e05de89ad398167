import Verif.Proofs.Process
import Verif.Proofs.Frame

/-
threads_given_birth_inds on arbitrary birth indexes.
-/

set_option linter.unusedSectionVars false

namespace Nestcheck
variable {σ K : Type} [CommRing K] [LinearOrder K] (R : Rng σ K)

theorem labelsToChoose_mem {L : List (Option Nat)} {ind k : Nat} (h : k ∈ labelsToChoose L ind) :
    some k ∈ L := by
  unfold labelsToChoose at h
  dsimp only at h
  split_ifs at h
  · rw [mem_unique, List.mem_filterMap] at h
    obtain ⟨a, ha, rfl⟩ := h
    exact ha
  · obtain ⟨h1, -⟩ := List.mem_filter.mp h
    rw [mem_unique, List.mem_filterMap] at h1
    obtain ⟨a, ha, rfl⟩ := h1
    exact List.mem_of_mem_take ha

theorem labelsToChoose_ne_nil {L : List (Option Nat)} {ind k : Nat} (h : some k ∈ L) :
    labelsToChoose L ind ≠ [] := by
  unfold labelsToChoose
  dsimp only
  split_ifs with hc
  · rw [Ne, unique_eq_nil]
    intro hn
    have : k ∈ L.filterMap id := List.mem_filterMap.mpr ⟨some k, h, rfl⟩
    rw [hn] at this; simp at this
  · simpa using hc

/-- Left-over points all get an existing label; other points keep theirs. -/
theorem leftoverLoop_ok (P : Nat → Prop) (inds : List Nat) (L : List (Option Nat))
    (hP : ∀ k, some k ∈ L → P k) (hsome : ∃ k, some k ∈ L) (hni : ∀ i ∈ inds, L[i]? = some none)
    (hnd : inds.Nodup) (w : World σ) :
    ∃ L' s, leftoverLoop R inds L w = (.ok L', { w with rng := s }) ∧ L'.length = L.length ∧
      (∀ i, i ∉ inds → L'[i]? = L[i]?) ∧ (∀ i ∈ inds, L'[i]? ≠ some none) ∧
      ∀ k, some k ∈ L' → P k := by
  induction inds generalizing L w with
  | nil => exact ⟨L, w.rng, rfl, rfl, fun _ _ => rfl, by simp, hP⟩
  | cons ind inds ih =>
    obtain ⟨k0, hk0⟩ := hsome
    obtain ⟨x, hx, hc⟩ := npChoice_spec R (labelsToChoose_ne_nil (ind := ind) hk0) w
    obtain ⟨hnm, hnd'⟩ := List.nodup_cons.mp hnd
    have hind := hni ind (by simp)
    have hlt : ind < L.length := (List.getElem?_eq_some_iff.mp hind).1
    have hxL := labelsToChoose_mem hx
    obtain ⟨L', s, h1, h2, h3, h4, h5⟩ := ih (L.set ind (some x))
      (by
        intro k hk
        rcases List.mem_or_eq_of_mem_set hk with h | h
        · exact hP k h
        · cases h; exact hP _ hxL)
      ⟨x, List.mem_of_getElem? (i := ind) (by simp [hlt])⟩
      (by
        intro i hi
        rw [List.getElem?_set_ne (by rintro rfl; exact hnm hi)]
        exact hni i (by simp [hi])) hnd'
      { w with rng := (R.randint 0 (labelsToChoose L ind).length 1 w.rng).2 }
    refine ⟨L', s, ?_, by rw [h2]; simp, ?_, ?_, h5⟩
    · simp only [leftoverLoop]
      rw [M.bind_ok hc]
      exact h1
    · intro i hi
      rw [List.mem_cons, not_or] at hi
      rw [h3 i hi.2, List.getElem?_set_ne (Ne.symm hi.1)]
    · intro i hi
      rcases List.mem_cons.mp hi with rfl | hi
      · rw [h3 i hnm]; simp [hlt]
      · exact h4 i hi

/-- All outcomes of `threads_given_birth_inds`. -/
theorem threadsGivenBirthInds_outcome (b : List Int) :
    (labelLoop b (starters b) 0 (List.replicate b.length none) = .error .assertion ∧
      ∀ w : World σ, threadsGivenBirthInds R b w = (.error .assertion, w)) ∨
    (∃ labels, IsThreads b labels ∧ ∀ w : World σ, threadsGivenBirthInds R b w = (.ok labels, w)) ∨
    (∃ labels : List Nat, labels.length = b.length ∧
      (∀ i k s, (starters b)[k]? = some s → Chain b s i → labels[i]? = some k) ∧
      (∀ k ∈ labels, k < (starters b).length) ∧
      (∃ i < b.length, ∀ s ∈ starters b, ¬ Chain b s i) ∧
      ∀ w : World σ, threadsGivenBirthInds R b w =
        (.ok labels, { w with warns := w.warns ++ [.unlabelled] })) := by
  cases hL : labelLoop b (starters b) 0 (List.replicate b.length none) with
  | error e =>
    left
    have := labelLoop_error (by simp) hL
    subst this
    refine ⟨rfl, fun w => ?_⟩
    unfold threadsGivenBirthInds
    rw [hL]; rfl
  | ok L =>
    right
    have hlen : L.length = b.length := by rw [(labelLoop_sound hL).1]; simp
    have hsound : ∀ i k, L[i]? = some (some k) ↔ ∃ s, (starters b)[k]? = some s ∧ Chain b s i := by
      intro i k
      rw [(labelLoop_sound hL).2]
      constructor
      · rintro (h | ⟨p, s, hp, rfl, hc⟩)
        · simp [List.getElem?_replicate] at h
        · exact ⟨s, by simpa using hp, hc⟩
      · rintro ⟨s, hs, hc⟩
        exact .inr ⟨k, s, hs, by simp, hc⟩
    have hU : ∀ out : List Nat, (∀ k ∈ out, k < (starters b).length) →
        (∀ k s : Nat, (starters b)[k]? = some s → out[s]? = some k) →
        unique out = List.range (threadStartTotal b) := by
      intro out h1 h2
      rw [unique_eq_range, threadStartTotal_eq]
      intro k
      exact ⟨h1 k, fun hk => List.mem_of_getElem? (h2 k _ (List.getElem?_eq_getElem hk))⟩
    by_cases hall : L.all Option.isSome = true
    · left
      have hth : IsThreads b (L.map (·.getD 0)) :=
        ⟨by simpa using hlen, fun i k => by rw [map_getD_getElem? hall, hsound]⟩
      refine ⟨_, hth, fun w => ?_⟩
      have hu := hU _ (fun k hk => by
        obtain ⟨i, hi⟩ := List.mem_iff_getElem?.mp hk
        exact hth.lt_of_label hi) (fun k s hs => hth.start_label hs)
      unfold threadsGivenBirthInds
      rw [hL]
      simp only [M.bind_apply, M.lift_apply, hall, if_true, M.pure_apply, M.assert_apply, hu,
        decide_true]
    · right
      -- some point is not reached
      have hex : ∃ i : Nat, L[i]? = some none := by
        rw [List.all_eq_true] at hall
        push Not at hall
        obtain ⟨x, hx, hxn⟩ := hall
        obtain ⟨i, hi⟩ := List.mem_iff_getElem?.mp hx
        cases x with
        | none => exact ⟨i, hi⟩
        | some v => simp at hxn
      obtain ⟨i0, hi0⟩ := hex
      have hi0l : i0 < b.length := by rw [← hlen]; exact (List.getElem?_eq_some_iff.mp hi0).1
      have hbne : b ≠ [] := by rintro rfl; simp at hi0l
      -- there is a thread start
      have hsne : ∃ s0, (starters b)[0]? = some s0 := by
        have : starters b ≠ [] := by
          intro hn
          cases hu : unique b with
          | nil => exact hbne (unique_eq_nil.mp hu)
          | cons u us =>
            have hmem : u ∈ b := mem_unique.mp (by rw [hu]; simp)
            obtain ⟨j, hj⟩ := List.mem_iff_getElem?.mp hmem
            have : j ∈ starters b :=
              mem_starters.mpr ⟨u, hj, .inl (fun x hx => unique_head_le hu hx)⟩
            rw [hn] at this; simp at this
        exact ⟨_, List.getElem?_eq_getElem (List.length_pos_iff.mpr this)⟩
      obtain ⟨s0, hs0⟩ := hsne
      have hleft := fun w : World σ => leftoverLoop_ok R (fun k => k < (starters b).length)
        (whereIdx Option.isNone L) L
        (by
          intro k hk
          obtain ⟨i, hi⟩ := List.mem_iff_getElem?.mp hk
          obtain ⟨s, hs, -⟩ := (hsound i k).mp hi
          exact (List.getElem?_eq_some_iff.mp hs).1)
        ⟨0, List.mem_of_getElem? ((hsound s0 0).mpr ⟨s0, hs0, .refl⟩)⟩
        (by
          intro i hi
          obtain ⟨x, hx, hn⟩ := mem_whereIdx.mp hi
          rw [hx]; cases x with
          | none => rfl
          | some v => simp at hn)
        whereIdx_nodup w
      obtain ⟨L', s, h1, h2, h3, h4, h5⟩ := hleft ⟨R.seed 0, []⟩
      have hall' : L'.all Option.isSome = true := by
        rw [List.all_eq_true]
        intro x hx
        obtain ⟨i, hi⟩ := List.mem_iff_getElem?.mp hx
        cases x with
        | some v => rfl
        | none =>
          exfalso
          by_cases hm : i ∈ whereIdx Option.isNone L
          · exact h4 i hm hi
          · rw [h3 i hm] at hi
            exact hm (mem_whereIdx.mpr ⟨none, hi, rfl⟩)
      have hkeep : ∀ i k s, (starters b)[k]? = some s → Chain b s i →
          (L'.map (·.getD 0))[i]? = some k := by
        intro i k s hs hc
        have hLi := (hsound i k).mpr ⟨s, hs, hc⟩
        rw [map_getD_getElem? hall', h3, hLi]
        intro hm
        obtain ⟨x, hx, hn⟩ := mem_whereIdx.mp hm
        rw [hLi] at hx; cases hx; simp at hn
      have hlt' : ∀ k ∈ L'.map (·.getD 0), k < (starters b).length := by
        intro k hk
        obtain ⟨i, hi⟩ := List.mem_iff_getElem?.mp hk
        rw [map_getD_getElem? hall'] at hi
        exact h5 k (List.mem_of_getElem? hi)
      refine ⟨L'.map (·.getD 0), by rw [List.length_map, h2, hlen], hkeep, hlt', ⟨i0, hi0l, ?_⟩, ?_⟩
      · intro s hs hc
        obtain ⟨k, hk⟩ := List.mem_iff_getElem?.mp hs
        rw [(hsound i0 k).mpr ⟨s, hk, hc⟩] at hi0; simp at hi0
      · intro w
        have hu := hU _ hlt' (fun k s hs => hkeep s k s hs .refl)
        unfold threadsGivenBirthInds
        rw [hL]
        rw [M.bind_ok (M.lift_apply _ _), if_neg hall]
        have := (leftoverLoop_frame R _ _).ok h1 (w.warns ++ [.unlabelled])
        simp only [M.bind_apply, M.warn_apply, M.getState_apply, npSeed, M.setState_apply, this,
          M.pure_apply, M.assert_apply, hall', hu, decide_true, if_true, List.append_nil]

end Nestcheck
