import Verif.Proofs.Starters

/-
threads_given_birth_inds.
-/

set_option linter.unusedSectionVars false

namespace Nestcheck
variable {σ K : Type} [CommRing K] [LinearOrder K] (R : Rng σ K)

/-- Every point was sampled from the whole prior (-1) or born on an earlier
point. -/
def BirthsValid (b : List Int) : Prop :=
  ∀ (i : Nat) (v : Int), b[i]? = some v → -1 ≤ v ∧ v < i

/-- `labels` gives each point the number of the thread start from which it is
reached. -/
def IsThreads (b : List Int) (labels : List Nat) : Prop :=
  labels.length = b.length ∧
    ∀ i k, labels[i]? = some k ↔ ∃ s, (starters b)[k]? = some s ∧ Chain b s i

section valid
variable {b : List Int} (hb : BirthsValid b)
include hb

theorem BirthsValid.heir_gt {c j : Nat} (h : heir b c = some j) : c < j := by
  have := (hb j c (heir_birth h)).2
  omega

theorem BirthsValid.zero (hne : b ≠ []) : b[0]? = some (-1) := by
  cases b with
  | nil => exact absurd rfl hne
  | cons v vs =>
    have := hb 0 v rfl
    have : v = -1 := by omega
    simp [this]

theorem BirthsValid.lowest_iff {i : Nat} {v : Int} (hi : b[i]? = some v) :
    (∀ x ∈ b, v ≤ x) ↔ v = -1 := by
  have hne : b ≠ [] := by rintro rfl; simp at hi
  constructor
  · intro h
    have h0 := h (-1) (List.mem_of_getElem? (hb.zero hne))
    have := (hb i v hi).1
    omega
  · rintro rfl x hx
    obtain ⟨j, hj⟩ := List.mem_iff_getElem?.mp hx
    exact (hb j x hj).1

theorem BirthsValid.mem_starters_iff {i : Nat} (hi : i < b.length) :
    i ∈ starters b ↔ ∀ c, heir b c ≠ some i := by
  have hv := List.getElem?_eq_getElem hi
  rw [mem_starters]
  constructor
  · rintro ⟨v, hv', h⟩ c hc
    have hbi := heir_birth hc
    rw [hv'] at hbi
    obtain rfl : v = c := by simpa using hbi
    rcases h with h | ⟨j, hji, hj⟩
    · have := (hb.lowest_iff hv').mp h
      omega
    · obtain ⟨j', hj', hle⟩ := heir_le hj
      rw [hc] at hj'; simp at hj'; omega
  · intro h
    refine ⟨b[i], hv, ?_⟩
    by_cases hm : b[i] = -1
    · exact .inl ((hb.lowest_iff hv).mpr hm)
    · right
      have h1 := (hb i _ hv).1
      have hc : b[i]? = some ((b[i].toNat : Nat) : Int) := by rw [hv]; congr 1; omega
      obtain ⟨j, hj, hle⟩ := heir_le hc
      have hne : j ≠ i := by rintro rfl; exact h _ hj
      refine ⟨j, by omega, ?_⟩
      rw [heir_birth hj, ← hc, hv]

/-- The labelling succeeds on valid births and leaves no point without label. -/
theorem BirthsValid.labelLoop :
    ∃ L, labelLoop b (starters b) 0 (List.replicate b.length none) = .ok L ∧
      L.all Option.isSome = true ∧ L.length = b.length ∧
      ∀ i k, L[i]? = some (some k) ↔ ∃ s, (starters b)[k]? = some s ∧ Chain b s i := by
  have hst : ∀ s ∈ starters b, ∀ c, heir b c ≠ some s := fun s hs =>
    (hb.mem_starters_iff (starters_lt hs)).mp hs
  obtain ⟨L, hL⟩ := labelLoop_ok (b := b) (ss := starters b) (done := [])
    (L := List.replicate b.length none) (fun c j h => hb.heir_gt h) (by simp)
    (by simpa using starters_nodup b) (by simpa using fun s hs => starters_lt hs)
    (by simpa using hst)
    (by intro i k; simp [List.getElem?_replicate])
  obtain ⟨h1, h2⟩ := labelLoop_sound hL
  have h1' : L.length = b.length := by simpa using h1
  have h3 : ∀ i k, L[i]? = some (some k) ↔ ∃ s, (starters b)[k]? = some s ∧ Chain b s i := by
    intro i k
    rw [h2]
    constructor
    · rintro (h | ⟨p, s, hp, rfl, hc⟩)
      · simp [List.getElem?_replicate] at h
      · exact ⟨s, by simpa using hp, hc⟩
    · rintro ⟨s, hs, hc⟩
      exact .inr ⟨k, s, hs, by simp, hc⟩
  refine ⟨L, hL, ?_, h1', h3⟩
  have hall : ∀ i, i < b.length → ∃ k, L[i]? = some (some k) := by
    intro i
    induction i using Nat.strong_induction_on with
    | _ i ih =>
      intro hi
      by_cases hs : i ∈ starters b
      · obtain ⟨k, hk⟩ := List.mem_iff_getElem?.mp hs
        exact ⟨k, (h3 i k).mpr ⟨i, hk, .refl⟩⟩
      · rw [hb.mem_starters_iff hi] at hs
        push Not at hs
        obtain ⟨c, hc⟩ := hs
        have hlt := hb.heir_gt hc
        obtain ⟨k, hk⟩ := ih c hlt (by omega)
        obtain ⟨s, hs, hch⟩ := (h3 c k).mp hk
        exact ⟨k, (h3 i k).mpr ⟨s, hs, hch.step hc⟩⟩
  rw [List.all_eq_true]
  intro x hx
  obtain ⟨i, hi⟩ := List.mem_iff_getElem?.mp hx
  obtain ⟨k, hk⟩ := hall i (by rw [← h1']; exact (List.getElem?_eq_some_iff.mp hi).1)
  rw [hi] at hk
  simp at hk
  simp [hk]

end valid

theorem map_getD_getElem? {L : List (Option Nat)} (h : L.all Option.isSome = true) (i k : Nat) :
    (L.map (·.getD 0))[i]? = some k ↔ L[i]? = some (some k) := by
  rw [List.getElem?_map]
  rw [List.all_eq_true] at h
  cases hi : L[i]? with
  | none => simp
  | some x =>
    have := h x (List.mem_of_getElem? hi)
    cases x with
    | none => simp at this
    | some y => simp

/-- On valid births, `threads_given_birth_inds` succeeds without warning, leaves
the random state alone and returns the threads. -/
theorem threadsGivenBirthInds_valid {b : List Int} (hb : BirthsValid b) :
    ∃ labels, IsThreads b labels ∧
      ∀ w : World σ, threadsGivenBirthInds R b w = (.ok labels, w) := by
  obtain ⟨L, hL, hall, hlen, hch⟩ := hb.labelLoop
  have hth : IsThreads b (L.map (·.getD 0)) := by
    refine ⟨by simpa using hlen, ?_⟩
    intro i k
    rw [map_getD_getElem? hall, hch]
  refine ⟨_, hth, ?_⟩
  intro w
  have hu : unique (L.map (·.getD 0)) = List.range (threadStartTotal b) := by
    rw [unique_eq_range, threadStartTotal_eq]
    intro k
    constructor
    · intro hk
      obtain ⟨i, hi⟩ := List.mem_iff_getElem?.mp hk
      obtain ⟨s, hs, -⟩ := (hth.2 i k).mp hi
      exact (List.getElem?_eq_some_iff.mp hs).1
    · intro hk
      exact List.mem_of_getElem? ((hth.2 _ k).mpr ⟨_, List.getElem?_eq_getElem hk, .refl⟩)
  unfold threadsGivenBirthInds
  rw [hL]
  simp only [M.bind_apply, M.lift_apply, hall, if_true, M.pure_apply, M.assert_apply, hu,
    decide_true]

theorem leftoverLoop_spec (inds : List Nat) (L : List (Option Nat)) (w : World σ) :
    (leftoverLoop R inds L w).2.warns = w.warns ∧
    ∀ e, (leftoverLoop R inds L w).1 = .error e → e = .value := by
  induction inds generalizing L w with
  | nil => simp [leftoverLoop]
  | cons ind inds ih =>
    simp only [leftoverLoop]
    by_cases hne : labelsToChoose L ind = []
    · rw [hne, M.bind_error (npChoice_nil R w)]
      simp
    · obtain ⟨x, hx, hc⟩ := npChoice_spec R hne w
      rw [M.bind_ok hc]
      exact ih _ _

/-- If `threads_given_birth_inds` returns without a warning, its result is given
by following births, whatever the birth indexes. -/
theorem threadsGivenBirthInds_no_warning {b : List Int} {labels : List Nat} {w w' : World σ}
    (h : threadsGivenBirthInds R b w = (.ok labels, w')) (hw : w'.warns = w.warns) :
    IsThreads b labels ∧ w' = w := by
  unfold threadsGivenBirthInds at h
  rw [M.bind_apply, M.lift_apply] at h
  cases hL : labelLoop b (starters b) 0 (List.replicate b.length none) with
  | error e => rw [hL] at h; simp at h
  | ok L =>
    rw [hL] at h
    simp only at h
    by_cases hall : L.all Option.isSome = true
    · rw [if_pos hall, M.bind_apply, M.pure_apply] at h
      simp only [M.bind_apply, M.assert_apply, hall, if_true] at h
      split_ifs at h with hu
      · simp only [M.pure_apply, Prod.mk.injEq, Except.ok.injEq] at h
        obtain ⟨rfl, rfl⟩ := h
        refine ⟨⟨?_, ?_⟩, rfl⟩
        · rw [List.length_map, (labelLoop_sound hL).1]; simp
        · intro i k
          rw [map_getD_getElem? hall, (labelLoop_sound hL).2]
          constructor
          · rintro (h | ⟨p, s, hp, rfl, hc⟩)
            · simp [List.getElem?_replicate] at h
            · exact ⟨s, by simpa using hp, hc⟩
          · rintro ⟨s, hs, hc⟩
            exact .inr ⟨k, s, hs, by simp, hc⟩
      · simp at h
    · exfalso
      rw [if_neg hall] at h
      simp only [bind_assoc] at h
      rw [M.bind_apply, M.warn_apply] at h
      simp only at h
      rw [M.bind_apply, M.getState_apply] at h
      simp only at h
      unfold npSeed at h
      rw [M.bind_apply, M.setState_apply] at h
      simp only at h
      rw [M.bind_eq_ok] at h
      obtain ⟨L', w1, h1, h2⟩ := h
      have hwl := (leftoverLoop_spec R (whereIdx Option.isNone L) L
        { rng := R.seed 0, warns := w.warns ++ [.unlabelled] }).1
      rw [h1] at hwl
      simp only [M.bind_apply, M.setState_apply, M.pure_apply, M.assert_apply] at h2
      split_ifs at h2
      · simp only [Prod.mk.injEq] at h2
        rw [← h2.2] at hw
        simp only at hw hwl
        rw [hwl] at hw
        have := congrArg List.length hw
        simp at this
      all_goals simp at h2

end Nestcheck
