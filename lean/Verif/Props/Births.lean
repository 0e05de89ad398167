import Verif.Proofs.ThreadsAssert
import Verif.Proofs.NoWarning
import Verif.Proofs.RngIndep
import Verif.Props.Process

/-
C05, C07-C10: births, plateaus, malformed input and the random state.
-/

set_option linter.unusedSectionVars false

namespace Nestcheck
open Spec
variable {σ K : Type} [CommRing K] [LinearOrder K] (R : Rng σ K)

/-- C05.  When `birth_inds_given_contours` returns without the warning that there
are more births than deaths on a contour: one index per sample; -1 exactly for the
birth contour of the first sample; otherwise a sample dying on the birth contour
which comes earlier, or is the sample itself and the only one on that contour; and
on contours with several deaths no index is used twice. -/
theorem C05_birth_inds {A : Argsort K} {births logls : List K} {da dw : Bool} {w w' : World σ}
    {b : List Int} (h : birthInds A R births logls da dw w = (.ok b, w'))
    (hw : .moreBirths ∉ w'.warns) :
    b.length = births.length ∧ births.length = logls.length ∧
    ∃ init, births[0]? = some init ∧
      (∀ (i : Nat) (bl : K) (v : Int), births[i]? = some bl → b[i]? = some v →
        (bl = init ∧ v = -1) ∨
        (bl ≠ init ∧ ∃ d : Nat, v = d ∧ logls[d]? = some bl ∧
          (d < i ∨ (d = i ∧ ∀ d' : Nat, logls[d']? = some bl → d' = i)))) ∧
      (∀ (i j : Nat) (bl : K) (v : Int), i ≠ j → births[i]? = some bl → births[j]? = some bl →
        bl ≠ init → (∃ d d' : Nat, d ≠ d' ∧ logls[d]? = some bl ∧ logls[d']? = some bl) →
        b[i]? = some v → b[j]? ≠ some v) := by
  obtain ⟨-, -, -, hl, -, -, init, h0, hsp⟩ := birthInds_ok R h
  obtain ⟨hlen, hsp, -⟩ := hsp hw
  refine ⟨hlen, hl, init, h0, ?_, ?_⟩
  · intro i bl v hi hv
    by_cases hb : bl = init
    · left
      subst hb
      have := hsp.init_val i hi
      rw [hv] at this
      exact ⟨rfl, by simpa using this⟩
    · right
      obtain ⟨d, h1, h2, h3⟩ := hsp.val i bl v hi hb hv
      refine ⟨hb, d, h1, h2, h3.imp id ?_⟩
      rintro ⟨rfl, hd⟩
      refine ⟨rfl, fun d' hd' => ?_⟩
      have := mem_deathsOn.mpr hd'
      rw [hd] at this
      simpa using this
  · rintro i j bl v hij hi hj hb ⟨d, d', hdd, hd, hd'⟩ hv
    refine hsp.inj i j bl v hij hi hj hb ?_ hv
    by_contra hc
    have h1 := mem_deathsOn.mpr hd
    have h2 := mem_deathsOn.mpr hd'
    rcases hl : deathsOn logls bl with _ | ⟨a, as⟩
    · rw [hl] at h1; simp at h1
    · rw [hl] at hc h1 h2
      have : as = [] := by
        simp at hc
        exact hc
      subst this
      simp at h1 h2
      omega

/-- C07.  If `process_samples_array` returns without either of its warnings about
approximate decompositions, then (with the samples in some ascending order) there
are birth steps, -1 for the whole prior or an earlier sample on the birth contour,
not shared on contours with several deaths, of which `nlive_array` is the exact
count; and the run has the documented format. -/
theorem C07_no_warning {A : Argsort K} {samples : List (Sample K)} {da dw : Bool}
    {w w' : World σ} {r : Run K} (h : processSamples A R samples da dw w = (.ok r, w'))
    (hm : .moreBirths ∉ w'.warns) (hu : .unlabelled ∉ w'.warns) :
    ∃ (rows : List (Sample K)) (birth : Nat → Int), rows.Perm samples ∧
      r.logl = rows.map (·.logl) ∧ r.theta = rows.map (·.theta) ∧
      (∀ (i : Nat) (s : Sample K), rows[i]? = some s →
        (birth i = -1 ∧ ∀ t, rows[0]? = some t → s.birth = t.birth) ∨
        ∃ (d : Nat) (t : Sample K), birth i = d ∧ d < i ∧ rows[d]? = some t ∧ t.logl = s.birth) ∧
      (∀ (i j : Nat) (s t : Sample K), i ≠ j → rows[i]? = some s → rows[j]? = some t →
        s.birth = t.birth → (∀ u, rows[0]? = some u → s.birth ≠ u.birth) →
        (∃ (d d' : Nat) (u u' : Sample K), d ≠ d' ∧ rows[d]? = some u ∧ rows[d']? = some u' ∧
          u.logl = s.birth ∧ u'.logl = s.birth) → birth i ≠ birth j) ∧
      r.nlive.length = rows.length ∧
      (∀ i < rows.length, r.nlive[i]? = some
        (((Finset.range rows.length).filter (fun j => birth j < i ∧ i ≤ j)).card : Int)) ∧
      Valid r := by
  obtain ⟨b, init, hB, hbl, hbv, h0, hsp⟩ := processSamples_no_warning R h hm hu
  obtain ⟨labels, tmm, nlive, st, en, hth, hrun, htl, htm, hnl, hn⟩ := processSamples_of R hB hbl hbv
  set S := sortBy A (·.logl) samples with hS
  have hperm : S.Perm samples := sortBy_perm A _ samples
  have hSl : S.length = b.length := by rw [hperm.length_eq, hbl]
  rw [h] at hrun
  have hr := (Prod.mk.injEq .. ▸ hrun).1
  simp only [Except.ok.injEq] at hr
  subst hr
  have hbirth : ∀ (i : Nat) (s : Sample K), S[i]? = some s → (S.map (·.birth))[i]? = some s.birth := by
    intro i s hs; rw [List.getElem?_map, hs]; rfl
  have hlogl : ∀ (i : Nat) (s : Sample K), S[i]? = some s → (S.map (·.logl))[i]? = some s.logl := by
    intro i s hs; rw [List.getElem?_map, hs]; rfl
  have hinit : ∀ t, S[0]? = some t → t.birth = init := by
    intro t ht
    have := hbirth 0 t ht
    rw [h0] at this; simpa using this.symm
  refine ⟨S, bAt b, hperm, rfl, rfl, ?_, ?_, by simp only; omega, ?_, ?_⟩
  · intro i s hs
    have hib : i < b.length := by rw [← hSl]; exact (List.getElem?_eq_some_iff.mp hs).1
    by_cases hb : s.birth = init
    · left
      refine ⟨bAt_eq (hsp.init_val i (by rw [hbirth i s hs, hb])), fun t ht => ?_⟩
      rw [hb, hinit t ht]
    · right
      have hv := getElem?_bAt hib
      obtain ⟨d, h1, h2, -⟩ := hsp.val i _ _ (hbirth i s hs) hb hv
      have hlt := (hbv i _ hv).2
      rw [List.getElem?_map] at h2
      cases ht : S[d]? with
      | none => rw [ht] at h2; simp at h2
      | some t =>
        rw [ht] at h2
        exact ⟨d, t, h1, by omega, ht, by simpa using h2⟩
  · rintro i j s t hij hi hj hst hni ⟨d, d', u, u', hdd, hd, hd', hu1, hu2⟩ heq
    have hib : i < b.length := by rw [← hSl]; exact (List.getElem?_eq_some_iff.mp hi).1
    have hjb : j < b.length := by rw [← hSl]; exact (List.getElem?_eq_some_iff.mp hj).1
    have h00 : S[0]? = some (S[0]'(by omega)) := List.getElem?_eq_getElem (by omega)
    have hne : s.birth ≠ init := by rw [← hinit _ h00]; exact hni _ h00
    refine hsp.inj i j s.birth _ hij (hbirth i s hi) (by rw [hbirth j t hj, hst]) hne ?_
      (getElem?_bAt hib) (by rw [getElem?_bAt hjb, heq])
    by_contra hc
    have h1 : d ∈ deathsOn (S.map (·.logl)) s.birth := mem_deathsOn.mpr (by rw [hlogl d u hd, hu1])
    have h2 : d' ∈ deathsOn (S.map (·.logl)) s.birth := mem_deathsOn.mpr (by rw [hlogl d' u' hd', hu2])
    rcases hl : deathsOn (S.map (·.logl)) s.birth with _ | ⟨a, as⟩
    · rw [hl] at h1; simp at h1
    · rw [hl] at hc h1 h2
      have : as = [] := by simp at hc; exact hc
      subst this
      simp at h1 h2
      omega
  · intro i hi
    rw [hSl] at hi ⊢
    exact hn i hi
  · have hne : b ≠ [] := by
      intro hb0
      have : S.length = 0 := by rw [hSl, hb0]; rfl
      have : S = [] := List.eq_nil_of_length_eq_zero this
      rw [this] at h0; simp at h0
    refine ⟨_, _, valid_of_threads hbv hth hne (by simpa using hSl) (by simpa using hSl) hnl ?_ htl htm⟩
    exact List.pairwise_map.mpr (sortBy_sorted A _ samples)

/-! ### C08 -/

/-- The samples at which threads start: those born on the lowest contour, and those
which are not the first to be born on their contour. -/
def Spec.ThreadStart (b : List Int) (i : Nat) : Prop :=
  ∃ v, b[i]? = some v ∧ ((∀ x ∈ b, v ≤ x) ∨ ∃ j < i, b[j]? = some v)

/-- `i` is reached from `s` by moving, any number of times, to the first sample
born on the current one. -/
inductive Spec.Follows (b : List Int) (s : Nat) : Nat → Prop where
  | refl : Spec.Follows b s s
  | step {c j : Nat} : Spec.Follows b s c → b[j]? = some (c : Int) →
      (∀ m < j, b[m]? ≠ some (c : Int)) → Spec.Follows b s j

theorem follows_iff_chain {b : List Int} {s i : Nat} : Spec.Follows b s i ↔ Chain b s i := by
  have hheir : ∀ c j : Nat, heir b c = some j ↔ b[j]? = some (c : Int) ∧ ∀ m < j, b[m]? ≠ some (c : Int) := by
    intro c j
    constructor
    · intro h
      refine ⟨heir_birth h, fun m hm hbm => ?_⟩
      obtain ⟨j', hj', hle⟩ := heir_le hbm
      rw [h] at hj'; cases hj'; omega
    · rintro ⟨h1, h2⟩
      obtain ⟨j', hj', hle⟩ := heir_le h1
      rcases Nat.lt_or_ge j' j with hlt | hge
      · exact absurd (heir_birth hj') (h2 j' hlt)
      · rw [hj', show j' = j by omega]
  constructor
  · intro h
    induction h with
    | refl => exact .refl
    | step _ h1 h2 ih => exact ih.step ((hheir _ _).mpr ⟨h1, h2⟩)
  · intro h
    induction h with
    | refl => exact .refl
    | step _ h1 ih => exact .step ih ((hheir _ _).mp h1).1 ((hheir _ _).mp h1).2

theorem starters_card (b : List Int) (p : Nat → Bool) (hp : ∀ i, p i = true ↔ Spec.ThreadStart b i) :
    (starters b).length = (List.range b.length).countP p := by
  rw [List.countP_eq_length_filter]
  refine List.Perm.length_eq ((List.perm_ext_iff_of_nodup (starters_nodup b)
    (List.nodup_range.filter _)).mpr fun i => ?_)
  rw [List.mem_filter, List.mem_range, hp, mem_starters]
  constructor
  · rintro ⟨v, hv, h⟩
    exact ⟨(List.getElem?_eq_some_iff.mp hv).1, v, hv, h⟩
  · rintro ⟨-, h⟩; exact h

open Classical in
/-- C08.  On every list of integers `threads_given_birth_inds` terminates (the
model's fuel never runs out), either raising `AssertionError` or returning labels:
one per sample; exactly 0..n-1 for n thread starts; distinct for distinct thread
starts; and equal to the label of the start from which the sample is reached, for
all samples which are reached - with a warning exactly if some are not.  The random
state is as before and the result independent of it. -/
theorem C08_threads (b : List Int) :
    (∀ w : World σ, threadsGivenBirthInds R b w = (.error .assertion, w)) ∨
    ∃ (labels : List Nat) (warned : List Warn), labels.length = b.length ∧
      (∀ k, k ∈ labels ↔ k < (List.range b.length).countP (fun i => decide (Spec.ThreadStart b i))) ∧
      (∀ s s', Spec.ThreadStart b s → Spec.ThreadStart b s' → s ≠ s' → labels[s]? ≠ labels[s']?) ∧
      (∀ s i, Spec.ThreadStart b s → Spec.Follows b s i → labels[i]? = labels[s]?) ∧
      ((warned = [] ∧ ∀ i < b.length, ∃ s, Spec.ThreadStart b s ∧ Spec.Follows b s i) ∨
        (warned = [.unlabelled] ∧ ∃ i < b.length, ∀ s, Spec.ThreadStart b s → ¬ Spec.Follows b s i)) ∧
      ∀ w : World σ, threadsGivenBirthInds R b w = (.ok labels, { w with warns := w.warns ++ warned }) := by
  have hstart : ∀ s, Spec.ThreadStart b s ↔ s ∈ starters b := fun s => mem_starters.symm
  have hcard := starters_card b (fun i => decide (Spec.ThreadStart b i)) (fun i => by simp)
  -- both successful cases share these facts
  have key : ∀ labels : List Nat, labels.length = b.length →
      (∀ i k s, (starters b)[k]? = some s → Chain b s i → labels[i]? = some k) →
      (∀ k ∈ labels, k < (starters b).length) →
      (∀ k, k ∈ labels ↔ k < (List.range b.length).countP (fun i => decide (Spec.ThreadStart b i))) ∧
      (∀ s s', Spec.ThreadStart b s → Spec.ThreadStart b s' → s ≠ s' → labels[s]? ≠ labels[s']?) ∧
      (∀ s i, Spec.ThreadStart b s → Spec.Follows b s i → labels[i]? = labels[s]?) := by
    intro labels hl h1 h2
    refine ⟨fun k => ?_, ?_, ?_⟩
    · rw [← hcard]
      refine ⟨h2 k, fun hk => ?_⟩
      exact List.mem_of_getElem? (h1 _ k _ (List.getElem?_eq_getElem hk) .refl)
    · intro s s' hs hs' hne heq
      obtain ⟨k, hk⟩ := List.mem_iff_getElem?.mp ((hstart s).mp hs)
      obtain ⟨k', hk'⟩ := List.mem_iff_getElem?.mp ((hstart s').mp hs')
      rw [h1 s k s hk .refl, h1 s' k' s' hk' .refl] at heq
      have : k = k' := by simpa using heq
      subst this
      rw [hk] at hk'
      exact hne (by simpa using hk')
    · intro s i hs hf
      obtain ⟨k, hk⟩ := List.mem_iff_getElem?.mp ((hstart s).mp hs)
      rw [h1 s k s hk .refl, h1 i k s hk (follows_iff_chain.mp hf)]
  rcases threadsGivenBirthInds_outcome (σ := σ) R b with ⟨-, h⟩ | ⟨labels, hth, h⟩ | ⟨labels, hl, h1, h2, h3, h⟩
  · exact .inl h
  · right
    obtain ⟨a1, a2, a3⟩ := key labels hth.1 (fun i k s hs hc => (hth.2 i k).mpr ⟨s, hs, hc⟩)
      (fun k hk => by
        obtain ⟨i, hi⟩ := List.mem_iff_getElem?.mp hk
        exact hth.lt_of_label hi)
    refine ⟨labels, [], hth.1, a1, a2, a3, .inl ⟨rfl, ?_⟩, fun w => by rw [h]; simp⟩
    intro i hi
    obtain ⟨k, hk⟩ := hth.exists_label hi
    obtain ⟨s, hs, hc⟩ := (hth.2 i k).mp hk
    exact ⟨s, (hstart s).mpr (List.mem_of_getElem? hs), follows_iff_chain.mpr hc⟩
  · right
    obtain ⟨a1, a2, a3⟩ := key labels hl h1 h2
    refine ⟨labels, [.unlabelled], hl, a1, a2, a3, .inr ⟨rfl, ?_⟩, h⟩
    obtain ⟨i, hi, hno⟩ := h3
    exact ⟨i, hi, fun s hs hf => hno s ((hstart s).mp hs) (follows_iff_chain.mp hf)⟩

/-- C08: when it raises.  `threads_given_birth_inds` raises AssertionError exactly if the smallest birth index is itself a
sample, and this sample is reached from a thread start.  (In processed runs the smallest birth index is -1.) -/
theorem C08_raises (b : List Int) (w : World σ) :
    (threadsGivenBirthInds R b w).1 = .error .assertion ↔
      ∃ s c, Spec.ThreadStart b s ∧ Spec.Follows b s c ∧ (c : Int) ∈ b ∧ ∀ x ∈ b, (c : Int) ≤ x := by
  have h := threadsGivenBirthInds_error_iff R b w
  have h1 : (threadsGivenBirthInds R b w).1 = .error .assertion ↔ threadsGivenBirthInds R b w = (.error .assertion, w) := by
    constructor
    · intro he
      rcases threadsGivenBirthInds_outcome (σ := σ) R b with ⟨-, h⟩ | ⟨labels, hth, h⟩ | ⟨labels, hl, h1, h2, h3, h⟩
      · exact h w
      · rw [h w] at he; simp at he
      · rw [h w] at he; simp at he
    · intro he; rw [he]
  rw [h1, h]
  constructor
  · rintro ⟨s, hs, c, hc, hm⟩
    exact ⟨s, c, mem_starters.mp hs, follows_iff_chain.mpr hc, hm⟩
  · rintro ⟨s, c, hs, hc, hm⟩
    exact ⟨s, mem_starters.mpr hs, c, follows_iff_chain.mp hc, hm⟩

/-- A sample born on its own contour, which is the lowest one, is rejected; one born on -1 is not. -/
example : Spec.ThreadStart [0, 0] 0 ∧ Spec.Follows [0, 0] 0 0 ∧ ((0 : Nat) : Int) ∈ ([0, 0] : List Int) ∧
    ∀ x ∈ ([0, 0] : List Int), ((0 : Nat) : Int) ≤ x :=
  ⟨⟨0, rfl, .inl (by decide)⟩, .refl, by decide, by decide⟩

/-! ### C09 -/

/-- Unsorted loglikelihoods are rejected before anything else happens. -/
theorem C09_unsorted (A : Argsort K) (births logls : List K) (da dw : Bool) (w : World σ)
    (h : ∃ (i j : Nat) (x y : K), i < j ∧ logls[i]? = some x ∧ logls[j]? = some y ∧ y < x) :
    birthInds A R births logls da dw w = (.error .assertion, w) := by
  rw [birthInds_eq, if_pos]
  intro hp
  obtain ⟨i, j, x, y, hij, hx, hy, hlt⟩ := h
  exact absurd hlt (not_lt.mpr (pairwise_iff_getElem?.mp hp i j x y hij hx hy))

/-- A birth contour above the sample's own loglikelihood is rejected. -/
theorem C09_birth_above (A : Argsort K) (births logls : List K) (da dw : Bool) (w : World σ)
    (hl : births.length = logls.length)
    (h : ∃ (i : Nat) (x y : K), births[i]? = some x ∧ logls[i]? = some y ∧ y < x) :
    (birthInds A R births logls da dw w).1 = .error .assertion := by
  classical
  obtain ⟨i, x, y, hx, hy, hlt⟩ := h
  rw [birthInds_eq]
  by_cases h1 : ¬ logls.Pairwise (· ≤ ·)
  · rw [if_pos h1]
  rw [if_neg h1]
  by_cases h2 : da = true ∧ ¬ logls.Pairwise (· < ·)
  · rw [if_pos h2]
  rw [if_neg h2]
  cases hb : births with
  | nil => rw [hb] at hx; simp at hx
  | cons init rest =>
    dsimp only
    rw [← hb, if_neg (not_not.mpr hl), if_pos]
    intro hall
    exact absurd hlt (not_lt.mpr (hall i x y hx hy))

theorem birthLoop_mem {births logls : List K} {init : K} {pairs : List (Nat × K)}
    {acc acc' : List (Option Int)} {w w' : World σ}
    (hacc : ∀ (i : Nat) (bl : K) (v : Int), births[i]? = some bl → acc[i]? = some (some v) →
      bl = init ∨ bl ∈ logls)
    (hpairs : ∀ p ∈ pairs, births[p.1]? = some p.2)
    (h : birthLoop R births logls pairs acc w = (.ok acc', w')) :
    ∀ (i : Nat) (bl : K) (v : Int), births[i]? = some bl → acc'[i]? = some (some v) →
      bl = init ∨ bl ∈ logls := by
  induction pairs generalizing acc w with
  | nil => simp [birthLoop] at h; rw [← h.1]; exact hacc
  | cons p rest ih =>
    obtain ⟨i, bl⟩ := p
    have hi : births[i]? = some bl := hpairs (i, bl) (by simp)
    rw [birthLoop_cons] at h
    split_ifs at h with h1 h2
    · exact ih hacc (fun p hp => hpairs p (by simp [hp])) h
    · refine ih ?_ (fun p hp => hpairs p (by simp [hp])) h
      intro j bl' v hj hv
      by_cases hji : i = j
      · subst hji
        rw [hi] at hj; cases hj
        right
        obtain ⟨d, hd⟩ := List.length_eq_one_iff.mp h2
        exact List.mem_of_getElem? (mem_deathsOn.mp (by rw [hd]; simp : d ∈ deathsOn logls bl))
      · rw [List.getElem?_set_ne hji] at hv
        exact hacc j bl' v hj hv
    · obtain ⟨inds, w1, h3, h4⟩ := M.bind_eq_ok.mp h
      refine ih ?_ (fun p hp => hpairs p (by simp [hp])) h4
      intro j bl' v hj hv
      by_cases hjm : j ∈ whereIdx (fun x => decide (x = bl)) births
      · have := mem_whereIdx_eq.mp hjm
        rw [hj] at this; cases this
        right
        rcases dupBirthInds_spec R births bl (deathsOn logls bl)
            (whereIdx (fun x => decide (x = bl)) births) whereIdx_nodup whereIdx_pairwise w with
          ⟨-, he⟩ | ⟨s, he⟩ | ⟨inds, s, hlen, -⟩ | ⟨inds, s, hlen, -⟩
        · rw [he] at h3; simp at h3
        · rw [he] at h3; simp at h3
        all_goals
          have hpos : 0 < (deathsOn logls bl).length := by omega
          exact List.mem_of_getElem? (mem_deathsOn.mp (List.getElem_mem hpos))
      · rw [getElem?_assignAt_of_not_mem hjm] at hv
        exact hacc j bl' v hj hv

/-- A birth contour which is neither the initial one nor the loglikelihood of any
sample is always rejected: with `AssertionError`, unless a plateau which cannot be
decomposed is met first (`ValueError`). -/
theorem C09_unknown_contour (A : Argsort K) (births logls : List K) (da dw : Bool) (w : World σ)
    (hl : births.length = logls.length)
    (h : ∃ x ∈ births, births[0]? ≠ some x ∧ x ∉ logls) :
    (birthInds A R births logls da dw w).1 = .error .assertion ∨
    (birthInds A R births logls da dw w).1 = .error .value := by
  classical
  obtain ⟨x, hx, hx0, hxl⟩ := h
  rw [birthInds_eq]
  by_cases h1 : ¬ logls.Pairwise (· ≤ ·)
  · rw [if_pos h1]; exact .inl rfl
  rw [if_neg h1]
  by_cases h2 : da = true ∧ ¬ logls.Pairwise (· < ·)
  · rw [if_pos h2]; exact .inl rfl
  rw [if_neg h2]
  cases hb : births with
  | nil => rw [hb] at hx; simp at hx
  | cons init rest =>
    have hxi : x ≠ init := by rintro rfl; apply hx0; rw [hb]; rfl
    dsimp only
    rw [← hb, if_neg (not_not.mpr hl)]
    by_cases h4 : ¬ ∀ (i : Nat) (x y : K), births[i]? = some x → logls[i]? = some y → x ≤ y
    · rw [if_pos h4]; exact .inl rfl
    rw [if_neg h4]
    set ws := if ¬ logls.Pairwise (· < ·) ∧ dw = true then w.warns ++ [.dupLogl] else w.warns
    rcases birthLoop_any R ((List.range births.length).zip births)
      (births.map (fun b => if b = init then some (-1 : Int) else none)) ⟨R.seed 0, ws⟩
      (births := births) (logls := logls) with ⟨e, w1, he, heq, -⟩ | ⟨acc, w1, heq, -⟩
    · rw [heq]
      rcases he with rfl | rfl
      · exact .inl rfl
      · exact .inr rfl
    · rw [heq]
      left
      dsimp only
      rw [if_neg]
      intro hall
      obtain ⟨i, hi⟩ := List.mem_iff_getElem?.mp hx
      have hlen := birthLoop_length R heq
      rw [List.length_map] at hlen
      have hil : i < acc.length := by rw [hlen]; exact (List.getElem?_eq_some_iff.mp hi).1
      have hsome := List.all_eq_true.mp hall _ (List.getElem_mem hil)
      obtain ⟨v, hv⟩ := Option.isSome_iff_exists.mp hsome
      have := birthLoop_mem R (init := init) ?_ (fun p hp => zip_range_mem hp) heq i x v hi
        (by rw [List.getElem?_eq_getElem hil, hv])
      · rcases this with h | h
        · exact hxi h
        · exact hxl h
      · intro j bl v hj hv
        rw [List.getElem?_map, hj] at hv
        left
        simp only [Option.map_some, Option.some.injEq] at hv
        by_contra hc
        rw [if_neg hc] at hv
        simp at hv

/-- With `dup_assert=True` the call returns exactly if the loglikelihoods are
strictly ascending, no birth contour is above its own loglikelihood, and each is
the initial one or the loglikelihood of a sample; otherwise it raises
`AssertionError`. -/
theorem C09_dup_assert (A : Argsort K) (births logls : List K) (dw : Bool) (w : World σ) {init : K}
    (h0 : births[0]? = some init) (hl : births.length = logls.length) :
    ((∃ b, (birthInds A R births logls true dw w).1 = .ok b) ↔
      logls.Pairwise (· < ·) ∧
      (∀ (i : Nat) (x y : K), births[i]? = some x → logls[i]? = some y → x ≤ y) ∧
      ∀ x ∈ births, x = init ∨ x ∈ logls) ∧
    ((∃ b, (birthInds A R births logls true dw w).1 = .ok b) ∨
      (birthInds A R births logls true dw w).1 = .error .assertion) := by
  by_cases hs : logls.Pairwise (· < ·)
  · rcases birthInds_strict R A true dw hs h0 hl (σ := σ) with ⟨h1, h2, b, hb⟩ | ⟨h1, h2⟩
    · rw [hb]
      exact ⟨⟨fun _ => ⟨hs, h1, h2⟩, fun _ => ⟨b, rfl⟩⟩, .inl ⟨b, rfl⟩⟩
    · rw [h2]
      exact ⟨⟨by simp, fun h => absurd ⟨h.2.1, h.2.2⟩ h1⟩, .inr rfl⟩
  · have : birthInds A R births logls true dw w = (.error .assertion, w) := by
      rw [birthInds_eq]
      by_cases h1 : ¬ logls.Pairwise (· ≤ ·)
      · rw [if_pos h1]
      · rw [if_neg h1, if_pos ⟨rfl, hs⟩]
    rw [this]
    exact ⟨⟨by simp, fun h => absurd h.1 hs⟩, .inr rfl⟩

/-! ### C10 -/

theorem C10_birth_inds (A : Argsort K) (births logls : List K) (da dw : Bool) :
    Spec.RngRestored (birthInds A R births logls da dw) ∧
    Spec.RngIndependent (birthInds A R births logls da dw) := by
  classical
  constructor
  · intro w b w' h; exact (birthInds_ok R h).1
  · intro s s' ws
    rw [birthInds_eq, birthInds_eq]
    by_cases h1 : ¬ logls.Pairwise (· ≤ ·)
    · rw [if_pos h1, if_pos h1]; exact ⟨rfl, rfl⟩
    rw [if_neg h1, if_neg h1]
    by_cases h2 : da = true ∧ ¬ logls.Pairwise (· < ·)
    · rw [if_pos h2, if_pos h2]; exact ⟨rfl, rfl⟩
    rw [if_neg h2, if_neg h2]
    cases births with
    | nil => exact ⟨rfl, rfl⟩
    | cons init rest =>
      dsimp only
      by_cases h3 : (init :: rest).length ≠ logls.length
      · rw [if_pos h3, if_pos h3]; exact ⟨rfl, rfl⟩
      rw [if_neg h3, if_neg h3]
      by_cases h4 : ¬ ∀ (i : Nat) (x y : K), (init :: rest)[i]? = some x → logls[i]? = some y → x ≤ y
      · rw [if_pos h4, if_pos h4]; exact ⟨rfl, rfl⟩
      rw [if_neg h4, if_neg h4]
      split
      · exact ⟨rfl, rfl⟩
      · by_cases h5 : List.all ‹_› Option.isSome = true
        · rw [if_pos h5, if_pos h5]; exact ⟨rfl, rfl⟩
        · rw [if_neg h5, if_neg h5]; exact ⟨rfl, rfl⟩

theorem C10_threads (b : List Int) :
    Spec.RngRestored (threadsGivenBirthInds R b) ∧
    Spec.RngIndependent (threadsGivenBirthInds R b) := by
  rcases threadsGivenBirthInds_outcome (σ := σ) R b with ⟨-, h⟩ | ⟨labels, -, h⟩ | ⟨labels, -, -, -, -, h⟩
  all_goals
    constructor
    · intro w b w' h'
      rw [h] at h'
      first | (simp at h'; done) | (rw [← show _ = w' from congrArg Prod.snd h'])
    · intro s s' ws
      rw [h, h]
      exact ⟨rfl, rfl⟩

theorem C10_process_samples (A : Argsort K) (samples : List (Sample K)) (da dw : Bool) :
    Spec.RngRestored (processSamples A R samples da dw) ∧
    Spec.RngIndependent (processSamples A R samples da dw) := by
  constructor
  · exact .bind (C10_birth_inds R A _ _ da dw).1 fun b => .bind (C10_threads R b).1 fun l =>
      .bind (.assert _) fun _ => .bind (.lift _) fun _ => .pure _
  · exact .bind (C10_birth_inds R A _ _ da dw).2 fun b => .bind (C10_threads R b).2 fun l =>
      .bind (.assert _) fun _ => .bind (.lift _) fun _ => .pure _

/-- C10, what fails: the state is not restored when `birth_inds_given_contours`
raises after seeding (data_processing.py:556-620 has no `finally`): here a birth
contour above its sample leaves the generator seeded with 0. -/
theorem C10_leak_on_error :
    ∃ (births logls : List ℤ), ¬ ∀ (s : Nat),
      (birthInds (stableSort ℤ) (counterRng ℤ (by decide)) births logls true false ⟨s, []⟩).2.rng = s :=
  ⟨[7], [5], fun h => absurd (h 41) (by decide)⟩

section examples

/-- A plateau: two samples on contour 3 and two points born there. -/
def exPlateau : List (Sample ℤ) :=
  [⟨[1], 3, -100⟩, ⟨[2], 3, -100⟩, ⟨[3], 7, 3⟩, ⟨[4], 8, 3⟩, ⟨[5], 9, 7⟩]

example : birthInds (stableSort ℤ) (counterRng ℤ (by decide)) (exPlateau.map (·.birth))
    (exPlateau.map (·.logl)) false true ⟨41, []⟩ = (.ok [-1, -1, 0, 1, 2], ⟨41, [.dupLogl]⟩) := by rfl

example : processSamples (stableSort ℤ) (counterRng ℤ (by decide)) exPlateau false true ⟨41, []⟩ =
    (.ok { logl := [3, 3, 7, 8, 9], nlive := [2, 2, 2, 2, 1], theta := [[1], [2], [3], [4], [5]],
           labels := some [0, 1, 0, 1, 0], tmm := some [(⊥, 9), (⊥, 8)] }, ⟨41, [.dupLogl]⟩) := by rfl

/-- Three points born on a contour on which two samples died: one death is used twice
and a warning is given, so `C05_birth_inds` and `C07_no_warning` do not apply. -/
example : birthInds (stableSort ℤ) (counterRng ℤ (by decide)) [-100, -100, 3, 3, 3]
    [3, 3, 7, 8, 9] false false ⟨41, []⟩ = (.ok [-1, -1, 1, 0, 1], ⟨41, [.moreBirths]⟩) := by rfl

/-- C08: a cycle of births is given random labels, with a warning. -/
example : threadsGivenBirthInds (K := ℤ) (counterRng ℤ (by decide)) [-1, 2, 1] ⟨41, []⟩ =
    (.ok [0, 0, 0], ⟨41, [.unlabelled]⟩) := by rfl

/-- C08: a self-birth at index 0 is rejected. -/
example : (threadsGivenBirthInds (K := ℤ) (counterRng ℤ (by decide)) [0, 0] ⟨41, []⟩).1 =
    .error .assertion := by rfl

/-- C08: a tree. -/
example : threadsGivenBirthInds (K := ℤ) (counterRng ℤ (by decide)) [-1, -1, 0, 0, 1, 3] ⟨41, []⟩ =
    (.ok [0, 1, 0, 2, 1, 2], ⟨41, []⟩) := by rfl

/-- C09: the three kinds of malformed input, and the `ValueError` case (a plateau
whose only possible births are not earlier). -/
example : (birthInds (stableSort ℤ) (counterRng ℤ (by decide)) [0, 0] [5, 3] false false ⟨41, []⟩).1 =
    .error .assertion := by rfl
example : (birthInds (stableSort ℤ) (counterRng ℤ (by decide)) [0, 9] [3, 5] false false ⟨41, []⟩).1 =
    .error .assertion := by rfl
example : (birthInds (stableSort ℤ) (counterRng ℤ (by decide)) [0, 4] [3, 5] false false ⟨41, []⟩).1 =
    .error .assertion := by rfl
example : (birthInds (stableSort ℤ) (counterRng ℤ (by decide)) [0, 5, 5, 6] [3, 5, 5, 7]
    false false ⟨41, []⟩).1 = .error .value := by rfl

end examples
end Nestcheck
