import Verif.Proofs.Maximal
import Verif.Props.Births
import Verif.Props.DeadBirth
import Verif.Props.DummyData

/-
The order in which threads are numbered (C02, C08), and runs whose labels survive being
written and processed again (C16, C55).
-/

set_option linter.unusedSectionVars false

namespace Nestcheck
open Spec
variable {σ K : Type} [CommRing K] [LinearOrder K] (R : Rng σ K)

/-- Thread starts are listed by contour, on one contour by position. -/
theorem starters_sorted (b : List Int) : (starters b).Pairwise (fun s s' => ∀ v v', b[s]? = some v → b[s']? = some v' →
    v < v' ∨ (v = v' ∧ s < s')) := by
  cases hu : unique b with
  | nil =>
    have := unique_eq_nil.mp hu
    subst this
    simp [starters_nil]
  | cons u us =>
    rw [starters_eq hu]
    have hp : (u :: us).Pairwise (· < ·) := by rw [← hu]; exact unique_pairwise
    obtain ⟨hp1, hp2⟩ := List.pairwise_cons.mp hp
    rw [List.pairwise_append]
    refine ⟨?_, ?_, ?_⟩
    · refine (whereIdx_pairwise (p := (· = u)) (xs := b)).imp_of_mem ?_
      intro s s' hs hs' hlt v v' hv hv'
      have h1 := mem_bornOn.mp hs
      have h2 := mem_bornOn.mp hs'
      rw [hv] at h1; rw [hv'] at h2
      cases h1; cases h2
      exact .inr ⟨rfl, hlt⟩
    · rw [List.pairwise_flatten]
      constructor
      · intro l hl
        obtain ⟨x, -, rfl⟩ := List.mem_map.mp hl
        have hd : ((bornOn b x).drop 1).Pairwise (· < ·) :=
          List.Pairwise.sublist (List.drop_sublist _ _) (whereIdx_pairwise (p := (· = x)) (xs := b))
        refine hd.imp_of_mem ?_
        intro s s' hs hs' hlt v v' hv hv'
        have h1 := (mem_bornOn_drop.mp hs).1
        have h2 := (mem_bornOn_drop.mp hs').1
        rw [hv] at h1; rw [hv'] at h2
        cases h1; cases h2
        exact .inr ⟨rfl, hlt⟩
      · rw [List.pairwise_map]
        refine (hp2.filter _).imp ?_
        intro x x' hlt s hs s' hs' v v' hv hv'
        have h1 := (mem_bornOn_drop.mp hs).1
        have h2 := (mem_bornOn_drop.mp hs').1
        rw [hv] at h1; rw [hv'] at h2
        cases h1; cases h2
        exact .inl hlt
    · intro s hs s' hs' v v' hv hv'
      obtain ⟨l, hl, hi2⟩ := List.mem_flatten.mp hs'
      obtain ⟨x, hx, rfl⟩ := List.mem_map.mp hl
      have h1 := mem_bornOn.mp hs
      have h2 := (mem_bornOn_drop.mp hi2).1
      rw [hv] at h1; rw [hv'] at h2
      cases h1; cases h2
      exact .inl (hp1 _ (List.mem_filter.mp hx).1)

theorem starters_order {b : List Int} {k k' s s' : Nat} {v v' : Int} (hs : (starters b)[k]? = some s)
    (hs' : (starters b)[k']? = some s') (hv : b[s]? = some v) (hv' : b[s']? = some v') :
    k < k' ↔ v < v' ∨ (v = v' ∧ s < s') := by
  have hp := pairwise_iff_getElem?.mp (starters_sorted b)
  constructor
  · intro h; exact hp k k' s s' h hs hs' v v' hv hv'
  · intro h
    rcases lt_trichotomy k k' with hk | rfl | hk
    · exact hk
    · rw [hs] at hs'; cases hs'
      rw [hv] at hv'; cases hv'
      omega
    · have := hp k' k s' s hk hs' hs v' v hv' hv
      omega

/-- C08: the numbering of the threads.  Those starting on lower contours come first, those starting on the
same contour are numbered in the order of their first samples. -/
theorem C08_order {b : List Int} {labels : List Nat} {w w' : World σ}
    (h : threadsGivenBirthInds R b w = (.ok labels, w')) {s s' : Nat} (hs : ThreadStart b s)
    (hs' : ThreadStart b s') {v v' : Int} (hv : b[s]? = some v) (hv' : b[s']? = some v')
    {k k' : Nat} (hk : labels[s]? = some k) (hk' : labels[s']? = some k') :
    k < k' ↔ v < v' ∨ (v = v' ∧ s < s') := by
  have key : ∀ i k s, (starters b)[k]? = some s → Chain b s i → labels[i]? = some k := by
    rcases threadsGivenBirthInds_outcome (σ := σ) R b with ⟨-, h1⟩ | ⟨l, hth, h1⟩ | ⟨l, -, h2, -, -, h1⟩
    · rw [h1] at h; cases h
    · rw [h1] at h; cases h
      exact fun i k s hs hc => (hth.2 i k).mpr ⟨s, hs, hc⟩
    · rw [h1] at h; cases h
      exact h2
  obtain ⟨j, hj⟩ := List.mem_iff_getElem?.mp (mem_starters.mpr hs)
  obtain ⟨j', hj'⟩ := List.mem_iff_getElem?.mp (mem_starters.mpr hs')
  rw [key s j s hj .refl] at hk
  rw [key s' j' s' hj' .refl] at hk'
  cases hk; cases hk'
  exact starters_order hj hj' hv hv'

variable [IsStrictOrderedRing K]

/-- C02: the numbering of the threads of a processed run: by starting contour (the whole prior first), then by
the logl of their first samples. -/
theorem C02_order {samples : List (Sample K)} {init : K} (hc : Consistent samples init)
    (A : Argsort K) (da dw : Bool) {w w' : World σ} {r : Run K} {labels : List Int}
    (h : processSamples A R samples da dw w = (.ok r, w')) (hl : r.labels = some labels)
    {k k' i i' : Nat} (hi : FirstOf labels k i) (hi' : FirstOf labels k' i') {s s' : Sample K} (hs : s ∈ samples)
    (hs' : s' ∈ samples) (hil : r.logl[i]? = some s.logl) (hil' : r.logl[i']? = some s'.logl) :
    k < k' ↔ s.birth < s'.birth ∨ (s.birth = s'.birth ∧ s.logl < s'.logl) := by
  obtain ⟨b, hbl, hbv, hB, hval⟩ := hc.birthInds R A da dw (σ := σ)
  obtain ⟨labs, tmm, nlive, st, en, hth, hrun, -⟩ := processSamples_of R (hB w) hbl hbv
  rw [hrun] at h
  cases h
  simp only [Option.some.injEq] at hl
  subst hl
  have hrow := row_of_logl hc hs (by simpa using hil)
  have hrow' := row_of_logl hc hs' (by simpa using hil')
  have hgt : ∀ c j, heir b c = some j → c < j := fun c j h => hbv.heir_gt h
  have hfirst : ∀ {k i : Nat}, FirstOf (labs.map Int.ofNat) k i → (starters b)[k]? = some i := by
    intro k i hf
    have hlab : labs[i]? = some k := by
      have := hf.1
      rw [List.getElem?_map] at this
      cases hm : labs[i]? with
      | none => rw [hm] at this; simp at this
      | some x => rw [hm] at this; simpa using this
    obtain ⟨s, hs, hcs⟩ := (hth.2 i k).mp hlab
    have hle := chain_le hgt hcs
    rcases Nat.lt_or_ge s i with hlt | hge
    · have := (hth.2 s k).mpr ⟨s, hs, .refl⟩
      exact absurd (by rw [List.getElem?_map, this]; rfl) (hf.2 s hlt)
    · rw [hs, show s = i by omega]
  have hk := hfirst hi
  have hk' := hfirst hi'
  have hbirth : ∀ {i : Nat} {s : Sample K}, (sortBy A (·.logl) samples)[i]? = some s → ∃ v, b[i]? = some v ∧
      ((s.birth = init ∧ v = -1) ∨ ∃ (d : Nat) (t : Sample K), v = d ∧ (sortBy A (·.logl) samples)[d]? = some t ∧
        t.logl = s.birth) := by
    intro i s hs
    rcases hval i s hs with ⟨h1, h2⟩ | ⟨-, d, t, h1, h2, h3, -⟩
    · exact ⟨_, h2, .inl ⟨h1, rfl⟩⟩
    · exact ⟨_, h1, .inr ⟨d, t, rfl, h2, h3⟩⟩
  obtain ⟨v, hv, hvs⟩ := hbirth hrow
  obtain ⟨v', hv', hvs'⟩ := hbirth hrow'
  rw [starters_order hk hk' hv hv', hc.logl_lt_iff A hrow hrow']
  have hlt : ∀ {v v' : Int} {s s' : Sample K}, ((s.birth = init ∧ v = -1) ∨ ∃ (d : Nat) (t : Sample K), v = d ∧
      (sortBy A (·.logl) samples)[d]? = some t ∧ t.logl = s.birth) → ((s'.birth = init ∧ v' = -1) ∨
      ∃ (d : Nat) (t : Sample K), v' = d ∧ (sortBy A (·.logl) samples)[d]? = some t ∧ t.logl = s'.birth) →
      (v < v' ↔ s.birth < s'.birth) := by
    rintro v v' s s' (⟨e1, rfl⟩ | ⟨d, t, rfl, ht, e1⟩) (⟨e2, rfl⟩ | ⟨d', t', rfl, ht', e2⟩)
    · rw [e1, e2]; simp
    · rw [e1, ← e2]
      have := hc.below t' (hc.mem_sorted A ht')
      simp only [this, iff_true]; omega
    · rw [e2, ← e1]
      have := hc.below t (hc.mem_sorted A ht)
      simp only [not_lt.mpr this.le, iff_false]; omega
    · rw [← e1, ← e2, hc.logl_lt_iff A ht ht']; omega
  have h1 := hlt hvs hvs'
  have h2 := hlt hvs' hvs
  have h3 : v = v' ↔ s.birth = s'.birth := by
    constructor
    · intro e; exact le_antisymm (not_lt.mp (fun h => by have := h2.mpr h; omega)) (not_lt.mp (fun h => by have := h1.mpr h; omega))
    · intro e; rw [e] at h1 h2; simp at h1 h2; omega
  rw [h1, h3]

/-! ### Labels that survive -/

/-- Threads are numbered in the order of their first samples. -/
def Spec.LabelsInOrder (labels : List Int) : Prop :=
  ∀ k k' i i', FirstOf labels k i → FirstOf labels k' i' → k < k' → i < i'

theorem exists_consecutive {labels : List Int} {f j : Nat} {k : Int} (hf : f < j) (h1 : labels[f]? = some k)
    (h2 : labels[j]? = some k) : ∃ q, Consecutive labels q j := by
  have hex : ∃ d, d < j ∧ labels[j - 1 - d]? = some k :=
    ⟨j - 1 - f, by omega, by rw [show j - 1 - (j - 1 - f) = f by omega]; exact h1⟩
  classical
  obtain ⟨hd1, hd2⟩ := Nat.find_spec hex
  refine ⟨j - 1 - Nat.find hex, by omega, k, hd2, h2, ?_⟩
  intro m' hm1 hm2 hm3
  refine Nat.find_min hex (m := j - 1 - m') (by omega) ⟨by omega, ?_⟩
  rw [show j - 1 - (j - 1 - m') = m' by omega]
  exact hm3

/-- Labels in order of first samples are determined by the division into threads. -/
theorem labels_unique {L L' : List Int} {n n' : Nat} (hlen : L.length = L'.length)
    (hr : ∀ k : Int, k ∈ L ↔ 0 ≤ k ∧ k < n) (hr' : ∀ k : Int, k ∈ L' ↔ 0 ≤ k ∧ k < n')
    (ho : LabelsInOrder L) (ho' : LabelsInOrder L') (hc : ∀ i j, Consecutive L i j ↔ Consecutive L' i j) : L = L' := by
  have main : ∀ i : Nat, L[i]? = L'[i]? := by
    intro i
    induction i using Nat.strong_induction_on with
    | _ i ih =>
      by_cases hi : i < L.length
      · have hk := List.getElem?_eq_getElem hi
        have hk' := List.getElem?_eq_getElem (hlen ▸ hi : i < L'.length)
        by_cases hex : ∃ j < i, L[j]? = some L[i]
        · obtain ⟨j, hj, hjk⟩ := hex
          obtain ⟨q, hq⟩ := exists_consecutive hj hjk hk
          obtain ⟨-, k', q2', q3', -⟩ := (hc q i).mp hq
          obtain ⟨q1, k, q2, q3, -⟩ := hq
          rw [q3, ← q2, ih q q1, q2', q3']
        · -- the first sample of a thread in both
          have hex' : ¬ ∃ j < i, L'[j]? = some L'[i] := by
            rintro ⟨j, hj, hjk⟩
            obtain ⟨q, hq⟩ := exists_consecutive hj hjk hk'
            obtain ⟨q1, k, q2, q3, -⟩ := (hc q i).mpr hq
            exact hex ⟨q, q1, by rw [q2, ← q3, hk]⟩
          have hset : ∀ {M : List Int} {m : Nat} {k : Int}, (∀ k : Int, k ∈ M ↔ 0 ≤ k ∧ k < m) → LabelsInOrder M →
              M[i]? = some k → (¬ ∃ j < i, M[j]? = some k) → 0 ≤ k ∧ ∀ x : Int, (∃ j < i, M[j]? = some x) ↔ 0 ≤ x ∧ x < k := by
            intro M m k hM hoM hMi hno
            have hf : FirstOf M k i := ⟨hMi, fun j hj he => hno ⟨j, hj, he⟩⟩
            have hkm := (hM k).mp (List.mem_of_getElem? hMi)
            refine ⟨hkm.1, fun x => ⟨?_, ?_⟩⟩
            · rintro ⟨j, hj, hx⟩
              have hxm := List.mem_of_getElem? hx
              refine ⟨((hM x).mp hxm).1, ?_⟩
              by_contra hle
              rcases lt_or_eq_of_le (not_lt.mp hle) with h | h
              · obtain ⟨f, hf'⟩ := exists_firstOf hxm
                have := hoM k x i f hf hf' h
                exact hf'.2 j (by omega) hx
              · rw [h] at hno; exact hno ⟨j, hj, hx⟩
            · rintro ⟨h0, h1⟩
              obtain ⟨f, hf'⟩ := exists_firstOf ((hM x).mpr ⟨h0, by omega⟩)
              exact ⟨f, hoM x k f i hf' hf h1, hf'.1⟩
          obtain ⟨a0, a⟩ := hset hr ho hk hex
          obtain ⟨a0', a'⟩ := hset hr' ho' hk' hex'
          have hsame : ∀ x : Int, (0 ≤ x ∧ x < L[i]) ↔ (0 ≤ x ∧ x < L'[i]) := by
            intro x
            rw [← a, ← a']
            constructor
            · rintro ⟨j, hj, hx⟩; exact ⟨j, hj, by rw [← ih j hj]; exact hx⟩
            · rintro ⟨j, hj, hx⟩; exact ⟨j, hj, by rw [ih j hj]; exact hx⟩
          rw [hk, hk']
          congr 1
          have h1 := (hsame L[i]).not
          have h2 := (hsame L'[i]).not
          omega
      · rw [List.getElem?_eq_none (by omega), List.getElem?_eq_none (by omega)]
  exact List.ext_getElem? main

/-- The births within a thread, by position. -/
theorem chain_birth_at {b : K} {start : WithBot K} {ts : List (List K)} {xs : List K} (h : ts.length = xs.length)
    {s : Sample K} (hs : s ∈ chain b start ts xs) :
    (xs[0]? = some s.logl ∧ s.birth = firstBirth b start) ∨
      ∃ m : Nat, xs[m]? = some s.birth ∧ xs[m + 1]? = some s.logl := by
  induction xs generalizing ts b start with
  | nil => simp [chain] at hs
  | cons x xs ih =>
    cases ts with
    | nil => simp at h
    | cons t ts =>
      rw [chain_cons] at hs
      rcases List.mem_cons.mp hs with rfl | hs
      · exact .inl ⟨rfl, rfl⟩
      · right
        rcases ih (by simpa using h) hs with ⟨h1, h2⟩ | ⟨m, h1, h2⟩
        · have h2' : s.birth = x := h2
          exact ⟨0, by simp [h2'], by simpa using h1⟩
        · exact ⟨m + 1, by simpa using h1, by simpa using h2⟩

/-- The births written for the samples of a run. -/
theorem written_births {r : Run K} {labels : List Int} {tmm : List (WithBot K × K)}
    (hv : ValidWith r labels tmm) (hd : r.logl.Pairwise (· < ·)) (init : K) {s : Sample K} {j : Nat}
    (hs : s ∈ writtenSamples r labels tmm init)
    (hj : r.logl[j]? = some s.logl) :
    (∃ (k : Nat) (mm : WithBot K × K), FirstOf labels k j ∧ tmm[k]? = some mm ∧ s.birth = firstBirth init mm.1) ∨
      ∃ i, Consecutive labels i j ∧ r.logl[i]? = some s.birth := by
  obtain ⟨k, hk, hsk⟩ := List.mem_flatMap.mp hs
  rw [List.mem_range] at hk
  have hlenp : (pick labels (k : Int) r.theta).length = (pick labels (k : Int) r.logl).length := by
    rw [length_pick (by rw [hv.labels_len, hv.theta_len]), length_pick (by rw [hv.labels_len])]
  have hinj : ∀ {i : Nat}, r.logl[i]? = some s.logl → i = j := by
    intro i hi
    have hp := pairwise_iff_getElem?.mp hd
    rcases lt_trichotomy i j with h | h | h
    · exact absurd (hp i j _ _ h hi hj) (lt_irrefl _)
    · exact h
    · exact absurd (hp j i _ _ h hj hi) (lt_irrefl _)
  rcases chain_birth_at hlenp hsk with ⟨h1, h2⟩ | ⟨m, h1, h2⟩
  · obtain ⟨i, hi, hil⟩ := pick_head h1
    cases hinj hil
    left
    refine ⟨k, tmm[k], hi, List.getElem?_eq_getElem hk, ?_⟩
    rw [h2, List.getD_eq_getElem?_getD, List.getElem?_eq_getElem hk]
    rfl
  · obtain ⟨i, i', hc, hi, hi'⟩ := pick_consec h1 h2
    cases hinj hi'
    exact .inr ⟨i, hc, hi⟩

theorem consecutive_right {labels : List Int} {i j j' : Nat} (h : Consecutive labels i j)
    (h' : Consecutive labels i j') : j = j' := by
  obtain ⟨a1, k, a2, a3, a4⟩ := h
  obtain ⟨b1, k', b2, b3, b4⟩ := h'
  rw [a2] at b2
  cases b2
  rcases lt_trichotomy j j' with hlt | he | hlt
  · exact absurd a3 (b4 j a1 hlt)
  · exact he
  · exact absurd b3 (a4 j' b1 hlt)

theorem consecutive_left {labels : List Int} {i i' j : Nat} (h : Consecutive labels i j)
    (h' : Consecutive labels i' j) : i = i' := by
  obtain ⟨a1, k, a2, a3, a4⟩ := h
  obtain ⟨b1, k', b2, b3, b4⟩ := h'
  rw [a3] at b3
  cases b3
  rcases lt_trichotomy i i' with hlt | he | hlt
  · exact absurd b2 (a4 i' hlt b1)
  · exact he
  · exact absurd a2 (b4 i hlt a1)

/-- C16, third part.  A run whose threads all start from the whole prior and are numbered in the order of their
first samples: writing it and processing it again gives back the same run, labels and thread ends included, with
live counts equal to the number of threads present. -/
theorem C16_static {r : Run K} {labels : List Int} {tmm : List (WithBot K × K)}
    (h : Writable r labels tmm) (hbot : ∀ p ∈ tmm, p.1 = ⊥) (ho : LabelsInOrder labels)
    {init : K} (hi : ∀ l ∈ r.logl, init < l) (A : Argsort K) (da dw da' dw' : Bool) :
    ∃ r' : Run K, (∀ w : World σ, (runDeadBirth A r init da' dw' >>= fun s => processSamples A R s da dw) w =
        (.ok r', w)) ∧ r' = { r with nlive := r'.nlive } ∧ r'.nlive.length = r.logl.length ∧
      ∀ (i : Nat) (l : K), r.logl[i]? = some l → r'.nlive[i]? =
        some (tmm.countP (fun p => decide (l ≤ p.2)) : Int) := by
  obtain ⟨r', e1, hv', e2, e3, e4, e5⟩ := C16_rewrite R h hi A da dw da' dw' (σ := σ)
  refine ⟨r', e1, ?_, e4, ?_⟩
  swap
  · intro i l hil
    rw [e5 i l hil]
    congr 2
    apply List.countP_congr
    intro p hp
    simp [hbot p hp]
  have hv := h.toValidWith
  obtain ⟨hstrict, hcons, hlog, hrows⟩ := written_consistent h hi A
  set S := writtenSamples r labels tmm init with hS
  have hp : (sortBy A (fun s : Sample K => s.logl) S).Perm S := sortBy_perm A _ S
  have hproc : ∀ w : World σ, processSamples A R S da dw w = (.ok r', w) := by
    intro w
    rw [← e1 w, M.bind_ok (runDeadBirth_ok hv hstrict init da' dw' w)]
    exact C04_row_order R A A hp.symm hcons.distinct da dw w
  have w0 : World σ := ⟨R.seed 0, []⟩
  obtain ⟨labels', tmm', l1, l2, l3, l4, l5, l6, l7⟩ := C02_thread_partition R hcons A da dw w0 w0 (hproc w0)
  have hSl : (sortBy A (fun s : Sample K => s.logl) S).map (·.logl) = r.logl := by
    have := congrArg (List.map (·.1)) hrows
    rwa [List.map_map, List.map_fst_zip (by rw [hv.theta_len])] at this
  have hpos : ∀ {j : Nat} {l : K}, r.logl[j]? = some l → ∃ s ∈ S, s.logl = l ∧
      (sortBy A (fun s : Sample K => s.logl) S)[j]? = some s := by
    intro j l hj
    rw [← hSl, List.getElem?_map] at hj
    cases hs : (sortBy A (fun s : Sample K => s.logl) S)[j]? with
    | none => rw [hs] at hj; simp at hj
    | some s =>
      rw [hs] at hj
      exact ⟨s, hp.mem_iff.mp (List.mem_of_getElem? hs), by simpa using hj, rfl⟩
  have hmemS : ∀ {s : Sample K}, s ∈ S → ∃ j : Nat, r.logl[j]? = some s.logl := fun {s} hs =>
    List.mem_iff_getElem?.mp (hlog.mem_iff.mp (List.mem_map.mpr ⟨s, hs, rfl⟩))
  have hpw := pairwise_iff_getElem?.mp hstrict
  have hinj : ∀ {i j : Nat} {l : K}, r.logl[i]? = some l → r.logl[j]? = some l → i = j := by
    intro i j l hil hjl
    rcases lt_trichotomy i j with hh | hh | hh
    · exact absurd (hpw i j _ _ hh hil hjl) (lt_irrefl _)
    · exact hh
    · exact absurd (hpw j i _ _ hh hjl hil) (lt_irrefl _)
  -- births of the samples
  have hwb : ∀ {s : Sample K} {j : Nat}, s ∈ S → r.logl[j]? = some s.logl →
      ((∃ k : Nat, FirstOf labels k j) ∧ s.birth = init) ∨ ∃ i, Consecutive labels i j ∧ r.logl[i]? = some s.birth := by
    intro s j hs hj
    rcases written_births hv hstrict init hs hj with ⟨k, mm, a1, a2, a3⟩ | a
    · left
      rw [hbot mm (List.mem_of_getElem? a2)] at a3
      exact ⟨⟨k, a1⟩, a3⟩
    · exact .inr a
  have hnotinit : ∀ {j : Nat}, ¬ r.logl[j]? = some init := fun hj =>
    lt_irrefl _ (hi init (List.mem_of_getElem? hj))
  have hheir : OneHeir S init := by
    intro s hs t ht hbt hbi
    obtain ⟨j, hj⟩ := hmemS hs
    obtain ⟨j', hj'⟩ := hmemS ht
    obtain ⟨i, a1, a2⟩ := (hwb hs hj).resolve_left (fun hc => hbi hc.2)
    obtain ⟨i', b1, b2⟩ := (hwb ht hj').resolve_left (fun hc => hbi (hbt.trans hc.2))
    rw [← hbt] at b2
    cases hinj a2 b2
    cases consecutive_right a1 b1
    rw [hj] at hj'
    simpa using hj'
  have hbot' : ∀ p ∈ tmm', p.1 = ⊥ := (process_static R hcons A da dw (hproc w0) l2).mpr hheir
  have hlen' : labels'.length = r.logl.length := by rw [l3, ← hlog.length_eq, List.length_map]
  have hback : ∀ {i j : Nat}, Consecutive labels' i j → Consecutive labels i j := by
    intro i j hc
    obtain ⟨a1, k, a2, a3, -⟩ := id hc
    have hi' : i < r.logl.length := by rw [← hlen']; exact (List.getElem?_eq_some_iff.mp a2).1
    have hj' : j < r.logl.length := by rw [← hlen']; exact (List.getElem?_eq_some_iff.mp a3).1
    obtain ⟨s, s1, s2, -⟩ := hpos (List.getElem?_eq_getElem hi')
    obtain ⟨t, t1, t2, -⟩ := hpos (List.getElem?_eq_getElem hj')
    have hsi : r.logl[i]? = some s.logl := by rw [s2]; exact List.getElem?_eq_getElem hi'
    have htj : r.logl[j]? = some t.logl := by rw [t2]; exact List.getElem?_eq_getElem hj'
    have hb := l5 i j s s1 t t1 hc (by rw [e2]; exact hsi) (by rw [e2]; exact htj)
    rcases hwb t1 htj with ⟨-, b⟩ | ⟨i0, b1, b2⟩
    · rw [← hb, b] at hsi
      exact absurd hsi hnotinit
    · rw [hb] at b2
      cases hinj b2 hsi
      exact b1
  have hcc : ∀ i j, Consecutive labels i j ↔ Consecutive labels' i j := by
    intro i j
    refine ⟨fun hc => ?_, hback⟩
    obtain ⟨a1, k, a2, a3, -⟩ := id hc
    have hi' : i < r.logl.length := by rw [← hv.labels_len]; exact (List.getElem?_eq_some_iff.mp a2).1
    have hj' : j < r.logl.length := by rw [← hv.labels_len]; exact (List.getElem?_eq_some_iff.mp a3).1
    obtain ⟨s, s1, s2, s3⟩ := hpos (List.getElem?_eq_getElem hi')
    obtain ⟨t, t1, t2, t3⟩ := hpos (List.getElem?_eq_getElem hj')
    have htj : r.logl[j]? = some t.logl := by rw [t2]; exact List.getElem?_eq_getElem hj'
    rcases hwb t1 htj with ⟨⟨k', b1, b2⟩, -⟩ | ⟨i0, b1, b2⟩
    · rw [a3] at b1
      cases b1
      exact absurd a2 (b2 i a1)
    · cases consecutive_left hc b1
      have hb : t.birth = s.logl := by
        rw [s2]
        rw [List.getElem?_eq_getElem hi'] at b2
        simpa using b2.symm
      obtain ⟨m, m1, m2⟩ := process_maximal R hcons A da dw (hproc w0) l1 s3 t3 hb
      cases consecutive_right hc (hback m2)
      exact m2
  have ho' : LabelsInOrder labels' := by
    intro k k' i i' hf hf' hlt
    have b1 := (l4 k).mp (List.mem_of_getElem? hf.1)
    have b2 := (l4 k').mp (List.mem_of_getElem? hf'.1)
    obtain ⟨n, rfl⟩ := Int.eq_ofNat_of_zero_le b1.1
    obtain ⟨n', rfl⟩ := Int.eq_ofNat_of_zero_le b2.1
    have hi1 : i < r.logl.length := by rw [← hlen']; exact (List.getElem?_eq_some_iff.mp hf.1).1
    have hi2 : i' < r.logl.length := by rw [← hlen']; exact (List.getElem?_eq_some_iff.mp hf'.1).1
    obtain ⟨s, s1, s2, -⟩ := hpos (List.getElem?_eq_getElem hi1)
    obtain ⟨t, t1, t2, -⟩ := hpos (List.getElem?_eq_getElem hi2)
    have hsi : r.logl[i]? = some s.logl := by rw [s2]; exact List.getElem?_eq_getElem hi1
    have htj : r.logl[i']? = some t.logl := by rw [t2]; exact List.getElem?_eq_getElem hi2
    have hbi : ∀ {n i : Nat} {s : Sample K}, FirstOf labels' n i → s ∈ S → r.logl[i]? = some s.logl →
        n < tmm'.length → s.birth = init := by
      intro n i s hf hs hsi hn
      have := l6 n i s hs _ hf (by rw [e2]; exact hsi) (List.getElem?_eq_getElem hn)
      rw [hbot' _ (List.getElem_mem hn)] at this
      by_contra hne
      rw [if_neg hne] at this
      exact WithBot.bot_ne_coe this
    have hlt' := (C02_order R hcons A da dw (hproc w0) l1 hf hf' s1 t1 (by rw [e2]; exact hsi)
      (by rw [e2]; exact htj)).mp (by omega)
    rw [hbi hf s1 hsi (by omega), hbi hf' t1 htj (by omega)] at hlt'
    rcases hlt' with hlt' | ⟨-, hlt'⟩
    · exact absurd hlt' (lt_irrefl _)
    · by_contra hge
      rcases Nat.lt_or_eq_of_le (not_lt.mp hge) with hh | hh
      · exact absurd (hpw i' i _ _ hh htj hsi) (lt_asymm hlt')
      · rw [hh, hsi] at htj
        have : s.logl = t.logl := by simpa using htj
        rw [this] at hlt'
        exact lt_irrefl _ hlt'
  obtain ⟨hl, ht, -, h2, -, hs, hok⟩ := validWith_iff.mp hv
  obtain ⟨q1, -, q3⟩ := (threadsOK_iff_pick hs h2).mp hok
  have hlab : labels' = labels := labels_unique (by rw [hlen', h2]) l4 q1 ho' ho (fun i j => (hcc i j).symm)
  subst hlab
  have htl : tmm'.length = tmm.length := by
    have a := fun k : Int => (l4 k).symm.trans (q1 k)
    have a1 := a tmm'.length
    have a2 := a tmm.length
    omega
  obtain ⟨labels2, tmm2, hv2⟩ := hv'
  obtain ⟨hl2, ht2, -, h22, -, hs2, hok2⟩ := validWith_iff.mp hv2
  rw [l1] at hl2; cases hl2
  rw [l2] at ht2; cases ht2
  obtain ⟨-, -, q3'⟩ := (threadsOK_iff_pick hs2 h22).mp hok2
  have htt : tmm' = tmm := by
    apply List.ext_getElem htl
    intro k hk1 hk2
    have a := q3 k _ (List.getElem?_eq_getElem hk2)
    have b := q3' k _ (List.getElem?_eq_getElem hk1)
    rw [e2] at b
    apply Prod.ext
    · rw [hbot' _ (List.getElem_mem hk1), hbot _ (List.getElem_mem hk2)]
    · exact le_antisymm (a.1 _ b.2).2 (b.1 _ a.2).2
  subst htt
  cases r' with
  | mk a b c d e =>
    simp only at e2 e3 l1 l2
    simp only [Run.mk.injEq, true_and]
    exact ⟨e2, e3, l1.trans hl.symm, l2.trans ht.symm⟩

/-- C16: if moreover the live counts are the numbers of threads present, the run itself is returned. -/
theorem C16_static_same {r : Run K} {labels : List Int} {tmm : List (WithBot K × K)}
    (h : Writable r labels tmm) (hbot : ∀ p ∈ tmm, p.1 = ⊥) (ho : LabelsInOrder labels)
    (hlive : ∀ (i : Nat) (l : K), r.logl[i]? = some l → r.nlive[i]? =
      some (tmm.countP (fun p => decide (l ≤ p.2)) : Int))
    {init : K} (hi : ∀ l ∈ r.logl, init < l) (A : Argsort K) (da dw da' dw' : Bool) (w : World σ) :
    (runDeadBirth A r init da' dw' >>= fun s => processSamples A R s da dw) w = (.ok r, w) := by
  obtain ⟨r', h1, h2, h3, h4⟩ := C16_static R h hbot ho hi A da dw da' dw' (σ := σ)
  have hl : r'.logl = r.logl := by rw [h2]
  have hn : r'.nlive = r.nlive := nlive_ext (by rw [h3, hl]) h.nlive_len hl (fun _ => rfl)
    (fun i l hil => h4 i l (by rw [← hl]; exact hil)) hlive
  rw [h1 w, h2, hn]

/-! ### Dummy runs -/

theorem sortThreads_sorted (ts : List (Run K)) :
    (sortThreads ts).Pairwise (fun a b => a.logl.headD 0 ≤ b.logl.headD 0) := by
  have : Std.Total (fun a b : Run K => a.logl.headD 0 ≤ b.logl.headD 0) := ⟨fun a b => le_total _ _⟩
  have : IsTrans (Run K) (fun a b : Run K => a.logl.headD 0 ≤ b.logl.headD 0) := ⟨fun a b c h h' => le_trans h h'⟩
  exact List.pairwise_insertionSort _ _

theorem headD_sorted {L : List K} (hs : L.Pairwise (· < ·)) {l : K} (hl : l ∈ L) : L.headD 0 ∈ L ∧ L.headD 0 ≤ l := by
  cases L with
  | nil => simp at hl
  | cons x xs =>
    refine ⟨by simp, ?_⟩
    rcases List.mem_cons.mp hl with rfl | h
    · exact le_rfl
    · exact ((List.pairwise_cons.mp hs).1 l h).le

theorem flatMap_disjoint {α β : Type} {L : List α} {f : α → List β} (h : (L.flatMap f).Nodup) {m m' : Nat} {a a' : α}
    (hm : L[m]? = some a) (hm' : L[m']? = some a') {b : β} (hb : b ∈ f a) (hb' : b ∈ f a') : m = m' := by
  have hp := pairwise_iff_getElem?.mp (List.nodup_flatMap.mp h).2
  rcases lt_trichotomy m m' with hlt | he | hlt
  · exact absurd hb' ((hp m m' a a' hlt hm hm') hb)
  · exact he
  · exact absurd hb ((hp m' m a' a hlt hm' hm) hb')

theorem exists_perm_map {α β : Type} {f : α → β} {L : List α} {l : List β} (h : l.Perm (L.map f)) :
    ∃ L' : List α, L'.Perm L ∧ L'.map f = l := by
  have h2 : List.Forall₂ (fun b a => b = f a) (L.map f) L := by
    rw [List.forall₂_map_left_iff]; exact List.forall₂_same.mpr (fun _ _ => rfl)
  obtain ⟨L', h3, h4⟩ := List.perm_comp_forall₂ h h2
  refine ⟨L', h4, ?_⟩
  clear h h2 h4
  induction h3 with
  | nil => rfl
  | cons h _ ih => rw [List.map_cons, ih, h]

/-- C55, the labels, for numbers drawn which are all different: each label stands for the logls drawn for one
thread, and threads are numbered in the order of their first samples. -/
theorem C55_labels {A : Argsort K} {n nthread : Nat} (hn : 0 < n) (hk : 0 < nthread) (d : Nat)
    (seed : Option Nat) {range : K} (hr : 0 < range) (w : World σ)
    {Ds : List (List K × List K)} {s : σ} (hDs : threadDraws R n d nthread (seedState R seed w.rng) = (Ds, s))
    (hd : (Ds.flatMap (·.1)).Nodup) :
    ∃ run labels tmm, getDummyRun A R nthread n d seed ⊥ range w = (.ok run, ⟨s, w.warns⟩) ∧
      Writable run labels tmm ∧ LabelsInOrder labels ∧
      (∀ (i : Nat) (l : K), run.logl[i]? = some l → run.nlive[i]? =
        some (Ds.countP (fun D => decide (∃ x ∈ D.1, l ≤ x * range)) : Int)) ∧
      ∃ Ds' : List (List K × List K), Ds'.Perm Ds ∧ ∀ (k : Nat) (D : List K × List K), Ds'[k]? = some D →
        ∀ (i : Nat) (l : K), run.logl[i]? = some l → (labels[i]? = some (k : Int) ↔ ∃ x ∈ D.1, l = x * range) := by
  have hd1 : ∀ D ∈ Ds, D.1.Nodup := (List.nodup_flatMap.mp hd).1
  obtain ⟨run, labels, tmm, h1, h2, h3, h4, h5, h6, h7, h8, h9, h10, h11, h12, ends, m1, m2, m3, m4⟩ :=
    dummyRun_core R (A := A) hn hk d seed hr w hDs hd1
  have hsz := threadDraws_sizes R n d nthread (seedState R seed w.rng)
  rw [hDs] at hsz
  set T := dummyThreads n d range ⊥ Ds with hT
  have hTp : T.Perm (Ds.map (mkThread n d range ⊥)) := sortThreads_perm _
  have hup : ∀ t ∈ T, ThreadUpTo n t :=
    dummyThreads_upTo hn hr (fun D hD => (hsz D hD).1) hd1 (fun h => absurd rfl h)
  have hmk : ∀ D : List K × List K, (mkThread n d range ⊥ D).logl.Perm (D.1.map (· * range)) := by
    intro D
    have := mkThread_logl (n := n) (d := d) (range := range) (start := ⊥) (D := D)
    simpa [firstBirth] using this
  have hinjr : Function.Injective (fun x : K => x * range) := fun a b hab => by
    rcases lt_trichotomy a b with h | h | h
    · exact absurd hab (ne_of_lt (mul_lt_mul_of_pos_right h hr))
    · exact h
    · exact absurd hab.symm (ne_of_lt (mul_lt_mul_of_pos_right h hr))
  have hTl : (T.flatMap (·.logl)).Perm run.logl := by
    refine ((hTp.flatMap_right _).trans ?_).trans h4.symm
    rw [List.flatMap_map]
    exact List.Perm.flatMap_left _ (fun D _ => hmk D)
  have hnodup : run.logl.Nodup := by
    rw [h4.nodup_iff]
    have := hd.map hinjr
    rwa [List.map_flatMap] at this
  have hTnd : (T.flatMap (·.logl)).Nodup := hTl.nodup_iff.mpr hnodup
  obtain ⟨hl, ht, g1, g2, g3, hs, hok⟩ := validWith_iff.mp h2
  obtain ⟨q1, -, q3⟩ := (threadsOK_iff_pick hs g2).mp hok
  have hstrict : run.logl.Pairwise (· < ·) := (hs.and hnodup).imp (fun h => lt_of_le_of_ne h.1 h.2)
  have hpw := pairwise_iff_getElem?.mp hstrict
  have hbot : ∀ p ∈ tmm, p.1 = ⊥ := by
    intro p hp
    obtain ⟨D, -, rfl⟩ := List.mem_map.mp (h3.mem_iff.mp hp)
    rfl
  -- a sample has the label of its thread
  have hlab : ∀ {i k : Nat} {l : K} {t : Run K}, run.logl[i]? = some l → T[k]? = some t →
      (labels[i]? = some (k : Int) ↔ l ∈ t.logl) := by
    intro i k l t hil hkt
    have hi : i < labels.length := by rw [g2]; exact (List.getElem?_eq_some_iff.mp hil).1
    obtain ⟨m, u, e1, e2, e3⟩ := h12 i l labels[i] hil (List.getElem?_eq_getElem hi)
    rw [List.getElem?_eq_getElem hi, e1]
    constructor
    · intro hh
      have : m = k := by simpa using hh
      subst this
      rw [e2] at hkt
      cases hkt
      exact e3
    · intro hh
      rw [flatMap_disjoint hTnd e2 hkt e3 hh]
  have hTstrict : ∀ t ∈ T, t.logl.Pairwise (· < ·) := fun t ht =>
    pairwise_iff_getElem?.mpr ((hup t ht).2 (List.replicate n 0) (by simp)).strict
  have hend : ∀ D ∈ Ds, (minMax (mkThread n d range ⊥ D)).2 ∈ D.1.map (· * range) ∧
      ∀ l ∈ D.1.map (· * range), l ≤ (minMax (mkThread n d range ⊥ D)).2 := by
    intro D hD
    obtain ⟨e1, e2⟩ := mkThread_end (d := d) hn hr (start := ⊥) (hsz D hD).1 (hd1 D hD) (fun h => absurd rfl h)
    exact ⟨(hmk D).mem_iff.mp e1, fun l hl => e2 l ((hmk D).mem_iff.mpr hl)⟩
  refine ⟨run, labels, tmm, h1, ⟨h2, ?_, ?_, ?_⟩, ?_, ?_, ?_⟩
  · intro i j x y hij hx hy
    exact ne_of_lt (hpw i j x y hij hx hy)
  · intro k mm hmm l _
    rw [hbot mm (List.mem_of_getElem? hmm)]
    exact WithBot.bot_lt_coe l
  · intro mm hmm s hs
    rw [hbot mm hmm] at hs
    exact absurd hs WithBot.bot_ne_coe
  · intro k k' i i' hf hf' hlt
    have hfirst : ∀ {k : Int} {i : Nat}, FirstOf labels k i → ∃ (m : Nat) (t : Run K), k = m ∧ T[m]? = some t ∧
        run.logl[i]? = some (t.logl.headD 0) := by
      intro k i hf
      have hi : i < run.logl.length := by rw [← g2]; exact (List.getElem?_eq_some_iff.mp hf.1).1
      obtain ⟨m, t, e1, e2, e3⟩ := h12 i _ k (List.getElem?_eq_getElem hi) hf.1
      obtain ⟨c1, c2⟩ := headD_sorted (hTstrict t (List.mem_of_getElem? e2)) e3
      refine ⟨m, t, e1, e2, ?_⟩
      obtain ⟨j, hj⟩ := List.mem_iff_getElem?.mp
        (hTl.mem_iff.mp (List.mem_flatMap.mpr ⟨t, List.mem_of_getElem? e2, c1⟩))
      have hjk : labels[j]? = some k := by rw [e1]; exact (hlab hj e2).mpr c1
      have hle : i ≤ j := by
        by_contra hc
        exact hf.2 j (by omega) hjk
      rcases Nat.lt_or_eq_of_le hle with hh | hh
      · exact absurd (hpw i j _ _ hh (List.getElem?_eq_getElem hi) hj) (not_lt.mpr c2)
      · rw [hh]; exact hj
    obtain ⟨m, t, rfl, e2, e3⟩ := hfirst hf
    obtain ⟨m', t', rfl, e2', e3'⟩ := hfirst hf'
    have hle := pairwise_iff_getElem?.mp (sortThreads_sorted (Ds.map (mkThread n d range ⊥))) m m' t t' (by omega)
      e2 e2'
    by_contra hge
    rcases Nat.lt_or_eq_of_le (not_lt.mp hge) with hh | hh
    · exact absurd (hpw i' i _ _ hh e3' e3) (not_lt.mpr hle)
    · have := hf.1
      rw [← hh, hf'.1] at this
      simp at this
      omega
  · intro i l hil
    have hi : i < run.logl.length := (List.getElem?_eq_some_iff.mp hil).1
    rw [m4 i hi]
    congr 2
    have e1 : ends.countP (fun k => decide (i ≤ k)) =
        (ends.filterMap (fun k => run.logl[k]?)).countP (fun x => decide (l ≤ x)) := by
      rw [List.countP_filterMap]
      apply List.countP_congr
      intro k hk
      have hkl := List.getElem?_eq_getElem (m2 k hk)
      rw [hkl]
      simp only [decide_eq_true_eq, Option.map_some, Option.getD_some]
      constructor
      · intro hle
        rcases Nat.lt_or_eq_of_le hle with hh | hh
        · exact (hpw i k _ _ hh hil hkl).le
        · subst hh
          rw [hil] at hkl
          simp only [Option.some.injEq] at hkl
          exact hkl.le
      · intro hle
        by_contra hc
        exact absurd (hpw k i _ _ (by omega) hkl hil) (not_lt.mpr hle)
    rw [e1, m3.countP_eq, List.countP_map, h3.countP_eq, List.countP_map]
    apply List.countP_congr
    intro D hD
    simp only [Function.comp, decide_eq_true_eq]
    obtain ⟨e1, e2⟩ := hend D hD
    constructor
    · intro h
      obtain ⟨x, hx, e⟩ := List.mem_map.mp e1
      exact ⟨x, hx, by rw [e]; exact h⟩
    · rintro ⟨x, hx, hlx⟩
      exact le_trans hlx (e2 _ (List.mem_map_of_mem hx))
  · obtain ⟨Ds', p1, p2⟩ := exists_perm_map hTp
    refine ⟨Ds', p1, ?_⟩
    intro k D hkD i l hil
    have hkt : T[k]? = some (mkThread n d range ⊥ D) := by rw [← p2, List.getElem?_map, hkD]; rfl
    rw [hlab hil hkt, (hmk D).mem_iff, List.mem_map]
    exact ⟨fun ⟨x, hx, e⟩ => ⟨x, hx, e.symm⟩, fun ⟨x, hx, e⟩ => ⟨x, hx, e.symm⟩⟩

/-- C55: writing such a dummy run and processing it gives back the run, labels included. -/
theorem C55_process {A : Argsort K} {n nthread : Nat} (hn : 0 < n) (hk : 0 < nthread) (d : Nat)
    (seed : Option Nat) {range : K} (hr : 0 < range) (w : World σ)
    {Ds : List (List K × List K)} {s : σ} (hDs : threadDraws R n d nthread (seedState R seed w.rng) = (Ds, s))
    (hd : (Ds.flatMap (·.1)).Nodup) {init : K} (hi : init < 0) (da dw da' dw' : Bool) :
    ∃ run, getDummyRun A R nthread n d seed ⊥ range w = (.ok run, ⟨s, w.warns⟩) ∧
      ∀ v : World σ, (runDeadBirth A run init da' dw' >>= fun x => processSamples A R x da dw) v = (.ok run, v) := by
  obtain ⟨run, labels, tmm, h1, h2, h3, h4, -⟩ := C55_labels R (A := A) hn hk d seed hr w hDs hd
  have hd1 : ∀ D ∈ Ds, D.1.Nodup := (List.nodup_flatMap.mp hd).1
  obtain ⟨run', labels', tmm', g1, g2, g3, g4, -⟩ := dummyRun_core R (A := A) hn hk d seed hr w hDs hd1
  rw [h1] at g1
  cases g1
  have ht : tmm' = tmm := by
    have a := g2.tmm_eq
    rw [h2.tmm_eq] at a
    simpa using a.symm
  subst ht
  have hsz := threadDraws_sizes R n d nthread (seedState R seed w.rng)
  have hnn := threadDraws_nonneg R n d nthread (seedState R seed w.rng)
  rw [hDs] at hsz hnn
  refine ⟨run, h1, fun v => C16_static_same R h2 ?_ h3 ?_ ?_ A da dw da' dw' v⟩
  · intro p hp
    obtain ⟨D, -, rfl⟩ := List.mem_map.mp (g3.mem_iff.mp hp)
    rfl
  · intro i l hil
    rw [h4 i l hil, g3.countP_eq, List.countP_map]
    congr 2
    apply List.countP_congr
    intro D hD
    simp only [Function.comp, decide_eq_true_eq]
    obtain ⟨e1, e2⟩ := mkThread_end (d := d) hn hr (start := ⊥) (hsz D hD).1 (hd1 D hD) (fun h => absurd rfl h)
    have hp : (mkThread n d range ⊥ D).logl.Perm (D.1.map (· * range)) := by
      have := mkThread_logl (n := n) (d := d) (range := range) (start := ⊥) (D := D)
      simpa [firstBirth] using this
    constructor
    · rintro ⟨x, hx, hlx⟩
      exact le_trans hlx (e2 _ (hp.mem_iff.mpr (List.mem_map_of_mem hx)))
    · intro h
      obtain ⟨x, hx, e⟩ := List.mem_map.mp (hp.mem_iff.mp e1)
      exact ⟨x, hx, by rw [e]; exact h⟩
  · intro l hl
    obtain ⟨D, hD, hlD⟩ := List.mem_flatMap.mp (g4.mem_iff.mp hl)
    obtain ⟨x, hx, rfl⟩ := List.mem_map.mp hlD
    exact lt_of_lt_of_le hi (mul_nonneg (hnn D hD x hx) hr.le)

section examples

/-- C08_order: contours -1, 0 (twice); threads start at samples 0, 1 and 3. -/
example (s : Nat) : ∃ labels, threadsGivenBirthInds (counterRng ℤ (by decide)) [-1, -1, 0, 0, 1] ⟨s, []⟩ =
    (.ok labels, ⟨s, []⟩) ∧ labels = [0, 1, 0, 2, 1] := ⟨_, rfl, rfl⟩

/-- C16_static on a run of three threads from the whole prior. -/
def exOrdered : Run ℤ :=
  { logl := [1, 5, 7, 9, 12], nlive := [3, 3, 2, 2, 1], theta := [[1], [2], [3], [4], [5]],
    labels := some [0, 1, 0, 2, 0], tmm := some [(⊥, 12), (⊥, 5), (⊥, 9)] }

theorem exOrdered_writable : Writable exOrdered [0, 1, 0, 2, 0] [(⊥, 12), (⊥, 5), (⊥, 9)] where
  toValidWith := validWith_iff.mpr ⟨rfl, rfl, rfl, rfl, rfl, by decide,
    (checkThreads_iff (r := exOrdered) rfl rfl rfl).mp (by decide)⟩
  distinct := by
    intro i j x y hij hx hy
    exact ne_of_lt ((pairwise_iff_getElem? (R := (· < ·))).mp (show exOrdered.logl.Pairwise (· < ·) by decide)
      i j x y hij hx hy)
  born := by
    intro k mm h
    have : k < 3 := (List.getElem?_eq_some_iff.mp h).1
    interval_cases k <;> (simp only [List.getElem?_cons_zero, List.getElem?_cons_succ, Option.some.injEq] at h; subst h; decide)
  starts := by
    intro mm hmm s hs
    fin_cases hmm <;> simp at hs

example (s : Nat) : (runDeadBirth (stableSort ℤ) exOrdered (-100) true false >>= fun x =>
    processSamples (stableSort ℤ) (counterRng ℤ (by decide)) x true false) ⟨s, []⟩ = (.ok exOrdered, ⟨s, []⟩) := by
  refine C16_static_same _ exOrdered_writable (by decide) ?_ ?_ (by decide) _ _ _ _ _ _
  · have key : ∀ (k : Int) (i : Nat), FirstOf [0, 1, 0, 2, 0] k i → (k = 0 ∧ i = 0) ∨ (k = 1 ∧ i = 1) ∨ (k = 2 ∧ i = 3) := by
      intro k i hf
      have hi : i < 5 := (List.getElem?_eq_some_iff.mp hf.1).1
      have h1 := hf.1
      have h0 := hf.2 0
      interval_cases i <;> simp at h1 h0 ⊢ <;> omega
    intro k k' i i' h h' hlt
    have a := key k i h
    have b := key k' i' h'
    omega
  · intro i l hil
    have hi : i < 5 := (List.getElem?_eq_some_iff.mp hil).1
    interval_cases i <;> (simp [exOrdered] at hil; subst hil; decide)

/-- C16, what does not hold: with another numbering of the same threads the labels are not
reproduced. -/
theorem C16_labels_change (s : Nat) :
    (runDeadBirth (stableSort ℤ) { exOrdered with labels := some [1, 0, 1, 2, 1], tmm := some [(⊥, 5), (⊥, 12), (⊥, 9)] }
        (-100) true false >>= fun x =>
      processSamples (stableSort ℤ) (counterRng ℤ (by decide)) x true false) ⟨s, []⟩ = (.ok exOrdered, ⟨s, []⟩) := by
  rfl

/-- C55_process for two threads of two samples. -/
example : ∃ run, getDummyRun (stableSort ℚ) fracRng 2 2 1 (some 0) ⊥ 1 ⟨5, []⟩ = (.ok run, ⟨8, []⟩) ∧
    ∀ v, (runDeadBirth (stableSort ℚ) run (-1) true false >>= fun x =>
      processSamples (stableSort ℚ) fracRng x true false) v = (.ok run, v) :=
  C55_process fracRng (n := 2) (nthread := 2) (by decide) (by decide) 1 (some 0) (range := 1)
    (by decide +kernel) ⟨5, []⟩ rfl (by decide +kernel) (by decide +kernel) true false true false

end examples
end Nestcheck
