import Verif.Proofs.CombineRuns
import Verif.Props.Threads

/-
C19, C20, C21: combining runs.
-/

set_option linter.unusedSectionVars false

namespace Nestcheck
open Spec
variable {σ K : Type} [CommRing K] [LinearOrder K]

/-! ### C19 -/

/-- C19.  Combining runs succeeds without effects; the result is a valid run holding
exactly the samples of the runs, ascending, the threads of the runs one after the
other; and at each sample its live count is the sum of the live points of the runs
at that likelihood. -/
theorem C19_combine_runs (A : Argsort K) (da dw : Bool) {runs : List (Run K)} {m : K}
    (h : Combinable runs m) :
    ∃ (c : Run K) (labels : List Int), (∀ w : World σ, combineRuns A runs da dw w = (.ok c, w)) ∧
      ValidWith c labels (runs.flatMap (fun r => r.tmm.getD [])) ∧ Distinct c.logl ∧
      (c.logl.zip (labels.zip c.theta)).Perm (relabelled 0 runs) ∧
      ∀ (i : Nat) (l : K), c.logl[i]? = some l → c.nlive[i]? = some (runs.map (fun r => liveOf r l)).sum := by
  obtain ⟨c, labels, h1, h2, h3, h4, h5⟩ := combineRuns_ok (σ := σ) (A := A) (da := da) (dw := dw) h
  refine ⟨c, labels, h1, h2, ?_, h4, h5⟩
  intro i j x y hij hx hy
  exact ne_of_lt (pairwise_iff_getElem?.mp h3 i j x y hij hx hy)

/-- A single run is returned as it is. -/
theorem C21_single (A : Argsort K) (da dw : Bool) (r : Run K) (w : World σ) :
    (combineRuns A [r] da dw w = ((checkRun A r da dw w).1.map (fun _ => r), (checkRun A r da dw w).2)) ∧
    ∀ o, combineOutput [o] = o := by
  refine ⟨?_, fun o => rfl⟩
  unfold combineRuns
  rw [M.bind_ok (x := stackRuns A [r] da dw) (a := r) (w' := w) rfl, M.bind_apply]
  rcases checkRun A r da dw w with ⟨x, w'⟩
  cases x <;> rfl

/-- An empty list is a ValueError. -/
theorem C21_empty (A : Argsort K) (da dw : Bool) (w : World σ) :
    combineRuns A ([] : List (Run K)) da dw w = (.error .value, w) := rfl

/-- The number stored under a key of `output`, iterables summed. -/
def Spec.counter : OutVal → Int
  | .num x => x
  | .arr xs => xs.sum

theorem sumKey_eq (key : String) (outs : List (Option Output)) :
    (sumKey key outs = none ↔ ∃ o ∈ outs, o = none ∨ ∃ d, o = some d ∧ d.lookup key = none) ∧
    ∀ s, sumKey key outs = some s →
      s = (outs.map (fun o => ((o.bind (fun d => d.lookup key)).map counter).getD 0)).sum := by
  induction outs with
  | nil => simp [sumKey]
  | cons o outs ih =>
    cases o with
    | none => simp [sumKey]
    | some d =>
      cases hd : d.lookup key with
      | none =>
        constructor
        · exact ⟨fun _ => ⟨some d, by simp, .inr ⟨d, rfl, hd⟩⟩, fun _ => by simp [sumKey, hd]⟩
        · intro s hs; simp [sumKey, hd] at hs
      | some v =>
        cases hs : sumKey key outs with
        | none =>
          have h1 := ih.1.mp hs
          have h2 : sumKey key (some d :: outs) = none := by cases v <;> simp [sumKey, hd, hs]
          constructor
          · obtain ⟨o, ho, h3⟩ := h1
            exact ⟨fun _ => ⟨o, by simp [ho], h3⟩, fun _ => h2⟩
          · intro s hs'; rw [h2] at hs'; simp at hs'
        | some s =>
          have h1 : ¬ _ := fun h => by have := ih.1.mpr h; rw [hs] at this; simp at this
          have h2 := ih.2 s hs
          constructor
          · constructor
            · intro h; cases v <;> simp [sumKey, hd, hs] at h
            · rintro ⟨o, ho, h3⟩
              rcases List.mem_cons.mp ho with rfl | ho
              · rcases h3 with h3 | ⟨d', h3, h4⟩
                · simp at h3
                · cases h3; rw [hd] at h4; simp at h4
              · exact absurd ⟨o, ho, h3⟩ h1
          · intro t ht
            cases v <;> simp [sumKey, hd, hs] at ht <;> rw [← ht, h2] <;> simp [hd, counter]

/-- C21.  Other than for a single run, the combined run has an `output` in which
`nlike` (`ndead`) is the sum over runs of that counter if every run has it, and
absent otherwise, and which has no other key. -/
theorem C21_output {outs : List (Option Output)} (h : outs.length ≠ 1) :
    ∃ o, combineOutput outs = some o ∧
      (∀ key, key = "nlike" ∨ key = "ndead" →
        ((∀ x ∈ outs, ∃ d v, x = some d ∧ d.lookup key = some v) → o.lookup key =
          some (.num (outs.map (fun x => ((x.bind (fun d => d.lookup key)).map counter).getD 0)).sum)) ∧
        ((∃ x ∈ outs, x = none ∨ ∃ d, x = some d ∧ d.lookup key = none) → o.lookup key = none)) ∧
      ∀ key, key ≠ "nlike" → key ≠ "ndead" → o.lookup key = none := by
  have hcase : ∀ key, ((∀ x ∈ outs, ∃ d v, x = some d ∧ d.lookup key = some v) → sumKey key outs =
      some (outs.map (fun x => ((x.bind (fun d => d.lookup key)).map counter).getD 0)).sum) ∧
      ((∃ x ∈ outs, x = none ∨ ∃ d, x = some d ∧ d.lookup key = none) → sumKey key outs = none) := by
    intro key
    obtain ⟨h1, h2⟩ := sumKey_eq key outs
    refine ⟨fun hall => ?_, h1.mpr⟩
    cases hs : sumKey key outs with
    | none =>
      obtain ⟨x, hx, h3⟩ := h1.mp hs
      obtain ⟨d, v, rfl, hv⟩ := hall x hx
      rcases h3 with h3 | ⟨d', h3, h4⟩
      · simp at h3
      · cases h3; rw [hv] at h4; simp at h4
    | some s => rw [h2 s hs]
  have hform : ∃ o, combineOutput outs = some o ∧ o =
      ((sumKey "nlike" outs).map (fun s => ("nlike", OutVal.num s))).toList ++
      ((sumKey "ndead" outs).map (fun s => ("ndead", OutVal.num s))).toList := by
    unfold combineOutput
    split
    · exact absurd rfl h
    · refine ⟨_, rfl, ?_⟩
      dsimp only
      cases sumKey "nlike" outs <;> cases sumKey "ndead" outs <;> rfl
  obtain ⟨o, ho, he⟩ := hform
  refine ⟨o, ho, ?_, ?_⟩
  · rintro key (rfl | rfl)
    · have hc := hcase "nlike"
      constructor
      · intro hall
        rw [he, hc.1 hall]; rfl
      · intro hex
        rw [he, hc.2 hex]
        cases sumKey "ndead" outs <;> rfl
    · have hc := hcase "ndead"
      constructor
      · intro hall
        rw [he, hc.1 hall]
        cases sumKey "nlike" outs <;> rfl
      · intro hex
        rw [he, hc.2 hex]
        cases sumKey "nlike" outs <;> rfl
  · intro key h1 h2
    rw [he]
    have e1 : (key == "nlike") = false := by simpa using h1
    have e2 : (key == "ndead") = false := by simpa using h2
    cases sumKey "nlike" outs <;> cases sumKey "ndead" outs <;> simp [List.lookup, e1, e2]

/-! ### C20 -/

theorem flatMap_relabelled (n : Nat) (runs : List (Run K))
    (h : ∀ r ∈ runs, ∃ labels, r.labels = some labels ∧ labels.length = r.logl.length ∧
      r.theta.length = r.logl.length) :
    (relabelled n runs).map (fun p => (p.1, p.2.2)) = runs.flatMap (fun r => r.logl.zip r.theta) := by
  induction runs generalizing n with
  | nil => rfl
  | cons r rs ih =>
    obtain ⟨labels, h1, h2, h3⟩ := h r (by simp)
    rw [relabelled, List.map_append, ih _ (fun x hx => h x (by simp [hx])), List.flatMap_cons, h1]
    congr 1
    apply List.ext_getElem
    · simp; omega
    · intro i h1 h2; simp

theorem Spec.Combinable.perm {runs runs' : List (Run K)} {m : K} (h : Combinable runs m)
    (hp : runs.Perm runs') : Combinable runs' m where
  valid r hr := h.valid r (hp.mem_iff.mpr hr)
  pos r hr := h.pos r (hp.mem_iff.mpr hr)
  last r hr := h.last r (hp.mem_iff.mpr hr)
  distinct := (hp.flatMap_right _).nodup_iff.mp h.distinct
  dim := by
    intro s hs t ht
    exact h.dim s ((hp.flatMap_right _).mem_iff.mpr hs) t ((hp.flatMap_right _).mem_iff.mpr ht)
  low_mem := (hp.flatMap_right _).mem_iff.mp h.low_mem
  low l hl := h.low l ((hp.flatMap_right _).mem_iff.mpr hl)
  first r hr := h.first r (hp.mem_iff.mpr hr)
  onLow := by
    have e : (allStarts runs).Perm (allStarts runs') := hp.flatMap_right _
    rw [← e.countP_eq]
    exact h.onLow

theorem Spec.Combinable.lens {runs : List (Run K)} {m : K} (h : Combinable runs m) (r : Run K)
    (hr : r ∈ runs) : ∃ labels, r.labels = some labels ∧ labels.length = r.logl.length ∧
      r.theta.length = r.logl.length := by
  obtain ⟨labels, tmm, hv⟩ := h.valid r hr
  exact ⟨labels, hv.labels_eq, hv.labels_len, hv.theta_len⟩

theorem nlive_ext {c c' : Run K} (h1 : c.nlive.length = c.logl.length)
    (h2 : c'.nlive.length = c'.logl.length) (hl : c.logl = c'.logl) {f g : K → Int} (hfg : ∀ l, f l = g l)
    (hf : ∀ (i : Nat) (l : K), c.logl[i]? = some l → c.nlive[i]? = some (f l))
    (hg : ∀ (i : Nat) (l : K), c'.logl[i]? = some l → c'.nlive[i]? = some (g l)) : c.nlive = c'.nlive := by
  apply List.ext_getElem?
  intro i
  by_cases hi : i < c.logl.length
  · have e := List.getElem?_eq_getElem hi
    rw [hf i _ e, hg i _ (by rw [← hl]; exact e), hfg]
  · rw [List.getElem?_eq_none (by omega), List.getElem?_eq_none (by rw [h2, ← hl]; omega)]

/-- C20.  The samples and live counts of the combination do not depend on the order
of the runs (nor on the sort). -/
theorem C20_order (A A' : Argsort K) (da dw : Bool) {runs runs' : List (Run K)} {m : K}
    (h : Combinable runs m) (hp : runs.Perm runs') :
    ∃ c c' : Run K, (∀ w : World σ, combineRuns A runs da dw w = (.ok c, w)) ∧
      (∀ w : World σ, combineRuns A' runs' da dw w = (.ok c', w)) ∧
      c.logl = c'.logl ∧ c.theta = c'.theta ∧ c.nlive = c'.nlive := by
  obtain ⟨c, labels, h1, h2, h3, h4, h5⟩ := combineRuns_ok (σ := σ) (A := A) (da := da) (dw := dw) h
  obtain ⟨c', labels', g1, g2, g3, g4, g5⟩ :=
    combineRuns_ok (σ := σ) (A := A') (da := da) (dw := dw) (h.perm hp)
  have hz : (c.logl.zip c.theta).Perm (c'.logl.zip c'.theta) := by
    have e : ∀ {c : Run K} {labels tmm}, ValidWith c labels tmm →
        (c.logl.zip (labels.zip c.theta)).map (fun p => (p.1, p.2.2)) = c.logl.zip c.theta := by
      intro c labels tmm hv
      have a1 := hv.labels_len
      have a2 := hv.theta_len
      apply List.ext_getElem
      · simp; omega
      · intro i h1 h2; simp
    rw [← e h2, ← e g2]
    refine (h4.map _).trans (.trans ?_ (g4.map _).symm)
    rw [flatMap_relabelled 0 runs h.lens, flatMap_relabelled 0 runs' (h.perm hp).lens]
    exact hp.flatMap_right _
  have heq : c.logl.zip c.theta = c'.logl.zip c'.theta := by
    have hs : ∀ {c : Run K}, c.theta.length = c.logl.length → c.logl.Pairwise (· < ·) →
        (c.logl.zip c.theta).Pairwise (fun a b => a.1 < b.1) := by
      intro c hl hs
      have : c.logl = (c.logl.zip c.theta).map (·.1) := (List.map_fst_zip (by omega)).symm
      rw [this, List.pairwise_map] at hs
      exact hs
    exact hz.eq_of_pairwise (le := fun a b => a.1 < b.1)
      (fun a b _ _ h1 h2 => absurd h1 (lt_asymm h2)) (hs h2.theta_len h3) (hs g2.theta_len g3)
  have hl : c.logl = c'.logl := by
    have := congrArg (List.map (·.1)) heq
    rwa [List.map_fst_zip (by rw [h2.theta_len]), List.map_fst_zip (by rw [g2.theta_len])] at this
  refine ⟨c, c', h1, g1, hl, ?_, ?_⟩
  · have := congrArg (List.map (·.2)) heq
    rwa [List.map_snd_zip (by rw [h2.theta_len]), List.map_snd_zip (by rw [g2.theta_len])] at this
  · exact nlive_ext h2.nlive_len g2.nlive_len hl (fun l => (hp.map _).sum_eq) h5 g5

/-- The live points of a combination at any likelihood. -/
theorem liveOf_sum {runs : List (Run K)} {c : Run K} (hn : c.nlive.length = c.logl.length)
    (hmem : ∀ l, l ∈ c.logl ↔ l ∈ runs.flatMap (·.logl)) (hs : c.logl.Pairwise (· < ·))
    (hlen : ∀ r ∈ runs, r.nlive.length = r.logl.length)
    (h5 : ∀ (i : Nat) (l : K), c.logl[i]? = some l → c.nlive[i]? = some (runs.map (fun r => liveOf r l)).sum)
    (l : K) : liveOf c l = (runs.map (fun r => liveOf r l)).sum := by
  by_cases hi : c.logl.countP (fun x => decide (x < l)) < c.logl.length
  · set i := c.logl.countP (fun x => decide (x < l)) with hidef
    have hg := List.getElem?_eq_getElem hi
    have hn' := h5 i _ hg
    have htake := filter_lt_eq_take (key := id) (hs.imp le_of_lt) l
    simp only [id] at htake
    have hge : l ≤ c.logl[i] := by
      by_contra hc
      rw [not_le] at hc
      have h1 : (c.logl.take (i + 1)).countP (fun x => decide (x < l)) = i + 1 := by
        have : (c.logl.take (i + 1)).length = i + 1 := by simp; omega
        conv_rhs => rw [← this]
        rw [List.countP_eq_length]
        intro x hx
        obtain ⟨j, hj, rfl⟩ := List.mem_iff_getElem.mp hx
        rw [List.getElem_take, decide_eq_true_iff]
        simp only [List.length_take] at hj
        rcases Nat.lt_or_ge j i with h | h
        · exact lt_trans (List.pairwise_iff_getElem.mp hs j i (by omega) hi h) hc
        · have : j = i := by omega
          subst this; exact hc
      have h2 := (List.take_sublist (i + 1) c.logl).countP_le (p := fun x => decide (x < l))
      omega
    have hiff : ∀ x ∈ c.logl, (x < c.logl[i] ↔ x < l) := by
      intro x hx
      constructor
      · intro hlt
        have : x ∈ c.logl.filter (fun x => decide (x < l)) := by
          rw [htake]
          obtain ⟨j, hj, rfl⟩ := List.mem_iff_getElem.mp hx
          have hji : j < i := by
            by_contra hc
            rcases Nat.lt_or_ge i j with h | h
            · exact absurd (List.pairwise_iff_getElem.mp hs i j hi hj h) (lt_asymm hlt)
            · have : i = j := by omega
              subst this; exact absurd hlt (lt_irrefl _)
          exact List.mem_take_iff_getElem.mpr ⟨j, by omega, rfl⟩
        simpa using (List.mem_filter.mp this).2
      · intro hlt; exact lt_of_lt_of_le hlt hge
    have : liveOf c l = (runs.map (fun r => liveOf r c.logl[i])).sum := by
      unfold liveOf
      rw [← hidef, List.getD_eq_getElem?_getD, hn']; rfl
    rw [this]
    congr 1
    apply List.map_congr_left
    intro r hr
    unfold liveOf
    congr 1
    apply List.countP_congr
    intro x hx
    simpa using hiff x ((hmem x).mpr (List.mem_flatMap.mpr ⟨r, hr, hx⟩))
  · have hall : ∀ x ∈ c.logl, x < l := by
      have : c.logl.countP (fun x => decide (x < l)) = c.logl.length := by
        have := List.countP_le_length (p := fun x => decide (x < l)) (l := c.logl); omega
      intro x hx; simpa using List.countP_eq_length.mp this x hx
    rw [liveOf_high hn hall, sum_zeros]
    intro y hy
    obtain ⟨r, hr, rfl⟩ := List.mem_map.mp hy
    exact liveOf_high (hlen r hr) (fun x hx => hall x ((hmem x).mpr (List.mem_flatMap.mpr ⟨r, hr, hx⟩)))

/-- What is known of the combination `c` of one group of runs. -/
structure Combined (runs : List (Run K)) (c : Run K) : Prop where
  valid : ∃ labels, ValidWith c labels (allStarts runs) ∧
    (c.logl.zip (labels.zip c.theta)).Perm (relabelled 0 runs)
  strict : c.logl.Pairwise (· < ·)
  live : ∀ (i : Nat) (l : K), c.logl[i]? = some l → c.nlive[i]? = some (runs.map (fun r => liveOf r l)).sum

theorem relabelled_shift (n k : Nat) (runs : List (Run K)) :
    relabelled (n + k) runs = (relabelled n runs).map (fun p => (p.1, p.2.1 + (k : Int), p.2.2)) := by
  induction runs generalizing n with
  | nil => rfl
  | cons r rs ih =>
    have e : n + k + (r.tmm.getD []).length = n + (r.tmm.getD []).length + k := by omega
    rw [relabelled, relabelled, List.map_append, e, ih]
    congr 1
    have hf : (fun x : Int => x + ((n + k : Nat) : Int)) = (fun x => x + (k : Int)) ∘ (fun x => x + (n : Int)) := by
      funext x; simp only [Function.comp]; push_cast; ring
    rw [hf, ← List.map_map, List.zip_map_left, List.zip_map_right]
    rfl

theorem relabelled_append (n : Nat) (rs ss : List (Run K)) :
    relabelled n (rs ++ ss) = relabelled n rs ++ relabelled (n + (allStarts rs).length) ss := by
  induction rs generalizing n with
  | nil => rfl
  | cons r rs ih =>
    rw [List.cons_append, relabelled, relabelled, ih, List.append_assoc]
    congr 3
    simp [allStarts]; omega

theorem Combined.zip_perm {runs : List (Run K)} {c : Run K} (h : Combined runs c)
    (hl : ∀ r ∈ runs, ∃ labels, r.labels = some labels ∧ labels.length = r.logl.length ∧
      r.theta.length = r.logl.length) :
    (c.logl.zip c.theta).Perm (runs.flatMap (fun r => r.logl.zip r.theta)) := by
  obtain ⟨labels, hv, hp⟩ := h.valid
  have a1 := hv.labels_len
  have a2 := hv.theta_len
  have e : (c.logl.zip (labels.zip c.theta)).map (fun p => (p.1, p.2.2)) = c.logl.zip c.theta := by
    apply List.ext_getElem
    · simp; omega
    · intro i h1 h2; simp
  rw [← e, ← flatMap_relabelled 0 runs hl]
  exact hp.map _

theorem flatMap_zip_fst {runs : List (Run K)} (hl : ∀ r ∈ runs, r.theta.length = r.logl.length) :
    (runs.flatMap (fun r => r.logl.zip r.theta)).map (·.1) = runs.flatMap (·.logl) ∧
    (runs.flatMap (fun r => r.logl.zip r.theta)).map (·.2) = runs.flatMap (·.theta) := by
  induction runs with
  | nil => exact ⟨rfl, rfl⟩
  | cons r rs ih =>
    obtain ⟨h1, h2⟩ := ih (fun x hx => hl x (by simp [hx]))
    have := hl r (by simp)
    simp only [List.flatMap_cons, List.map_append]
    rw [h1, h2, List.map_fst_zip (by omega), List.map_snd_zip (by omega)]
    exact ⟨rfl, rfl⟩

theorem Combined.perms {runs : List (Run K)} {c : Run K} (h : Combined runs c)
    (hl : ∀ r ∈ runs, ∃ labels, r.labels = some labels ∧ labels.length = r.logl.length ∧
      r.theta.length = r.logl.length) :
    c.logl.Perm (runs.flatMap (·.logl)) ∧ c.theta.Perm (runs.flatMap (·.theta)) := by
  have hz := h.zip_perm hl
  have hl' : ∀ r ∈ runs, r.theta.length = r.logl.length := by
    intro r hr; obtain ⟨_, -, -, h⟩ := hl r hr; exact h
  obtain ⟨e1, e2⟩ := flatMap_zip_fst hl'
  obtain ⟨labels, hv, -⟩ := h.valid
  constructor
  · rw [← e1, ← List.map_fst_zip (l₁ := c.logl) (l₂ := c.theta) (by rw [hv.theta_len])]
    exact hz.map _
  · rw [← e2, ← List.map_snd_zip (l₁ := c.logl) (l₂ := c.theta) (by rw [hv.theta_len])]
    exact hz.map _

theorem Combined.ext {runs runs' : List (Run K)} {c c' : Run K} (h : Combined runs c) (h' : Combined runs' c')
    (hr : (relabelled 0 runs).Perm (relabelled 0 runs')) (hs : allStarts runs = allStarts runs')
    (hl : ∀ l, (runs.map (fun r => liveOf r l)).sum = (runs'.map (fun r => liveOf r l)).sum) : c = c' := by
  obtain ⟨ls, hv, hp⟩ := h.valid
  obtain ⟨ls', hv', hp'⟩ := h'.valid
  have l1 := hv.labels_len
  have l2 := hv.theta_len
  have l1' := hv'.labels_len
  have l2' := hv'.theta_len
  have key : ∀ {c : Run K} {ls : List Int}, ls.length = c.logl.length → c.theta.length = c.logl.length →
      (c.logl.zip (ls.zip c.theta)).map (·.1) = c.logl ∧
      (c.logl.zip (ls.zip c.theta)).map (·.2.1) = ls ∧
      (c.logl.zip (ls.zip c.theta)).map (·.2.2) = c.theta := by
    intro c ls h1 h2
    refine ⟨?_, ?_, ?_⟩ <;> (apply List.ext_getElem <;> [(simp; omega); (intro i h1 h2; simp)])
  obtain ⟨k1, k2, k3⟩ := key l1 l2
  obtain ⟨k1', k2', k3'⟩ := key l1' l2'
  have heq : c.logl.zip (ls.zip c.theta) = c'.logl.zip (ls'.zip c'.theta) := by
    refine (hp.trans (hr.trans hp'.symm)).eq_of_pairwise (le := fun a b => a.1 < b.1)
      (fun a b _ _ h1 h2 => absurd h1 (lt_asymm h2)) ?_ ?_
    · have := h.strict
      rw [← k1, List.pairwise_map] at this
      exact this
    · have := h'.strict
      rw [← k1', List.pairwise_map] at this
      exact this
  rw [heq, k1'] at k1
  rw [heq, k2'] at k2
  rw [heq, k3'] at k3
  have hn := nlive_ext hv.nlive_len hv'.nlive_len k1.symm hl h.live h'.live
  have e1 := hv.labels_eq
  have e2 := hv.tmm_eq
  have e1' := hv'.labels_eq
  have e2' := hv'.tmm_eq
  cases c
  cases c'
  simp_all

/-- The combinations of groups of runs. -/
theorem combine_groups {A : Argsort K} {da dw : Bool} {groups : List (List (Run K))}
    (hg : ∀ g ∈ groups, ∃ mg, Combinable g mg) :
    ∃ cs : List (Run K), List.Forall₂ (fun g c =>
      (∀ w : World σ, combineRuns A g da dw w = (.ok c, w)) ∧ Combined g c) groups cs := by
  induction groups with
  | nil => exact ⟨[], .nil⟩
  | cons g gs ih =>
    obtain ⟨cs, h⟩ := ih (fun x hx => hg x (by simp [hx]))
    obtain ⟨mg, hm⟩ := hg g (by simp)
    obtain ⟨c, labels, h1, h2, h3, h4, h5⟩ := combineRuns_ok (σ := σ) (A := A) (da := da) (dw := dw) hm
    exact ⟨c :: cs, .cons ⟨h1, ⟨labels, h2, h4⟩, h3, h5⟩ h⟩

theorem combined_relabelled {groups : List (List (Run K))} {cs : List (Run K)}
    (h : List.Forall₂ Combined groups cs) (n : Nat) :
    allStarts cs = allStarts groups.flatten ∧
    (relabelled n cs).Perm (relabelled n groups.flatten) := by
  induction h generalizing n with
  | nil => exact ⟨rfl, .refl _⟩
  | @cons g c gs cs h1 h2 ih =>
    obtain ⟨labels, hv, hp⟩ := h1.valid
    have htm : c.tmm.getD [] = allStarts g := by rw [hv.tmm_eq]; rfl
    have e0 : allStarts (g ++ gs.flatten) = allStarts g ++ allStarts gs.flatten := by
      simp [allStarts]
    constructor
    · rw [List.flatten_cons, e0, ← (ih 0).1, ← htm]; rfl
    · rw [List.flatten_cons, relabelled_append, relabelled, htm]
      refine .append ?_ (ih _).2
      have hc : c.logl.zip (((c.labels.getD []).map (· + (n : Int))).zip c.theta) =
          (c.logl.zip (labels.zip c.theta)).map (fun p => (p.1, p.2.1 + (n : Int), p.2.2)) := by
        rw [hv.labels_eq, Option.getD_some, List.zip_map_left, List.zip_map_right]
        rfl
      rw [hc, show relabelled n g = relabelled (0 + n) g by rw [Nat.zero_add], relabelled_shift]
      exact hp.map _

/-- C20.  Combining in stages, each group first and then the results, gives the same
run as combining all runs at once. -/
theorem C20_stages (A : Argsort K) (da dw : Bool) {groups : List (List (Run K))} {m : K}
    (hg : ∀ g ∈ groups, ∃ mg, Combinable g mg) (h : Combinable groups.flatten m) :
    ∃ (cs : List (Run K)) (c : Run K),
      List.Forall₂ (fun g c => ∀ w : World σ, combineRuns A g da dw w = (.ok c, w)) groups cs ∧
      (∀ w : World σ, combineRuns A cs da dw w = (.ok c, w)) ∧
      (∀ w : World σ, combineRuns A groups.flatten da dw w = (.ok c, w)) := by
  obtain ⟨cs, hcs⟩ := combine_groups (σ := σ) (A := A) (da := da) (dw := dw) hg
  have hC : List.Forall₂ Combined groups cs := hcs.imp (fun _ _ h => h.2)
  obtain ⟨hst, hrel⟩ := combined_relabelled hC 0
  have hlens : ∀ g ∈ groups, ∀ r ∈ g, ∃ labels, r.labels = some labels ∧
      labels.length = r.logl.length ∧ r.theta.length = r.logl.length := by
    intro g hgm r hr
    exact h.lens r (List.mem_flatten.mpr ⟨g, hgm, hr⟩)
  have hperms : (cs.flatMap (·.logl)).Perm (groups.flatten.flatMap (·.logl)) ∧
      (cs.flatMap (·.theta)).Perm (groups.flatten.flatMap (·.theta)) := by
    clear hcs hst hrel h hg
    induction hC with
    | nil => exact ⟨.refl _, .refl _⟩
    | @cons g c gs cs h1 h2 ih =>
      obtain ⟨p1, p2⟩ := ih (fun g hg => hlens g (by simp [hg]))
      obtain ⟨q1, q2⟩ := h1.perms (hlens g (by simp))
      simp only [List.flatMap_cons, List.flatten_cons, List.flatMap_append]
      exact ⟨q1.append p1, q2.append p2⟩
  have hcomb : ∀ c ∈ cs, ∃ g ∈ groups, Combined g c := by
    intro c hc
    have := forall₂_left (List.Forall₂.flip hC) hc
    exact this
  have hlow : ∀ g ∈ groups, ∀ l ∈ g.flatMap (·.logl), l ∈ groups.flatten.flatMap (·.logl) := by
    intro g hgm l hl
    obtain ⟨r, hr, hlr⟩ := List.mem_flatMap.mp hl
    exact List.mem_flatMap.mpr ⟨r, List.mem_flatten.mpr ⟨g, hgm, hr⟩, hlr⟩
  have hCs : Combinable cs m := by
    refine ⟨?_, ?_, ?_, ?_, ?_, ?_, ?_, ?_, ?_⟩
    · intro c hc
      obtain ⟨g, hgm, hcg⟩ := hcomb c hc
      obtain ⟨labels, hv, -⟩ := hcg.valid
      exact ⟨labels, _, hv⟩
    · intro c hc n hn
      obtain ⟨g, hgm, hcg⟩ := hcomb c hc
      obtain ⟨mg, hmg⟩ := hg g hgm
      obtain ⟨labels, hv, -⟩ := hcg.valid
      obtain ⟨i, hi, rfl⟩ := List.mem_iff_getElem.mp hn
      have hil : i < c.logl.length := by rw [← hv.nlive_len]; exact hi
      have e := hcg.live i _ (List.getElem?_eq_getElem hil)
      rw [List.getElem?_eq_getElem hi, Option.some.injEq] at e
      rw [e]
      exact hmg.sum_pos (((hcg.perms (hlens g hgm)).1).mem_iff.mp (List.getElem_mem hil))
    · intro c hc
      obtain ⟨g, hgm, hcg⟩ := hcomb c hc
      obtain ⟨mg, hmg⟩ := hg g hgm
      obtain ⟨labels, hv, -⟩ := hcg.valid
      have hp1 := (hcg.perms (hlens g hgm)).1
      have hpos : 0 < c.logl.length := List.length_pos_iff.mpr (Valid.logl_ne ⟨_, _, hv⟩)
      have hil : c.logl.length - 1 < c.logl.length := by omega
      have e := hcg.live _ _ (List.getElem?_eq_getElem hil)
      rw [List.getLast?_eq_getElem?, hv.nlive_len, e, hmg.sum_last (hp1.mem_iff.mp (List.getElem_mem hil))]
      intro x hx
      obtain ⟨j, hj, rfl⟩ := List.mem_iff_getElem.mp (hp1.mem_iff.mpr hx)
      rcases Nat.lt_or_ge j (c.logl.length - 1) with hlt | hge
      · exact le_of_lt (List.pairwise_iff_getElem.mp hcg.strict j _ hj hil hlt)
      · have : j = c.logl.length - 1 := by omega
        subst this; exact le_rfl
    · exact hperms.1.nodup_iff.mpr h.distinct
    · intro s hs t ht
      exact h.dim s (hperms.2.mem_iff.mp hs) t (hperms.2.mem_iff.mp ht)
    · exact hperms.1.mem_iff.mpr h.low_mem
    · intro l hl; exact h.low l (hperms.1.mem_iff.mp hl)
    · intro c hc
      obtain ⟨g, hgm, hcg⟩ := hcomb c hc
      obtain ⟨mg, hmg⟩ := hg g hgm
      obtain ⟨labels, hv, -⟩ := hcg.valid
      have hp1 := (hcg.perms (hlens g hgm)).1
      have hpos : 0 < c.logl.length := List.length_pos_iff.mpr (Valid.logl_ne ⟨_, _, hv⟩)
      have e := hcg.live 0 _ (List.getElem?_eq_getElem hpos)
      rw [e, hv.tmm_eq, Option.getD_some]
      rw [← sum_first_of (fun r hr => h.first r (List.mem_flatten.mpr ⟨g, hgm, hr⟩))]
      congr 2
      apply List.map_congr_left
      intro r hr
      apply liveOf_low
      intro x hx
      obtain ⟨j, hj, rfl⟩ := List.mem_iff_getElem.mp (hp1.mem_iff.mpr (List.mem_flatMap.mpr ⟨r, hr, hx⟩))
      rcases Nat.eq_zero_or_pos j with rfl | hjp
      · exact le_rfl
      · exact le_of_lt (List.pairwise_iff_getElem.mp hcg.strict 0 j hpos hj hjp)
    · rw [hst]; exact h.onLow
  obtain ⟨c, ls, a1, a2, a3, a4, a5⟩ := combineRuns_ok (σ := σ) (A := A) (da := da) (dw := dw) hCs
  obtain ⟨c', ls', b1, b2, b3, b4, b5⟩ := combineRuns_ok (σ := σ) (A := A) (da := da) (dw := dw) h
  have hlive : ∀ l, (cs.map (fun r => liveOf r l)).sum = (groups.flatten.map (fun r => liveOf r l)).sum := by
    intro l
    have hlenr : ∀ g ∈ groups, ∀ r ∈ g, r.nlive.length = r.logl.length := fun g hgm r hr =>
      Valid.nlive_len (h.valid r (List.mem_flatten.mpr ⟨g, hgm, hr⟩))
    clear hcs hst hrel h hg a1 a2 a3 a4 a5 b1 b2 b3 b4 b5 hCs hperms hcomb hlow
    induction hC with
    | nil => rfl
    | @cons g c gs cs h1 h2 ih =>
      rw [List.map_cons, List.sum_cons, List.flatten_cons, List.map_append, List.sum_append,
        ih (fun g hg => hlens g (by simp [hg])) (fun g hg => hlenr g (by simp [hg]))]
      congr 1
      obtain ⟨labels, hv, -⟩ := h1.valid
      exact liveOf_sum hv.nlive_len (fun l => (h1.perms (hlens g (by simp))).1.mem_iff) h1.strict
        (hlenr g (by simp)) h1.live l
  have heq : c = c' := Combined.ext ⟨⟨ls, a2, a4⟩, a3, a5⟩ ⟨⟨ls', b2, b4⟩, b3, b5⟩ hrel hst hlive
  subst heq
  exact ⟨cs, c, hcs.imp (fun _ _ h => h.1), a1, b1⟩

section examples

/-- A second run to be combined with `exDynamic`. -/
def exOther : Run ℤ :=
  { logl := [1, 6, 20], nlive := [2, 1, 1], theta := [[7], [8], [9]], labels := some [0, 1, 1],
    tmm := some [(⊥, 1), (⊥, 20)] }

theorem exCombinable : Combinable [exDynamic, exOther] 1 where
  valid := by
    intro r hr
    fin_cases hr
    · exact ⟨_, _, exDynamic_valid⟩
    · exact ⟨_, _, validWith_iff.mpr ⟨rfl, rfl, rfl, rfl, rfl, by decide,
        (checkThreads_iff (r := exOther) rfl rfl rfl).mp (by decide)⟩⟩
  pos := by decide
  last := by decide
  distinct := by decide
  dim := by unfold SameDim; decide
  low_mem := by decide
  low := by decide
  first := by decide
  onLow := by decide

/-- C19: the live counts are sums. -/
example (s : Nat) : combineRuns (stableSort ℤ) [exDynamic, exOther] true false ⟨s, []⟩ =
    (.ok { logl := [1, 3, 5, 6, 7, 8, 9, 12, 20], nlive := [4, 3, 3, 4, 4, 3, 3, 2, 1],
           theta := [[7], [2], [1], [8], [3], [4], [5], [6], [9]],
           labels := some [3, 0, 1, 4, 0, 2, 1, 2, 4],
           tmm := some [(⊥, 7), (⊥, 9), ((5 : ℤ), 12), (⊥, 1), (⊥, 20)] }, ⟨s, []⟩) := by rfl

/-- C19, what fails: a run with a thread born on its lowest sample (as
`process_samples_array` makes them) cannot be combined with another run whose samples lie
above: the AssertionError of `C18_lowest_birth_fails` again. -/
theorem C19_lowest_birth_fails (s : Nat) :
    (combineRuns (stableSort ℤ) [exProcessed, { exOther with logl := [4, 6, 20], tmm := some [(⊥, 4), (⊥, 20)] }]
      true false ⟨s, []⟩).1 = .error .assertion ∧
    (combineRuns (stableSort ℤ) [{ exOther with logl := [4, 6, 20], tmm := some [(⊥, 4), (⊥, 20)] }]
      true false ⟨s, []⟩).1 = .ok { exOther with logl := [4, 6, 20], tmm := some [(⊥, 4), (⊥, 20)] } := ⟨rfl, rfl⟩

/-- C21. -/
example : combineOutput [some [("nlike", .arr [3, 4]), ("ndead", .num 5)],
    some [("nlike", .num 10), ("base_dir", .num 0)]] = some [("nlike", .num 17)] := by rfl

end examples
end Nestcheck
