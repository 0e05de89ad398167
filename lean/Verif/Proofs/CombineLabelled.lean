import Verif.Props.Threads

/-! Combining threads which are labelled by their position: the labels stay valid. -/

set_option linter.unusedSectionVars false

namespace Nestcheck
open Spec
variable {σ K : Type} [CommRing K] [LinearOrder K] (R : Rng σ K)

/-- Thread `k` of the list has the label `k` throughout. -/
def Labelled (threads : List (Run K)) : Prop :=
  ∀ (k : Nat) (t : Run K), threads[k]? = some t → t.labels = some (List.replicate t.logl.length (k : Int))

theorem map_zip_labels {threads : List (Run K)} {rows0 : List (Row K)}
    (h1 : rows0.map (·.logl) = threads.flatMap (·.logl))
    (h2 : rows0.map (·.label) = threads.flatMap labelColumn)
    (hl : ∀ t ∈ threads, (labelColumn t).length = t.logl.length) :
    rows0.map (fun r => (r.logl, r.label)) = threads.flatMap (fun t => t.logl.zip (labelColumn t)) := by
  have e : rows0.map (fun r => (r.logl, r.label)) = (rows0.map (·.logl)).zip (rows0.map (·.label)) := by
    rw [List.zip_map']
  rw [e, h1, h2]
  clear e h1 h2
  induction threads with
  | nil => rfl
  | cons t ts ih =>
    simp only [List.flatMap_cons]
    rw [List.zip_append (hl t (by simp)).symm, ih (fun x hx => hl x (by simp [hx]))]

theorem labelled_column {threads : List (Run K)} (hL : Labelled threads) {k : Nat} {t : Run K}
    (h : threads[k]? = some t) : labelColumn t = List.replicate t.logl.length (some (k : Int)) := by
  unfold labelColumn
  rw [hL k t h]
  simp

theorem mem_zip_replicate {α β : Type} {xs : List α} {x : α} {y z : β} :
    (x, y) ∈ xs.zip (List.replicate xs.length z) ↔ x ∈ xs ∧ y = z := by
  constructor
  · intro h
    exact ⟨(List.of_mem_zip h).1, List.eq_of_mem_replicate (List.of_mem_zip h).2⟩
  · rintro ⟨h, rfl⟩
    obtain ⟨i, hi⟩ := List.mem_iff_getElem?.mp h
    have hlt := (List.getElem?_eq_some_iff.mp hi).1
    exact List.mem_iff_getElem?.mpr ⟨i, by
      rw [List.getElem?_zip_eq_some]
      exact ⟨hi, by simp [hlt]⟩⟩

/-- The run made of threads labelled by their position is valid. -/
theorem labelled_valid {threads : List (Run K)} {tmm : List (WithBot K × K)} {rows rows0 : List (Row K)}
    {nl : List Int} (hT : List.Forall₂ (fun t p => IsThread t p.1 p.2) threads tmm)
    (hL : Labelled threads) (hbot : ∃ p ∈ tmm, p.1 = ⊥)
    (hs : rows.Pairwise (fun a b => a.logl ≤ b.logl))
    (h1 : rows0.map (·.logl) = threads.flatMap (·.logl))
    (h2 : rows0.map (·.label) = threads.flatMap labelColumn)
    (hp : (rows.map (fun r => (r.logl, r.label))).Perm (rows0.map (fun r => (r.logl, r.label))))
    (hn : nl.length = rows.length) :
    ∃ labels, finishThreads (runOfRows rows nl tmm) = runOfRows rows nl tmm ∧
      ValidWith (runOfRows rows nl tmm) labels tmm ∧
      rows.map (·.label) = labels.map some := by
  have hlen : threads.length = tmm.length := hT.length_eq
  have hcol : ∀ t ∈ threads, (labelColumn t).length = t.logl.length := by
    intro t ht
    obtain ⟨k, hk⟩ := List.mem_iff_getElem?.mp ht
    rw [labelled_column hL hk]; simp
  have hmem : ∀ (l : K) (o : Option Int), (∃ r ∈ rows, r.logl = l ∧ r.label = o) ↔
      ∃ (k : Nat) (t : Run K), threads[k]? = some t ∧ l ∈ t.logl ∧ o = some (k : Int) := by
    intro l o
    have : (∃ r ∈ rows, r.logl = l ∧ r.label = o) ↔ (l, o) ∈ rows.map (fun r => (r.logl, r.label)) := by
      simp
    rw [this, hp.mem_iff, map_zip_labels h1 h2 hcol, List.mem_flatMap]
    constructor
    · rintro ⟨t, ht, hz⟩
      obtain ⟨k, hk⟩ := List.mem_iff_getElem?.mp ht
      rw [labelled_column hL hk, mem_zip_replicate] at hz
      exact ⟨k, t, hk, hz.1, hz.2⟩
    · rintro ⟨k, t, hk, hl, rfl⟩
      refine ⟨t, List.mem_of_getElem? hk, ?_⟩
      rw [labelled_column hL hk, mem_zip_replicate]
      exact ⟨hl, rfl⟩
  set labels : List Int := rows.map (fun r => r.label.getD 0) with hlab
  have hsome : rows.map (·.label) = labels.map some := by
    rw [hlab, List.map_map]
    apply List.map_congr_left
    intro r hr
    obtain ⟨k, t, -, -, ho⟩ := (hmem r.logl r.label).mp ⟨r, hr, rfl, rfl⟩
    simp [ho]
  have hall : allSome (rows.map (·.label)) = some labels := by rw [hsome, allSome_map_some]
  have hll : labels.length = (rows.map (·.logl)).length := by simp [hlab]
  have hss : (rows.map (·.logl)).Pairwise (· ≤ ·) := by rw [List.pairwise_map]; exact hs
  have hpick : ∀ (k : Int) (l : K), l ∈ pick labels k (rows.map (·.logl)) ↔
      ∃ r ∈ rows, r.logl = l ∧ r.label = some k := by
    intro k l
    rw [mem_pick]
    constructor
    · rintro ⟨i, hi1, hi2⟩
      rw [List.getElem?_map, Option.map_eq_some_iff] at hi2
      obtain ⟨r, hr, rfl⟩ := hi2
      refine ⟨r, List.mem_of_getElem? hr, rfl, ?_⟩
      have : (rows.map (·.label))[i]? = some (some k) := by rw [hsome, List.getElem?_map, hi1]; rfl
      rw [List.getElem?_map, hr] at this
      simpa using this
    · rintro ⟨r, hr, rfl, hk⟩
      obtain ⟨i, hi⟩ := List.mem_iff_getElem?.mp hr
      refine ⟨i, ?_, by rw [List.getElem?_map, hi]; rfl⟩
      rw [hlab, List.getElem?_map, hi]
      simp [hk]
  have hget : ∀ (k : Nat) (mm : WithBot K × K), tmm[k]? = some mm →
      ∃ t, threads[k]? = some t ∧ IsThread t mm.1 mm.2 := by
    intro k mm hk
    have hk1 : k < tmm.length := (List.getElem?_eq_some_iff.mp hk).1
    have hk2 : k < threads.length := by omega
    refine ⟨threads[k], List.getElem?_eq_getElem hk2, ?_⟩
    have := (List.forall₂_iff_get.mp hT).2 k hk2 hk1
    simp only [List.get_eq_getElem] at this
    rw [List.getElem?_eq_getElem hk1] at hk
    cases hk
    exact this
  have hok : ThreadsOK (rows.map (·.logl)) labels tmm := by
    rw [threadsOK_iff_pick hss hll]
    refine ⟨?_, hbot, ?_⟩
    · intro k
      constructor
      · intro hk
        rw [hlab, List.mem_map] at hk
        obtain ⟨r, hr, rfl⟩ := hk
        obtain ⟨k, t, hk, -, ho⟩ := (hmem r.logl r.label).mp ⟨r, hr, rfl, rfl⟩
        have := (List.getElem?_eq_some_iff.mp hk).1
        rw [ho]
        simp only [Option.getD_some]
        omega
      · rintro ⟨hk0, hk1⟩
        obtain ⟨j, rfl⟩ := Int.eq_ofNat_of_zero_le hk0
        have hj : j < tmm.length := by omega
        obtain ⟨t, ht, hth⟩ := hget j _ (List.getElem?_eq_getElem hj)
        obtain ⟨l, hl⟩ := List.exists_mem_of_ne_nil _ hth.nonempty
        obtain ⟨r, hr, -, hlb⟩ := (hmem l _).mpr ⟨j, t, ht, hl, rfl⟩
        rw [hlab, List.mem_map]
        exact ⟨r, hr, by rw [hlb]; rfl⟩
    · intro k mm hk
      obtain ⟨t, ht, hth⟩ := hget k mm hk
      constructor
      · intro l hl
        rw [hpick, hmem] at hl
        obtain ⟨j, t', ht', hl', hj⟩ := hl
        have hj : j = k := by simpa using hj.symm
        subst hj
        rw [ht] at ht'
        cases ht'
        refine ⟨(hth.born l hl').le, ?_⟩
        have hsort := pairwise_iff_getElem?.mpr hth.strict
        have hlast := hth.last
        obtain ⟨init, last, e⟩ := List.eq_nil_or_concat t.logl |>.resolve_left hth.nonempty
        rw [e, List.concat_eq_append] at hlast hsort hl'
        simp only [List.getLast?_append, List.getLast?_singleton, Option.some_or, Option.some.injEq] at hlast
        rw [← hlast]
        rcases List.mem_append.mp hl' with h | h
        · exact ((List.pairwise_append.mp hsort).2.2 l h last (by simp)).le
        · simp at h; exact h.le
      · rw [hpick, hmem]
        exact ⟨k, t, ht, List.mem_of_getLast? hth.last, rfl⟩
  have hchk : checkThreads (runOfRows rows nl tmm) = .ok () :=
    (checkThreads_iff (r := runOfRows rows nl tmm) hall rfl hll).mpr hok
  refine ⟨labels, ?_, ?_, hsome⟩
  · unfold finishThreads
    rw [hchk]
  · rw [validWith_iff]
    exact ⟨hall, rfl, by simp [runOfRows, hn], hll, by simp [runOfRows], hss, hok⟩

end Nestcheck
