import Verif.Model.DeadBirth
import Verif.Proofs.CombineLive
import Verif.Proofs.Bootstrap
import Verif.Props.Reparam

/-
C89: what depends only on the order of the loglikelihoods.
-/

set_option linter.unusedSectionVars false

namespace Nestcheck
open Spec

section monotone
variable {σ K : Type} [CommRing K] [LinearOrder K]

/-- A row of `thread_min_max` with `φ` applied to its loglikelihoods; -inf stays -inf. -/
def Spec.mapEnds (φ : K → K) (p : WithBot K × K) : WithBot K × K := (WithBot.map φ p.1, φ p.2)

/-- The run with `φ` applied to every loglikelihood. -/
def Run.mapLogl (φ : K → K) (r : Run K) : Run K :=
  { r with logl := r.logl.map φ, tmm := r.tmm.map (List.map (mapEnds φ)) }

def Row.mapLogl (φ : K → K) (r : Row K) : Row K := { r with logl := φ r.logl }

def Sample.mapLogl (φ : K → K) (s : Sample K) : Sample K := { s with logl := φ s.logl, birth := φ s.birth }

/-- The sort cannot tell loglikelihoods from their images (`C89_stable`: true of a sort by comparisons). -/
def Spec.SortsAlike (A : Argsort K) (φ : K → K) : Prop := ∀ xs, A.idx (xs.map φ) = A.idx xs

/-- `φ` does not change which of two loglikelihoods is closer to a third one. -/
def Spec.KeepsNearest (φ : K → K) : Prop := ∀ x y s : K, |φ x - φ s| ≤ |φ y - φ s| ↔ |x - s| ≤ |y - s|

variable {φ : K → K} (hφ : StrictMono φ) {A : Argsort K}
include hφ

/-! ### Primitives -/

theorem unique_mono (l : List K) : unique (l.map φ) = (unique l).map φ := by
  unfold unique
  rw [← List.map_insertionSort (r := (· ≤ ·)) (s := (· ≤ ·)) φ l (fun a _ b _ => hφ.le_iff_le.symm), List.dedup_map_of_injective hφ.injective]

theorem amin_mono (l : List K) : amin (l.map φ) = (amin l).map φ := by
  cases l with
  | nil => rfl
  | cons x xs =>
    simp only [List.map_cons, amin, Option.map_some]
    congr 1
    induction xs generalizing x with
    | nil => rfl
    | cons y ys ih => rw [List.map_cons, List.foldl_cons, List.foldl_cons, ← hφ.monotone.map_min, ih]

theorem whereIdx_mono (s : K) (l : List K) : whereIdx (fun x => decide (x = φ s)) (l.map φ) = whereIdx (fun x => decide (x = s)) l := by
  unfold whereIdx
  rw [List.length_map]
  apply List.filter_congr
  intro i _
  rw [List.getElem?_map]
  cases l[i]? with
  | none => rfl
  | some x => simp [hφ.injective.eq_iff]

theorem sortBy_mono (hA : SortsAlike A φ) {α β : Type} {key : β → K} {key' : α → K} {g : α → β} (hg : ∀ a, key (g a) = φ (key' a)) (rows : List α) :
    sortBy A key (rows.map g) = (sortBy A key' rows).map g := by
  rw [sortBy_image]
  unfold sortBy
  have : rows.map (fun a => key (g a)) = (rows.map key').map φ := by
    rw [List.map_map]
    exact List.map_congr_left fun a _ => hg a
  rw [this, hA]

theorem map_bot_iff (x : WithBot K) : WithBot.map φ x = ⊥ ↔ x = ⊥ := by
  cases x <;> simp

theorem map_le_coe (x : WithBot K) (m : K) : WithBot.map φ x ≤ (φ m : WithBot K) ↔ x ≤ (m : WithBot K) := by
  cases x with
  | bot => simp
  | coe x => simp [hφ.le_iff_le]

theorem map_eq_coe (x : WithBot K) (m : K) : WithBot.map φ x = (φ m : WithBot K) ↔ x = (m : WithBot K) := by
  cases x with
  | bot => simp
  | coe x => simp [hφ.injective.eq_iff]

/-! ### Checks -/

theorem checkLogls_mono (hA : SortsAlike A φ) (l : List K) (da dw : Bool) :
    checkLogls (σ := σ) A (l.map φ) da dw = checkLogls A l da dw := by
  unfold checkLogls
  rw [sortBy_mono hφ hA (key := id) (key' := id) (g := φ) (fun _ => rfl), unique_mono hφ, List.length_map, List.length_map]
  have : (l.map φ = (sortBy A id l).map φ) ↔ l = sortBy A id l := (List.map_injective_iff.mpr hφ.injective).eq_iff
  simp only [this]

theorem checkThread_mono (l : List K) (labels : List Int) (tmm : List (WithBot K × K)) (lab : Int) :
    checkThread (l.map φ) labels (tmm.map (mapEnds φ)) lab = checkThread l labels tmm lab := by
  unfold checkThread
  simp only [List.getElem?_map]
  have e : ∀ x : Option Nat, x.bind (fun i => (l[i]?).map φ) = (x.bind (fun i => l[i]?)).map φ := by
    intro x
    cases x <;> rfl
  rw [e, e]
  cases ((whereIdx (fun x => decide (x = lab)) labels).head?.bind fun i => l[i]?) with
  | none => rfl
  | some first =>
    cases ((whereIdx (fun x => decide (x = lab)) labels).getLast?.bind fun i => l[i]?) with
    | none => rfl
    | some last =>
      cases tmm[lab.toNat]? with
      | none => rfl
      | some mm => simp only [Option.map_some, mapEnds, map_le_coe hφ, hφ.injective.ne_iff]

theorem checkThreadLoop_mono (l : List K) (labels : List Int) (tmm : List (WithBot K × K)) (labs : List Int) :
    checkThreadLoop (l.map φ) labels (tmm.map (mapEnds φ)) labs = checkThreadLoop l labels tmm labs := by
  induction labs with
  | nil => rfl
  | cons lab labs ih => simp only [checkThreadLoop, checkThread_mono hφ, ih]

theorem checkThreads_mono (r : Run K) : checkThreads (r.mapLogl φ) = checkThreads r := by
  unfold checkThreads
  simp only [Run.mapLogl]
  cases r.labels with
  | none => rfl
  | some labels =>
    cases r.tmm with
    | none => rfl
    | some tmm =>
      simp only [Option.map_some, List.length_map, checkThreadLoop_mono hφ]
      have : (tmm.map (mapEnds φ)).any (fun p => decide (p.1 = ⊥)) = tmm.any (fun p => decide (p.1 = ⊥)) := by
        rw [List.any_map]
        congr 1
        funext p
        simp only [Function.comp, mapEnds, map_bot_iff hφ]
      rw [this]

theorem checkRun_mono (hA : SortsAlike A φ) (r : Run K) (da dw : Bool) :
    checkRun (σ := σ) A (r.mapLogl φ) da dw = checkRun A r da dw := by
  have h : checkMembers (r.mapLogl φ) = checkMembers r := by
    unfold checkMembers
    simp only [Run.mapLogl, List.length_map]
    cases r.labels with
    | none => rfl
    | some labels => cases r.tmm <;> rfl
  unfold checkRun
  rw [h, checkThreads_mono hφ]
  have e : (r.mapLogl φ).logl = r.logl.map φ := rfl
  rw [e, checkLogls_mono hφ hA]

/-! ### Splitting -/

theorem mkRows_logl (ls : List K) (bs : List (Option Int)) (ds : List Int) (ts : List (List K)) :
    mkRows (ls.map φ) bs ds ts = (mkRows ls bs ds ts).map (Row.mapLogl φ) := by
  induction ls generalizing bs ds ts with
  | nil => rfl
  | cons l ls ih =>
    cases bs with
    | nil => rfl
    | cons b bs =>
      cases ds with
      | nil => rfl
      | cons d ds =>
        cases ts with
        | nil => rfl
        | cons t ts =>
          simp only [List.map_cons, mkRows, ih]
          rfl

theorem arrayGivenRun_mono (r : Run K) : arrayGivenRun (r.mapLogl φ) = (arrayGivenRun r).map (List.map (Row.mapLogl φ)) := by
  unfold arrayGivenRun
  have hl : labelColumn (r.mapLogl φ) = labelColumn r := by
    unfold labelColumn
    simp only [Run.mapLogl, List.length_map]
  simp only [hl]
  simp only [Run.mapLogl, List.length_map, mkRows_logl hφ]
  split_ifs <;> rfl

theorem dict_mono (rows : List (Row K)) (tmm : List (WithBot K × K)) :
    Carried (σ := σ) (Run.mapLogl φ) (dictGivenRunArray rows tmm)
      (dictGivenRunArray (rows.map (Row.mapLogl φ)) (tmm.map (mapEnds φ))) := by
  have e1 : (rows.map (Row.mapLogl φ)).map (·.logl) = (rows.map (·.logl)).map φ := by rw [List.map_map, List.map_map]; rfl
  have e2 : (rows.map (Row.mapLogl φ)).map (·.dn) = rows.map (·.dn) := by rw [List.map_map]; rfl
  have e3 : (rows.map (Row.mapLogl φ)).map (·.label) = rows.map (·.label) := by rw [List.map_map]; rfl
  have e4 : (rows.map (Row.mapLogl φ)).map (·.theta) = rows.map (·.theta) := by rw [List.map_map]; rfl
  unfold dictGivenRunArray
  simp only [e1, e2, e3, e4, amin_mono hφ]
  cases amin (rows.map (·.logl)) with
  | none => exact Carried.raise _ _
  | some m =>
    have c1 : (tmm.map (mapEnds φ)).countP (fun p => decide (p.1 ≤ (φ m : WithBot K))) = tmm.countP (fun p => decide (p.1 ≤ (m : WithBot K))) := by
      rw [List.countP_map]
      congr 1
      funext p
      simp only [Function.comp, mapEnds, map_le_coe hφ]
    have c2 : (tmm.map (mapEnds φ)).countP (fun p => decide (p.1 = (φ m : WithBot K))) = tmm.countP (fun p => decide (p.1 = (m : WithBot K))) := by
      rw [List.countP_map]
      congr 1
      funext p
      simp only [Function.comp, mapEnds, map_eq_coe hφ]
    have c3 : ((rows.map (·.logl)).map φ).countP (fun x => decide (x = φ m)) = (rows.map (·.logl)).countP (fun x => decide (x = m)) := by
      rw [List.countP_map]
      congr 1
      funext p
      simp only [Function.comp, hφ.injective.eq_iff]
    simp only [Option.map_some, c1, c2, c3]
    refine Carried.same fun _ => ?_
    refine Carried.same fun nl => ?_
    refine Carried.same fun _ => ?_
    refine Carried.same fun _ => ?_
    exact Carried.pure _ _

theorem threadDn_logl (rows : List (Row K)) : threadDn (rows.map (Row.mapLogl φ)) = (threadDn rows).map (Row.mapLogl φ) := by
  induction rows with
  | nil => rfl
  | cons r rs ih =>
    cases rs with
    | nil => rfl
    | cons s ss =>
      simp only [List.map_cons] at ih ⊢
      simp only [threadDn, List.map_cons, ih]
      rfl

theorem getThread_mono (rows : List (Row K)) (tmm : List (WithBot K × K)) (i : Nat) (lab : Int) :
    Carried (σ := σ) (Run.mapLogl φ) (getThread rows tmm i lab)
      (getThread (rows.map (Row.mapLogl φ)) (tmm.map (mapEnds φ)) i lab) := by
  have e : (rows.map (Row.mapLogl φ)).filter (fun r => decide (r.label = some lab)) =
      (rows.filter (fun r => decide (r.label = some lab))).map (Row.mapLogl φ) := by
    rw [List.filter_map]; rfl
  unfold getThread
  simp only [e, threadDn_logl hφ, List.getLast?_map, List.getElem?_map]
  cases tmm[i]? with
  | none => exact Carried.raise _ _
  | some mm =>
    cases (threadDn (rows.filter (fun r => decide (r.label = some lab)))).getLast? with
    | none => exact Carried.raise _ _
    | some last =>
      simp only [Option.map_some]
      have : (mapEnds φ mm).2 = (last.mapLogl φ).logl ↔ mm.2 = last.logl := hφ.injective.eq_iff
      simp only [this]
      exact Carried.same fun _ => dict_mono hφ _ [mm]

theorem getThreadsLoop_mono (rows : List (Row K)) (tmm : List (WithBot K × K)) (i : Nat) (labs : List Int) :
    Carried (σ := σ) (List.map (Run.mapLogl φ)) (getThreadsLoop rows tmm i labs)
      (getThreadsLoop (rows.map (Row.mapLogl φ)) (tmm.map (mapEnds φ)) i labs) := by
  induction labs generalizing i with
  | nil => exact Carried.pure _ _
  | cons lab labs ih =>
    unfold getThreadsLoop
    exact (getThread_mono hφ rows tmm i lab).bind fun t => (ih (i + 1)).bind fun ts => Carried.pure _ _

/-- C89 for `get_run_threads`. -/
theorem C89_split (r : Run K) :
    Carried (σ := σ) (List.map (Run.mapLogl φ)) (getRunThreads r) (getRunThreads (r.mapLogl φ)) := by
  unfold getRunThreads
  refine (Carried.lift (arrayGivenRun_mono hφ r)).bind fun rows => ?_
  have h1 : (r.mapLogl φ).labels = r.labels := rfl
  have h2 : (r.mapLogl φ).tmm = r.tmm.map (List.map (mapEnds φ)) := rfl
  rw [h1, h2]
  cases r.labels with
  | none => exact Carried.raise _ _
  | some labels =>
    cases r.tmm with
    | none => exact Carried.raise _ _
    | some tmm =>
      simp only [Option.map_some, List.length_map]
      exact Carried.same fun _ => getThreadsLoop_mono hφ _ _ _ _

/-! ### Combining -/

theorem tmmStack_mono (runs : List (Run K)) : tmmStack (runs.map (Run.mapLogl φ)) = (tmmStack runs).map (List.map (mapEnds φ)) := by
  induction runs with
  | nil => rfl
  | cons r rs ih =>
    have h2 : (r.mapLogl φ).tmm = r.tmm.map (List.map (mapEnds φ)) := rfl
    cases rs with
    | nil =>
      simp only [List.map_cons, List.map_nil, tmmStack, h2]
      cases r.tmm <;> rfl
    | cons s ss =>
      simp only [List.map_cons] at ih ⊢
      simp only [tmmStack, h2, ih]
      cases r.tmm with
      | none => rfl
      | some t =>
        simp only [Option.map_some]
        cases tmmStack (s :: ss) with
        | error e => rfl
        | ok ts =>
          show Except.ok _ = Except.ok _
          rw [List.map_append]

theorem arraysGivenRuns_mono (runs : List (Run K)) :
    arraysGivenRuns (runs.map (Run.mapLogl φ)) = (arraysGivenRuns runs).map (List.map (List.map (Row.mapLogl φ))) := by
  induction runs with
  | nil => rfl
  | cons r rs ih =>
    simp only [List.map_cons, arraysGivenRuns, arrayGivenRun_mono hφ, ih]
    cases arrayGivenRun r with
    | error e => rfl
    | ok a => cases arraysGivenRuns rs <;> rfl

theorem vstack_mono (arrs : List (List (Row K))) :
    vstack (arrs.map (List.map (Row.mapLogl φ))) = (vstack arrs).map (List.map (Row.mapLogl φ)) := by
  cases arrs with
  | nil => rfl
  | cons a as =>
    have e : ((a :: as).map (List.map (Row.mapLogl φ))).flatten = (a :: as).flatten.map (Row.mapLogl φ) := by
      rw [List.map_flatten]
    have key : ((a :: as).flatten.map (Row.mapLogl φ)).all (fun r => ((a :: as).flatten.map (Row.mapLogl φ)).all
        (fun s => decide (r.theta.length = s.theta.length))) =
        (a :: as).flatten.all (fun r => (a :: as).flatten.all (fun s => decide (r.theta.length = s.theta.length))) := by
      simp only [List.all_map]
      rfl
    simp only [List.map_cons] at e ⊢
    unfold vstack
    simp only [e]
    rw [key]
    split_ifs <;> rfl

theorem relabelLoop_mono (hA : SortsAlike A φ) (da dw : Bool) (n : Nat) (runs : List (Run K)) :
    Carried (σ := σ) (List.map (Run.mapLogl φ)) (relabelLoop A da dw n runs) (relabelLoop A da dw n (runs.map (Run.mapLogl φ))) := by
  induction runs generalizing n with
  | nil => exact Carried.pure _ _
  | cons r rs ih =>
    unfold relabelLoop
    simp only [List.map_cons]
    rw [checkRun_mono hφ hA]
    refine Carried.same fun _ => ?_
    have : ((r.mapLogl φ).tmm.getD []).length = (r.tmm.getD []).length := by
      simp only [Run.mapLogl]
      cases r.tmm <;> simp
    rw [this]
    exact (ih _).bind fun rs' => Carried.pure _ _

/-- C89 for `combine_ns_runs`. -/
theorem C89_combine_runs (hA : SortsAlike A φ) (runs : List (Run K)) (da dw : Bool) :
    Carried (σ := σ) (Run.mapLogl φ) (combineRuns A runs da dw) (combineRuns A (runs.map (Run.mapLogl φ)) da dw) := by
  have hs : Carried (σ := σ) (Run.mapLogl φ) (stackRuns A runs da dw) (stackRuns A (runs.map (Run.mapLogl φ)) da dw) := by
    have gen : Carried (σ := σ) (Run.mapLogl φ) (do
        let runs ← relabelLoop A da dw 0 runs
        let tmm ← M.lift (tmmStack runs)
        let arrs ← M.lift (arraysGivenRuns runs)
        let rows ← M.lift (vstack arrs)
        dictGivenRunArray (sortBy A (·.logl) rows) tmm) (do
        let runs ← relabelLoop A da dw 0 (runs.map (Run.mapLogl φ))
        let tmm ← M.lift (tmmStack runs)
        let arrs ← M.lift (arraysGivenRuns runs)
        let rows ← M.lift (vstack arrs)
        dictGivenRunArray (sortBy A (·.logl) rows) tmm) := by
      refine (relabelLoop_mono hφ hA da dw 0 runs).bind fun runs' => ?_
      refine (Carried.lift (tmmStack_mono hφ runs')).bind fun tmm => ?_
      refine (Carried.lift (arraysGivenRuns_mono hφ runs')).bind fun arrs => ?_
      refine (Carried.lift (vstack_mono hφ arrs)).bind fun rows => ?_
      rw [sortBy_mono hφ hA (key := Row.logl) (key' := Row.logl) (g := Row.mapLogl φ) (fun _ => rfl)]
      exact dict_mono hφ _ _
    match runs with
    | [] => exact gen
    | [r] => exact Carried.pure _ _
    | _ :: _ :: _ => exact gen
  unfold combineRuns
  refine hs.bind fun run => ?_
  rw [checkRun_mono hφ hA]
  exact Carried.same fun _ => Carried.pure _ _

theorem finiteStarts_mono (tmm : List (WithBot K × K)) : finiteStarts (tmm.map (mapEnds φ)) = (finiteStarts tmm).map φ := by
  unfold finiteStarts
  rw [List.filterMap_map, List.map_filterMap]
  congr 1
  funext p
  obtain ⟨x, y⟩ := p
  cases x <;> rfl

end monotone

section nearest
variable {σ K : Type} [CommRing K] [LinearOrder K]

theorem argmin_congr {α β γ : Type} [LinearOrder β] [LinearOrder γ] (l : List α) {f : α → β} {g : α → γ}
    (h : ∀ a ∈ l, ∀ b ∈ l, f a ≤ f b ↔ g a ≤ g b) : argmin (l.map f) = argmin (l.map g) := by
  unfold argmin
  cases hl : l with
  | nil => rfl
  | cons a as =>
    rw [← hl]
    obtain ⟨m, hm⟩ : ∃ m, amin (l.map f) = some m := by rw [hl]; exact ⟨_, rfl⟩
    obtain ⟨m', hm'⟩ : ∃ m', amin (l.map g) = some m' := by rw [hl]; exact ⟨_, rfl⟩
    rw [hm, hm']
    obtain ⟨h1, h2⟩ := amin_eq_some.mp hm
    obtain ⟨h3, h4⟩ := amin_eq_some.mp hm'
    obtain ⟨x, hx, rfl⟩ := List.mem_map.mp h1
    obtain ⟨y, hy, rfl⟩ := List.mem_map.mp h3
    simp only [Option.map_some, Option.some.injEq]
    rw [List.findIdx_map, List.findIdx_map]
    have key : ∀ z ∈ l, (f z = f x ↔ g z = g y) := by
      intro z hz
      have a1 := h2 (f z) (List.mem_map_of_mem hz)
      have a2 := h4 (g z) (List.mem_map_of_mem hz)
      constructor
      · intro e
        exact le_antisymm ((h z hz y hy).mp (e.le.trans (h2 _ (List.mem_map_of_mem hy)))) a2
      · intro e
        exact le_antisymm ((h z hz x hx).mpr (e.le.trans (h4 _ (List.mem_map_of_mem hx)))) a1
    have : ∀ l' : List α, (∀ z ∈ l', (f z = f x ↔ g z = g y)) →
        l'.findIdx ((fun z => decide (z = f x)) ∘ f) = l'.findIdx ((fun z => decide (z = g y)) ∘ g) := by
      intro l'
      induction l' with
      | nil => intro _; rfl
      | cons z zs ih =>
        intro hz
        rw [List.findIdx_cons, List.findIdx_cons, ih (fun w hw => hz w (List.mem_cons_of_mem _ hw))]
        have : ((fun z => decide (z = f x)) ∘ f) z = ((fun z => decide (z = g y)) ∘ g) z := by
          simp only [Function.comp, hz z (by simp)]
        rw [this]
    exact this l key

variable {φ : K → K} (hφ : StrictMono φ) {A : Argsort K}
include hφ

theorem birthUpdate_mono (R : Rng σ K) (abp : Bool) (ss : List K) (rows : List (Row K))
    (hN : abp = true ∨ KeepsNearest φ ∨ ∀ s ∈ ss, s ∈ rows.map (·.logl)) :
    Carried (List.map (Row.mapLogl φ)) (birthUpdate R abp ss rows) (birthUpdate R abp (ss.map φ) (rows.map (Row.mapLogl φ))) := by
  induction ss generalizing rows with
  | nil => exact Carried.pure _ _
  | cons s ss ih =>
    have e1 : (rows.map (Row.mapLogl φ)).map (·.logl) = (rows.map (·.logl)).map φ := by rw [List.map_map, List.map_map]; rfl
    have e2 : (rows.map (Row.mapLogl φ)).map (fun r => |r.logl - φ s|) = rows.map (fun r => |φ r.logl - φ s|) := by
      rw [List.map_map]; rfl
    have tail : ∀ k : Nat, Carried (List.map (Row.mapLogl φ))
        (birthUpdate R abp ss (rows.modify k (fun r => { r with dn := r.dn + 1 })))
        (birthUpdate R abp (ss.map φ) ((rows.map (Row.mapLogl φ)).modify k (fun r => { r with dn := r.dn + 1 }))) := by
      intro k
      have e3 : (rows.map (Row.mapLogl φ)).modify k (fun r => { r with dn := r.dn + 1 }) =
          (rows.modify k (fun r => { r with dn := r.dn + 1 })).map (Row.mapLogl φ) := by
        apply List.ext_getElem?
        intro i
        simp only [List.getElem?_modify, List.getElem?_map]
        cases rows[i]? with
        | none => simp
        | some r => by_cases h : k = i <;> simp [h, Row.mapLogl]
      rw [e3]
      apply ih
      rcases hN with h | h | h
      · exact .inl h
      · exact .inr (.inl h)
      · refine .inr (.inr fun t ht => ?_)
        have e4 : (rows.modify k (fun r => { r with dn := r.dn + 1 })).map (·.logl) = rows.map (·.logl) := by
          apply List.ext_getElem?
          intro i
          simp only [List.getElem?_modify, List.getElem?_map]
          cases rows[i]? with
          | none => simp
          | some r => by_cases h : k = i <;> simp [h]
        rw [e4]
        exact h t (List.mem_cons_of_mem _ ht)
    rw [List.map_cons]
    unfold birthUpdate
    simp only [e1, e2, whereIdx_mono hφ]
    cases hw : whereIdx (fun x => decide (x = s)) (rows.map (·.logl)) with
    | cons k ks =>
      cases ks with
      | nil =>
        refine Carried.same fun _ => ?_
        refine Carried.same fun k => ?_
        exact tail k
      | cons k' ks =>
        refine Carried.same fun _ => ?_
        refine Carried.same fun k => ?_
        exact tail k
    | nil =>
      rcases hN with h | h | h
      · rw [h]
        intro w
        rfl
      · have : argmin (rows.map (fun r => |φ r.logl - φ s|)) = argmin (rows.map (fun r => |r.logl - s|)) :=
          argmin_congr rows (fun a _ b _ => h _ _ _)
        simp only [this]
        refine Carried.same fun _ => ?_
        refine Carried.same fun k => ?_
        exact tail k
      · have hs := h s (by simp)
        obtain ⟨i, hi⟩ := List.mem_iff_getElem?.mp hs
        have : i ∈ whereIdx (fun x => decide (x = s)) (rows.map (·.logl)) := by
          unfold whereIdx
          rw [List.mem_filter, List.mem_range]
          exact ⟨(List.getElem?_eq_some_iff.mp hi).1, by rw [hi]; simp⟩
        rw [hw] at this
        cases this

omit hφ in
theorem tmmStack_mem {threads : List (Run K)} {tmm : List (WithBot K × K)} (h : tmmStack threads = .ok tmm) {p : WithBot K × K}
    (hp : p ∈ tmm) : ∃ t ∈ threads, p ∈ t.tmm.getD [] := by
  induction threads generalizing tmm with
  | nil => cases h
  | cons r rs ih =>
    cases ht : r.tmm with
    | none => cases rs <;> (simp only [tmmStack, ht] at h; cases h)
    | some t =>
      cases rs with
      | nil =>
        simp only [tmmStack, ht, Except.ok.injEq] at h
        subst h
        exact ⟨r, by simp, by rw [ht]; exact hp⟩
      | cons s ss =>
        simp only [tmmStack, ht] at h
        cases hs : tmmStack (s :: ss) with
        | error e => rw [hs] at h; cases h
        | ok ts =>
          rw [hs] at h
          cases h
          rcases List.mem_append.mp hp with h' | h'
          · exact ⟨r, by simp, by rw [ht]; exact h'⟩
          · obtain ⟨t', h1, h2⟩ := ih hs h'
            exact ⟨t', List.mem_cons_of_mem _ h1, h2⟩

omit hφ in
theorem arraysGivenRuns_logls {runs : List (Run K)} {arrs : List (List (Row K))} (h : arraysGivenRuns runs = .ok arrs) :
    arrs.flatten.map (·.logl) = runs.flatMap (·.logl) := by
  have := arraysGivenRuns_inv h
  clear h
  induction this with
  | nil => rfl
  | @cons r a rs as h1 _ ih =>
    rw [List.flatten_cons, List.map_append, List.flatMap_cons, ih]
    congr 1
    unfold arrayGivenRun at h1
    simp only at h1
    split_ifs at h1 with h2 h3
    have e := Except.ok.inj h1
    rw [← e]
    have h3 : (labelColumn r).length = r.logl.length := by tauto
    have h4 : r.nlive.length = r.logl.length := by tauto
    have h5 : r.theta.length = r.logl.length := by tauto
    exact (mkRows_map h3 (by simp [length_diff, h4]; omega) h5).1

/-- C89 for `combine_threads`: whether birth points are found, or the nearest samples stay the same, or all birth points are
among the samples. -/
theorem C89_combine_threads (hA : SortsAlike A φ) (R : Rng σ K) (threads : List (Run K)) (abp : Bool)
    (hN : abp = true ∨ KeepsNearest φ ∨
      ∀ t ∈ threads, ∀ p ∈ t.tmm.getD [], ∀ x : K, p.1 = (x : WithBot K) → x ∈ threads.flatMap (·.logl)) :
    Carried (Run.mapLogl φ) (combineThreads A R threads abp) (combineThreads A R (threads.map (Run.mapLogl φ)) abp) := by
  unfold combineThreads
  rw [List.length_map]
  refine (Carried.lift (tmmStack_mono hφ threads)).bind_of fun tmm w w' ht => ?_
  have ht' : tmmStack threads = .ok tmm := congrArg Prod.fst ht
  rw [List.length_map]
  refine Carried.same fun _ => ?_
  refine (Carried.lift (arraysGivenRuns_mono hφ threads)).bind_of fun arrs w w' ha => ?_
  have ha' : arraysGivenRuns threads = .ok arrs := congrArg Prod.fst ha
  refine (Carried.lift (vstack_mono hφ arrs)).bind_of fun rows w w' hr => ?_
  have hr' : vstack arrs = .ok rows := congrArg Prod.fst hr
  refine Carried.same fun state => ?_
  refine Carried.same fun _ => ?_
  rw [sortBy_mono hφ hA (key := Row.logl) (key' := Row.logl) (g := Row.mapLogl φ) (fun _ => rfl), finiteStarts_mono hφ]
  refine (birthUpdate_mono hφ R abp _ _ ?_).bind fun rows => ?_
  · rcases hN with h | h | h
    · exact .inl h
    · exact .inr (.inl h)
    · refine .inr (.inr fun s hs => ?_)
      obtain ⟨p, hp, e⟩ := mem_finiteStarts.mp hs
      obtain ⟨t, h1, h2⟩ := tmmStack_mem ht' hp
      have := h t h1 p h2 s e
      rw [← arraysGivenRuns_logls ha', ← vstack_inv hr'] at this
      exact ((sortBy_perm A _ rows).map _).mem_iff.mpr this
  refine Carried.same fun _ => ?_
  refine (dict_mono hφ rows tmm).bind fun run => ?_
  rw [checkThreads_mono hφ]
  cases checkThreads run with
  | ok _ => exact Carried.pure _ _
  | error e => cases e <;> first | exact Carried.pure _ _ | exact Carried.raise _ _

/-! ### Resampling -/

theorem selectThreads_mono (threads : List (Run K)) (inds : List Nat) :
    selectThreads (threads.map (Run.mapLogl φ)) inds = (selectThreads threads inds).map (List.map (Run.mapLogl φ)) := by
  unfold selectThreads
  rw [List.length_map, gather_map]
  split_ifs <;> rfl

theorem bootstrapInds_mono (R : Rng σ K) (tmm : Option (List (WithBot K × K))) (settings : Option Settings) (n : Nat) (sep : Bool) :
    bootstrapInds R (tmm.map (List.map (mapEnds φ))) settings n sep = bootstrapInds R tmm settings n sep := by
  have h : ∀ k, separateInds R (tmm.map (List.map (mapEnds φ))) n k = separateInds R tmm n k := by
    intro k
    unfold separateInds
    cases tmm with
    | none => rfl
    | some tmm =>
      simp only [Option.map_some]
      have : ((tmm.map (mapEnds φ)).take k).all (fun p => decide (p.1 = ⊥)) = (tmm.take k).all (fun p => decide (p.1 = ⊥)) := by
        rw [← List.map_take, List.all_map]
        congr 1
        funext p
        simp only [Function.comp, mapEnds, map_bot_iff hφ]
      rw [this]
  unfold bootstrapInds
  simp only [h]

/-- C89 for `bootstrap_resample_run`: the nearest samples stay the same, or all threads start at -inf. -/
theorem C89_resample (hA : SortsAlike A φ) (R : Rng σ K) (r : Run K) (settings : Option Settings) (threads : Option (List (Run K)))
    (sep : Bool) (seed : Seed)
    (hN : KeepsNearest φ ∨ ∀ ts : List (Run K), (threads = some ts ∨ ∃ w w' : World σ, getRunThreads r w = (.ok ts, w')) →
      ∀ t ∈ ts, ∀ p ∈ t.tmm.getD [], p.1 = ⊥) :
    Carried (Prod.map (Run.mapLogl φ) id) (bootstrapResampleRun A R r settings threads sep seed)
      (bootstrapResampleRun A R (r.mapLogl φ) settings (threads.map (List.map (Run.mapLogl φ))) sep seed) := by
  have rest : ∀ (ts : List (Run K)) (state : σ), (KeepsNearest φ ∨ ∀ t ∈ ts, ∀ p ∈ t.tmm.getD [], p.1 = ⊥) →
      Carried (Prod.map (Run.mapLogl φ) id)
      (do
        let inds ← bootstrapInds R r.tmm settings ts.length sep
        let temp ← M.lift (selectThreads ts inds)
        let run ← combineThreads A R temp false
        restoreState seed state
        pure (run, settings) : M σ (Run K × Option Settings))
      (do
        let inds ← bootstrapInds R (r.mapLogl φ).tmm settings (ts.map (Run.mapLogl φ)).length sep
        let temp ← M.lift (selectThreads (ts.map (Run.mapLogl φ)) inds)
        let run ← combineThreads A R temp false
        restoreState seed state
        pure (run, settings)) := by
    intro ts state h
    rw [List.length_map]
    have e : (r.mapLogl φ).tmm = r.tmm.map (List.map (mapEnds φ)) := rfl
    rw [e, bootstrapInds_mono hφ]
    refine Carried.same fun inds => ?_
    refine (Carried.lift (selectThreads_mono hφ ts inds)).bind_of fun temp w w' ht => ?_
    have ht' : selectThreads ts inds = .ok temp := congrArg Prod.fst ht
    have hsub : temp ⊆ ts := by
      unfold selectThreads at ht'
      split_ifs at ht'
      have e := Except.ok.inj ht'
      rw [← e]
      intro t h
      obtain ⟨i, -, hi⟩ := List.mem_filterMap.mp h
      exact List.mem_of_getElem? hi
    refine (C89_combine_threads hφ hA R temp false (.inr ?_)).bind fun run => ?_
    · rcases h with h | h
      · exact .inl h
      · refine .inr fun t ht p hp x hx => ?_
        rw [h t (hsub ht) p hp] at hx
        cases hx
    exact Carried.same fun _ => Carried.pure _ _
  unfold bootstrapResampleRun
  refine Carried.same fun state => ?_
  refine Carried.same fun _ => ?_
  cases threads with
  | some ts =>
    exact (Carried.pure (List.map (Run.mapLogl φ)) ts).bind_of fun ts' w w' h => by
      cases h
      exact rest ts state (hN.imp id fun h => h ts (.inl rfl))
  | none =>
    refine (C89_split hφ r).bind_of fun ts w w' h => ?_
    exact rest ts state (hN.imp id fun h' => h' ts (.inr ⟨w, w', h⟩))

/-! ### Processing -/

theorem dupBirthInds_mono (R : Rng σ K) (births : List K) (b : K) (dd db : List Nat) :
    dupBirthInds R (births.map φ) (φ b) dd db = dupBirthInds R births b dd db := by
  unfold dupBirthInds
  have : dd.all (fun d => decide ((births.map φ)[d]? ≠ some (φ b))) = dd.all (fun d => decide (births[d]? ≠ some b)) := by
    congr 1
    funext d
    rw [List.getElem?_map]
    cases births[d]? with
    | none => simp
    | some x => simp [hφ.injective.eq_iff]
  rw [this]

theorem birthLoop_mono (R : Rng σ K) (births logls : List K) (ibs : List (Nat × K)) (acc : List (Option Int)) :
    birthLoop R (births.map φ) (logls.map φ) (ibs.map (Prod.map id φ)) acc = birthLoop R births logls ibs acc := by
  induction ibs generalizing acc with
  | nil => rfl
  | cons ib ibs ih =>
    obtain ⟨i, b⟩ := ib
    simp only [List.map_cons, Prod.map_apply, id_eq, birthLoop, whereIdx_mono hφ, dupBirthInds_mono hφ, ih]

theorem birthInds_mono (hA : SortsAlike A φ) (R : Rng σ K) (births logls : List K) (da dw : Bool) :
    birthInds A R (births.map φ) (logls.map φ) da dw = birthInds A R births logls da dw := by
  unfold birthInds
  rw [checkLogls_mono hφ hA]
  cases births with
  | nil => rfl
  | cons init bs =>
    have e1 : ((((init :: bs).map φ).zip (logls.map φ)).all (fun p => decide (p.1 ≤ p.2))) =
        (((init :: bs).zip logls).all (fun p => decide (p.1 ≤ p.2))) := by
      rw [List.zip_map, List.all_map]
      congr 1
      funext p
      simp only [Function.comp, Prod.map, hφ.le_iff_le]
    have e2 : ((init :: bs).map φ).map (fun b => if b = φ init then some (-1 : Int) else none) =
        (init :: bs).map (fun b => if b = init then some (-1 : Int) else none) := by
      rw [List.map_map]
      apply List.map_congr_left
      intro b _
      simp only [Function.comp, hφ.injective.eq_iff]
    have e3 : ∀ acc, birthLoop R ((init :: bs).map φ) (logls.map φ)
        ((List.range ((init :: bs).map φ).length).zip ((init :: bs).map φ)) acc =
        birthLoop R (init :: bs) logls ((List.range (init :: bs).length).zip (init :: bs)) acc := by
      intro acc
      rw [List.length_map, ← birthLoop_mono hφ R (init :: bs) logls, ← List.zip_map_right]
    simp only [List.map_cons, List.length_map] at e1 e2 e3 ⊢
    simp only [e1, e2, List.length_cons, List.length_map] at e3 ⊢
    simp only [e3]

omit hφ in
/-- The rows of `thread_min_max` filled in so far correspond. -/
def Alike (φ : K → K) (done : List Nat) (acc acc' : ThreadAcc K) : Prop :=
  acc'.delta = acc.delta ∧ acc'.tmm.length = acc.tmm.length ∧ ∀ k ∈ done, acc'.tmm[k]? = (acc.tmm[k]?).map (mapEnds φ)

omit hφ in
theorem Alike.set {done : List Nat} {acc acc' : ThreadAcc K} (h : Alike φ done acc acc') (lab : Nat) (p : WithBot K × K) (delta : List Int) :
    Alike φ (lab :: done) ⟨acc.tmm.set lab p, delta⟩ ⟨acc'.tmm.set lab (mapEnds φ p), delta⟩ := by
  obtain ⟨h1, h2, h3⟩ := h
  refine ⟨rfl, by simp [h2], ?_⟩
  intro k hk
  simp only [List.getElem?_set, h2]
  by_cases e : lab = k
  · subst e
    simp only [if_true]
    split_ifs <;> rfl
  · simp only [e, if_false]
    exact h3 k ((List.mem_cons.mp hk).resolve_left (fun h => e h.symm))

omit hφ in
theorem threadStep_mono {done : List Nat} {acc acc' : ThreadAcc K} (h : Alike φ done acc acc') (logl : List K) (b : List Int)
    (labels : List Nat) (lab : Nat) :
    match threadStep logl b labels acc lab, threadStep (logl.map φ) b labels acc' lab with
    | .ok a, .ok a' => Alike φ (lab :: done) a a'
    | .error e, .error e' => e = e'
    | _, _ => False := by
  unfold threadStep
  simp only [List.getElem?_map]
  cases (whereIdx (fun x => decide (x = lab)) labels).head? with
  | none => rfl
  | some first =>
    cases (whereIdx (fun x => decide (x = lab)) labels).getLast? with
    | none => rfl
    | some last =>
      cases b[0]? with
      | none => rfl
      | some b0 =>
        simp only
        cases logl[last]? with
        | none => rfl
        | some mx =>
          cases b[first]? with
          | none => rfl
          | some sb =>
            simp only [Option.map_some, h.1]
            by_cases e1 : sb = b0
            · simp only [e1, if_true]
              exact h.set lab (⊥, mx) _
            · by_cases e2 : sb < 0
              · simp only [e1, e2, if_true, if_false]
              · simp only [e1, e2, if_false]
                cases logl[sb.toNat]? with
                | none => rfl
                | some mn =>
                  simp only [Option.map_some]
                  exact h.set lab ((mn : WithBot K), mx) _

omit hφ in
theorem threadStepLoop_mono {done : List Nat} {acc acc' : ThreadAcc K} (h : Alike φ done acc acc') (logl : List K) (b : List Int)
    (labels : List Nat) (labs : List Nat) :
    match threadStepLoop logl b labels labs acc, threadStepLoop (logl.map φ) b labels labs acc' with
    | .ok a, .ok a' => Alike φ (labs ++ done) a a'
    | .error e, .error e' => e = e'
    | _, _ => False := by
  induction labs generalizing done acc acc' with
  | nil => exact h
  | cons lab labs ih =>
    unfold threadStepLoop
    have := threadStep_mono h logl b labels lab
    cases h1 : threadStep logl b labels acc lab with
    | error e =>
      cases h2 : threadStep (logl.map φ) b labels acc' lab with
      | error e' => rw [h1, h2] at this; exact this
      | ok a' => rw [h1, h2] at this; exact this.elim
    | ok a =>
      cases h2 : threadStep (logl.map φ) b labels acc' lab with
      | error e' => rw [h1, h2] at this; exact this.elim
      | ok a' =>
        rw [h1, h2] at this
        have := ih this
        simp only
        cases h3 : threadStepLoop logl b labels labs a with
        | error e =>
          cases h4 : threadStepLoop (logl.map φ) b labels labs a' with
          | error e' => rw [h3, h4] at this; exact this
          | ok a' => rw [h3, h4] at this; exact this.elim
        | ok c =>
          cases h4 : threadStepLoop (logl.map φ) b labels labs a' with
          | error e' => rw [h3, h4] at this; exact this.elim
          | ok c' =>
            rw [h3, h4] at this
            refine ⟨this.1, this.2.1, fun k hk => this.2.2 k ?_⟩
            simp only [List.cons_append, List.mem_cons, List.mem_append] at hk ⊢
            tauto

omit hφ in
theorem threadStepLoop_length {logl : List K} {b : List Int} {labels : List Nat} {labs : List Nat} {acc a : ThreadAcc K}
    (h : threadStepLoop logl b labels labs acc = .ok a) : a.tmm.length = acc.tmm.length := by
  induction labs generalizing acc with
  | nil => cases h; rfl
  | cons lab labs ih =>
    unfold threadStepLoop at h
    cases h1 : threadStep logl b labels acc lab with
    | error e => rw [h1] at h; cases h
    | ok c =>
      rw [h1] at h
      rw [ih h]
      unfold threadStep at h1
      simp only at h1
      split at h1
      · split at h1
        · split_ifs at h1
          · cases h1; simp
          · split at h1
            · cases h1; simp
            · cases h1
        · cases h1
      · cases h1

/-- C89 for `process_samples_array`. -/
theorem C89_process (hA : SortsAlike A φ) (R : Rng σ K) (samples : List (Sample K)) (da dw : Bool) :
    Carried (Run.mapLogl φ) (processSamples A R samples da dw) (processSamples A R (samples.map (Sample.mapLogl φ)) da dw) := by
  unfold processSamples
  rw [sortBy_mono hφ hA (key := Sample.logl) (key' := Sample.logl) (g := Sample.mapLogl φ) (fun _ => rfl)]
  have e1 : ∀ l : List (Sample K), (l.map (Sample.mapLogl φ)).map (·.logl) = (l.map (·.logl)).map φ := fun l => by
    rw [List.map_map, List.map_map]; rfl
  have e2 : ∀ l : List (Sample K), (l.map (Sample.mapLogl φ)).map (·.birth) = (l.map (·.birth)).map φ := fun l => by
    rw [List.map_map, List.map_map]; rfl
  have e3 : ∀ l : List (Sample K), (l.map (Sample.mapLogl φ)).map (·.theta) = l.map (·.theta) := fun l => by rw [List.map_map]; rfl
  simp only [e1, e2, e3, List.length_map, birthInds_mono hφ hA]
  refine Carried.same fun b => ?_
  refine Carried.same fun labels => ?_
  refine (Carried.refl _).bind_of fun _ w w' hu => ?_
  have hu' : unique labels = List.range (unique labels).length := by
    by_contra hne
    simp [M.assert, hne] at hu
  intro w
  have := threadStepLoop_mono (φ := φ) (done := []) (acc := ⟨List.replicate (unique labels).length ((0 : K), 0),
    List.replicate ((sortBy A (·.logl) samples).length + 1) 0⟩) (acc' := ⟨List.replicate (unique labels).length ((0 : K), 0),
    List.replicate ((sortBy A (·.logl) samples).length + 1) 0⟩) ⟨rfl, rfl, by simp⟩ ((sortBy A (·.logl) samples).map (·.logl)) b labels (unique labels)
  rw [M.bind_apply, M.bind_apply]
  simp only [M.lift_apply]
  cases h1 : threadStepLoop ((sortBy A (·.logl) samples).map (·.logl)) b labels (unique labels) ⟨List.replicate (unique labels).length ((0 : K), 0),
    List.replicate ((sortBy A (·.logl) samples).length + 1) 0⟩ with
  | error e =>
    cases h2 : threadStepLoop (((sortBy A (·.logl) samples).map (·.logl)).map φ) b labels (unique labels) ⟨List.replicate (unique labels).length ((0 : K), 0),
      List.replicate ((sortBy A (·.logl) samples).length + 1) 0⟩ with
    | error e' => rw [h1, h2] at this; simp only at this; subst this; rfl
    | ok a' => rw [h1, h2] at this; exact this.elim
  | ok a =>
    cases h2 : threadStepLoop (((sortBy A (·.logl) samples).map (·.logl)).map φ) b labels (unique labels) ⟨List.replicate (unique labels).length ((0 : K), 0),
      List.replicate ((sortBy A (·.logl) samples).length + 1) 0⟩ with
    | error e' => rw [h1, h2] at this; exact this.elim
    | ok a' =>
      rw [h1, h2] at this
      obtain ⟨t1, t2, t3⟩ := this
      have hlen := threadStepLoop_length h1
      simp only [List.length_replicate] at hlen
      have ht : a'.tmm = a.tmm.map (mapEnds φ) := by
        apply List.ext_getElem?
        intro k
        rw [List.getElem?_map]
        by_cases hk : k < a.tmm.length
        · apply t3
          rw [List.append_nil, hu', List.mem_range, ← hlen]
          exact hk
        · rw [List.getElem?_eq_none (by omega), List.getElem?_eq_none (by omega)]
          rfl
      show (Except.ok _, w) = (Except.ok _, w)
      rw [t1, ht]
      rfl

/-! ### Writing -/

theorem threadSamples_mono (init : K) (t : Run K) :
    threadSamples (φ init) (t.mapLogl φ) = (threadSamples init t).map (List.map (Sample.mapLogl φ)) := by
  unfold threadSamples
  simp only [Run.mapLogl]
  cases t.tmm with
  | none => rfl
  | some tmm =>
    cases tmm with
    | nil => rfl
    | cons p ps =>
      obtain ⟨start, x⟩ := p
      have hb : firstBirth (φ init) (WithBot.map φ start) = φ (firstBirth init start) := by cases start <;> rfl
      simp only [Option.map_some, List.map_cons, mapEnds, List.length_map, hb, List.isEmpty_map]
      split_ifs
      · rfl
      · rfl
      · show Except.ok _ = Except.ok _
        congr 1
        rw [← List.map_dropLast, ← List.map_cons, List.zip_map, List.zipWith_map_right, List.map_zipWith]
        rfl

theorem threadSamplesLoop_mono (init : K) (ts : List (Run K)) :
    threadSamplesLoop (φ init) (ts.map (Run.mapLogl φ)) = (threadSamplesLoop init ts).map (List.map (List.map (Sample.mapLogl φ))) := by
  induction ts with
  | nil => rfl
  | cons t ts ih =>
    simp only [List.map_cons, threadSamplesLoop, threadSamples_mono hφ, ih]
    cases threadSamples init t with
    | error e => rfl
    | ok a => cases threadSamplesLoop init ts <;> rfl

/-- C89 for `run_dead_birth_array`. -/
theorem C89_dead_birth (hA : SortsAlike A φ) (r : Run K) (init : K) (da dw : Bool) :
    Carried (σ := σ) (List.map (Sample.mapLogl φ)) (runDeadBirth A r init da dw) (runDeadBirth A (r.mapLogl φ) (φ init) da dw) := by
  unfold runDeadBirth
  rw [checkRun_mono hφ hA]
  refine Carried.same fun _ => ?_
  refine (C89_split hφ r).bind fun ts => ?_
  refine (Carried.lift (threadSamplesLoop_mono hφ init ts)).bind fun arrs => ?_
  rw [List.isEmpty_map]
  refine Carried.same fun _ => ?_
  rw [← List.map_flatten, sortBy_mono hφ hA (key := Sample.logl) (key' := Sample.logl) (g := Sample.mapLogl φ) (fun _ => rfl)]
  exact Carried.pure _ _

end nearest

section conditions
variable {K : Type} [CommRing K] [LinearOrder K]

/-- A stable sort by comparisons cannot tell the loglikelihoods apart. -/
theorem C89_stable {φ : K → K} (hφ : StrictMono φ) : SortsAlike (stableSort K) φ := by
  intro l
  have h : ∀ i j, leAt (l.map φ) i j = leAt l i j := by
    intro i j
    unfold leAt
    rw [List.getElem?_map, List.getElem?_map]
    cases l[i]? with
    | none => cases l[j]? <;> rfl
    | some x =>
      cases l[j]? with
      | none => rfl
      | some y => simp [hφ.le_iff_le]
  show sortIdx (l.map φ) (List.range (l.map φ).length) = sortIdx l (List.range l.length)
  rw [List.length_map]
  unfold sortIdx
  simp only [h]

/-- Changing the units and the zero point of the loglikelihood keeps the nearest samples. -/
theorem C89_affine [IsStrictOrderedRing K] {a : K} (ha : 0 < a) (b : K) :
    StrictMono (fun x => a * x + b) ∧ KeepsNearest (fun x => a * x + b) := by
  refine ⟨fun x y h => by simpa using mul_lt_mul_of_pos_left h ha, fun x y s => ?_⟩
  have e : ∀ x s : K, |a * x + b - (a * s + b)| = a * |x - s| := by
    intro x s
    rw [show a * x + b - (a * s + b) = a * (x - s) by ring, abs_mul, abs_of_pos ha]
  simp only [e]
  exact mul_le_mul_iff_right₀ ha

end conditions

section examples

/-- A strictly increasing function which changes distances. -/
def cube (x : ℤ) : ℤ := x ^ 3

theorem cube_strictMono : StrictMono cube := fun _ _ h => Odd.strictMono_pow (by decide) h

/-- Processing the cubes. -/
example : (processSamples (σ := Nat) (stableSort ℤ) (counterRng ℤ (by decide)) (swapSamples.map (Sample.mapLogl cube)) true false ⟨0, []⟩).1.map
    (fun r => (r.logl, r.nlive, r.tmm)) = .ok ([1, 27, 64], [2, 2, 1], some [(⊥, 64), (⊥, 27)]) := by
  rw [C89_process cube_strictMono (C89_stable cube_strictMono)]
  rfl

/-- Two threads, of which the second starts on a contour between the two samples of the first which is not a sample, as may happen
in a bootstrap replication. -/
def farThreads : List (Run ℤ) :=
  [⟨[1, 8], [1, 1], [[0], [0]], some [0, 0], some [(⊥, 8)]⟩, ⟨[9], [1], [[0]], some [1], some [((5 : ℤ), 9)]⟩]

/-- The condition cannot be left out of `C89_combine_threads`: the sample nearest to the contour 5 is 8, but of the cubes 1 is
nearest to 125. -/
theorem C89_nearest_fails (s : Nat) :
    ((combineThreads (stableSort ℤ) (counterRng ℤ (by decide)) farThreads false ⟨s, []⟩).1.map (·.nlive) = .ok [1, 1, 1]) ∧
    ((combineThreads (stableSort ℤ) (counterRng ℤ (by decide)) (farThreads.map (Run.mapLogl cube)) false ⟨s, []⟩).1.map (·.nlive) = .ok [1, 2, 1]) :=
  ⟨rfl, rfl⟩

end examples
end Nestcheck
