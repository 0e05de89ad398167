import Verif.Model.Alias
import Verif.Props.Combine

/-! C74: `combine_ns_runs` on run objects which may share arrays. -/

set_option linter.unusedSectionVars false

namespace Nestcheck
open Spec

section
variable {K : Type}

/-- The `thread_labels` arrays of the runs are objects in memory. -/
def Spec.Allocated (h : Heap) (runs : List (RunObj K)) : Prop :=
  ∀ r ∈ runs, ∀ a, r.labels = some a → a < h.next

/-- No two places of the list refer to the same `thread_labels` array. -/
def Spec.Unshared (runs : List (RunObj K)) : Prop :=
  ∀ (i j : Nat) (r r' : RunObj K) (a : Nat), i < j → runs[i]? = some r → runs[j]? = some r' →
    r.labels = some a → r'.labels ≠ some a

theorem unshared_iff {runs : List (RunObj K)} :
    Unshared runs ↔ runs.Pairwise (fun r r' => ∀ a, r.labels = some a → r'.labels ≠ some a) := by
  rw [pairwise_iff_getElem?]
  exact ⟨fun h i j x y hij hx hy a ha => h i j x y a hij hx hy ha,
    fun h i j x y a hij hx hy ha => h i j x y hij hx hy a ha⟩
end

section
variable {σ K : Type} [CommRing K] [LinearOrder K]

/-- The outcome of a check and the warnings it adds depend on the run only. -/
theorem checkRun_uniform (A : Argsort K) (r : Run K) (da dw : Bool) :
    ∃ v ws, ∀ (σ : Type) (w : World σ), checkRun A r da dw w = (v, ⟨w.rng, w.warns ++ ws⟩) := by
  unfold checkRun
  cases hm : checkMembers r with
  | error e =>
    refine ⟨.error e, [], fun σ w => ?_⟩
    rw [M.bind_error (e := e) (w' := w) (by rw [M.lift_apply])]; simp
  | ok u =>
    refine ⟨?_, ?_, fun σ w => ?_⟩
    rotate_left 2
    · rw [M.bind_ok (a := u) (w' := w) (by rw [M.lift_apply]), M.bind_apply, checkLogls_apply]
      show _ = ((if ¬ r.logl.Pairwise (· ≤ ·) then .error .assertion
        else if r.logl.Pairwise (· < ·) then checkThreads r
        else if da then .error .assertion else checkThreads r),
        (⟨w.rng, w.warns ++ (if ¬ r.logl.Pairwise (· ≤ ·) then [] else if r.logl.Pairwise (· < ·) then []
          else if da then [] else if dw then [.dupLogl] else [])⟩ : World σ))
      split_ifs <;> simp_all

theorem dict_uniform (rows : List (Row K)) (tmm : List (WithBot K × K)) :
    ∃ v ws, ∀ (σ : Type) (w : World σ), dictGivenRunArray rows tmm w = (v, ⟨w.rng, w.warns ++ ws⟩) := by
  unfold dictGivenRunArray
  cases hm : amin (rows.map (·.logl)) with
  | none => exact ⟨.error .value, [], fun σ w => by simp⟩
  | some m =>
    simp only
    by_cases h0 : (0 : Int) < (tmm.countP (fun p => decide (p.1 ≤ (m : WithBot K))) : Nat)
    swap
    · refine ⟨.error .assertion, [], fun σ w => ?_⟩
      rw [M.bind_error (e := .assertion) (w' := w) (by rw [M.assert_apply, decide_eq_false h0]; rfl)]; simp
    have hrest : ∀ nl : List Int, ∃ v, ∀ (σ : Type) (w : World σ),
        (do M.assert (nl.all (fun x => decide (0 < x)))
            M.assert (nl.getLast? = some 1)
            pure { logl := rows.map (·.logl), nlive := nl, theta := rows.map (·.theta),
                   labels := allSome (rows.map (·.label)), tmm := some tmm } : M σ (Run K)) w = (v, w) := by
      intro nl
      by_cases h1 : nl.all (fun x => decide (0 < x)) = true
      swap
      · exact ⟨.error .assertion, fun σ w => M.bind_error (by rw [M.assert_apply, if_neg h1])⟩
      by_cases h2 : nl.getLast? = some 1
      swap
      · refine ⟨.error .assertion, fun σ w => ?_⟩
        rw [M.bind_ok (a := ()) (w' := w) (by rw [M.assert_apply, if_pos h1])]
        exact M.bind_error (by rw [M.assert_apply]; simp [h2])
      refine ⟨.ok (runOfRows rows nl tmm), fun σ w => ?_⟩
      rw [M.bind_ok (a := ()) (w' := w) (by rw [M.assert_apply, if_pos h1]),
        M.bind_ok (a := ()) (w' := w) (by rw [M.assert_apply]; simp [h2])]
      rfl
    by_cases hd : 1 < tmm.countP (fun p => decide (p.1 = (m : WithBot K)))
    · obtain ⟨v, hv⟩ := hrest (List.replicate ((rows.map (·.logl)).countP (fun x => decide (x = m)))
          (tmm.countP (fun p => decide (p.1 ≤ (m : WithBot K))) : Int) ++
        (((tmm.countP (fun p => decide (p.1 ≤ (m : WithBot K))) : Int) ::
          cumsumFrom (tmm.countP (fun p => decide (p.1 ≤ (m : WithBot K))) : Int) (rows.map (·.dn)).dropLast).map
            (· + (1 - ((tmm.countP (fun p => decide (p.1 ≤ (m : WithBot K))) : Int) ::
          cumsumFrom (tmm.countP (fun p => decide (p.1 ≤ (m : WithBot K))) : Int)
            (rows.map (·.dn)).dropLast).getLast?.getD 0))).drop
          ((rows.map (·.logl)).countP (fun x => decide (x = m))))
      refine ⟨v, [.dupStart], fun σ w => ?_⟩
      rw [M.bind_ok (a := ()) (w' := w) (by rw [M.assert_apply, decide_eq_true h0]; rfl), if_pos hd]
      exact hv σ ⟨w.rng, w.warns ++ [.dupStart]⟩
    · obtain ⟨v, hv⟩ := hrest ((tmm.countP (fun p => decide (p.1 ≤ (m : WithBot K))) : Int) ::
          cumsumFrom (tmm.countP (fun p => decide (p.1 ≤ (m : WithBot K))) : Int) (rows.map (·.dn)).dropLast)
      refine ⟨v, [], fun σ w => ?_⟩
      rw [M.bind_ok (a := ()) (w' := w) (by rw [M.assert_apply, decide_eq_true h0]; rfl), if_neg hd]
      simpa using hv σ w

/-- Adding to a `thread_labels` array. -/
def Heap.add (h : Heap) (a n : Nat) : Heap :=
  { h with arr := fun b => if b = a then (h.arr b).map (· + (n : Int)) else h.arr b }

theorem addLabels_some (n a : Nat) (w : World Heap) :
    addLabels n (some a) w = (.ok (), ⟨w.rng.add a n, w.warns⟩) := rfl

theorem read_add {h : Heap} {a n : Nat} {r : RunObj K} (hr : r.labels ≠ some a) :
    r.read (h.add a n) = r.read h := by
  unfold RunObj.read
  cases hl : r.labels with
  | none => rfl
  | some b =>
    have : b ≠ a := fun hb => hr (by rw [hl, hb])
    simp [Heap.add, this]

/-- A checked run has labels. -/
theorem labels_of_check {A : Argsort K} {da dw : Bool} {h : Heap} {r : RunObj K} {w w' : World σ}
    (hc : checkRun A (r.read h) da dw w = (.ok (), w')) :
    ∃ a tmm, r.labels = some a ∧ r.tmm = some tmm ∧ tmm ≠ [] ∧
      ∀ k : Int, k ∈ h.arr a ↔ 0 ≤ k ∧ k < tmm.length := by
  obtain ⟨⟨labels, tmm, hv⟩, -⟩ := (checkRun_ok_iff A (r.read h) da dw w).mp (by rw [hc])
  have h1 := hv.labels_eq
  have h2 := hv.tmm_eq
  obtain ⟨p, hp, -⟩ := hv.init
  unfold RunObj.read at h1 h2
  simp only [Option.map_eq_some_iff] at h1 h2
  obtain ⟨a, ha, rfl⟩ := h1
  exact ⟨a, tmm, ha, h2, List.ne_nil_of_mem hp, hv.labels_range⟩

/-- Without shared arrays the loop does what `relabelLoop` does on the values. -/
theorem relabelObjs_sim (A : Argsort K) (da dw : Bool) (rs : List (RunObj K))
    (hp : rs.Pairwise (fun r r' => ∀ a, r.labels = some a → r'.labels ≠ some a)) (n : Nat) (h : Heap)
    (ws : List Warn) (s : σ) :
    (∃ e h' ws', relabelLoop A da dw n (rs.map (RunObj.read h)) ⟨s, ws⟩ = (.error e, ⟨s, ws'⟩) ∧
      relabelObjs A da dw n rs ⟨h, ws⟩ = (.error e, ⟨h', ws'⟩)) ∨
    (∃ h' ws', relabelLoop A da dw n (rs.map (RunObj.read h)) ⟨s, ws⟩ =
        (.ok (rs.map (RunObj.read h')), ⟨s, ws'⟩) ∧
      relabelObjs A da dw n rs ⟨h, ws⟩ = (.ok (), ⟨h', ws'⟩) ∧
      ∀ a, (∀ r ∈ rs, r.labels ≠ some a) → h'.arr a = h.arr a) := by
  induction rs generalizing n h ws with
  | nil => right; exact ⟨h, ws, rfl, rfl, fun _ _ => rfl⟩
  | cons r rs ih =>
    rw [List.pairwise_cons] at hp
    obtain ⟨v, ws1, hu⟩ := checkRun_uniform A (r.read h) da dw
    rw [List.map_cons, relabelLoop, relabelObjs, M.bind_ok (M.getState_apply _)]
    cases v with
    | error e =>
      left
      exact ⟨e, h, ws ++ ws1, M.bind_error (hu σ ⟨s, ws⟩), M.bind_error (hu Heap ⟨h, ws⟩)⟩
    | ok u =>
      obtain ⟨a, tmm, ha, ht, -, -⟩ := labels_of_check (hu Heap ⟨h, ws⟩)
      rw [M.bind_ok (hu σ ⟨s, ws⟩), M.bind_ok (hu Heap ⟨h, ws⟩), ha, M.bind_ok (addLabels_some n a _)]
      have hsame : rs.map (RunObj.read (h.add a n)) = rs.map (RunObj.read h) := by
        apply List.map_congr_left
        intro x hx
        exact read_add (hp.1 x hx a ha)
      have htm : ((r.read h).tmm.getD []).length = (r.tmm.getD []).length := rfl
      simp only [htm]
      rcases ih hp.2 (n + (r.tmm.getD []).length) (h.add a n) (ws ++ ws1) with
        ⟨e, h', ws', e1, e2⟩ | ⟨h', ws', e1, e2, e3⟩
      · left
        rw [hsame] at e1
        exact ⟨e, h', ws', M.bind_error e1, e2⟩
      · right
        rw [hsame] at e1
        refine ⟨h', ws', ?_, e2, ?_⟩
        · rw [M.bind_ok e1]
          show (Except.ok _, _) = _
          rw [List.map_cons]
          congr 3
          have hra : h'.arr a = (h.arr a).map (· + (n : Int)) := by
            rw [e3 a (fun x hx => hp.1 x hx a ha)]; simp [Heap.add]
          simp [RunObj.read, ha, hra]
        · intro b hb
          rw [e3 b (fun x hx => hb x (by simp [hx]))]
          have : b ≠ a := fun hba => hb r (by simp) (by rw [ha, hba])
          simp [Heap.add, this]

/-- The list after `deepcopy` and the memory then. -/
def copied (h : Heap) (runs : List (RunObj K)) : List (RunObj K) :=
  runs.map (fun r => { r with labels := r.labels.map (· + h.next) })

def Heap.copy (h : Heap) : Heap :=
  { next := 2 * h.next,
    arr := fun b => if h.next ≤ b ∧ b < 2 * h.next then h.arr (b - h.next) else h.arr b }

theorem deepcopy_apply (runs : List (RunObj K)) (w : World Heap) :
    deepcopyRuns runs w = (.ok (copied w.rng runs), ⟨w.rng.copy, w.warns⟩) := rfl

theorem read_copied {h : Heap} {runs : List (RunObj K)} (ha : Allocated h runs) :
    (copied h runs).map (RunObj.read h.copy) = runs.map (RunObj.read h) := by
  unfold copied
  rw [List.map_map]
  apply List.map_congr_left
  intro r hr
  cases hl : r.labels with
  | none => simp [RunObj.read, hl]
  | some a =>
    have := ha r hr a hl
    have h2 : h.copy.arr (a + h.next) = h.arr a := by
      unfold Heap.copy
      simp only
      rw [if_pos (by omega), Nat.add_sub_cancel]
    simp [RunObj.read, hl, h2]

theorem copied_unshared {h : Heap} {runs : List (RunObj K)}
    (hp : runs.Pairwise (fun r r' => ∀ a, r.labels = some a → r'.labels ≠ some a)) :
    (copied h runs).Pairwise (fun r r' => ∀ a, r.labels = some a → r'.labels ≠ some a) := by
  unfold copied
  rw [List.pairwise_map]
  refine hp.imp ?_
  intro r r' hr a h1 h2
  simp only [Option.map_eq_some_iff] at h1 h2
  obtain ⟨b, hb, rfl⟩ := h1
  obtain ⟨c, hc, hbc⟩ := h2
  have : c = b := by omega
  subst this
  exact hr c hb hc

/-- C74: as long as no two of the given runs share their `thread_labels` array, the result
(value or exception) and the warnings are those of `combineRuns` on the values of the runs. -/
theorem C74_values (A : Argsort K) (da dw : Bool) {runs : List (RunObj K)} {h : Heap} (ha : Allocated h runs)
    (hu : Unshared runs) (ws : List Warn) (s : σ) :
    (combineObjs A runs da dw ⟨h, ws⟩).1 = (combineRuns A (runs.map (RunObj.read h)) da dw ⟨s, ws⟩).1 ∧
    (combineObjs A runs da dw ⟨h, ws⟩).2.warns =
      (combineRuns A (runs.map (RunObj.read h)) da dw ⟨s, ws⟩).2.warns := by
  have hp := copied_unshared (h := h) (unshared_iff.mp hu)
  have hread := read_copied ha
  suffices hst : ∃ v h' ws', stackObjs A runs da dw ⟨h, ws⟩ = (v, ⟨h', ws'⟩) ∧
      stackRuns A (runs.map (RunObj.read h)) da dw ⟨s, ws⟩ = (v, ⟨s, ws'⟩) by
    obtain ⟨v, h', ws', e1, e2⟩ := hst
    unfold combineObjs combineRuns
    cases v with
    | error e => rw [M.bind_error e1, M.bind_error e2]; exact ⟨rfl, rfl⟩
    | ok c =>
      rw [M.bind_ok e1, M.bind_ok e2]
      obtain ⟨v, ws1, hc⟩ := checkRun_uniform A c da dw
      cases v with
      | error e => rw [M.bind_error (hc _ _), M.bind_error (hc _ _)]; exact ⟨rfl, rfl⟩
      | ok u => rw [M.bind_ok (hc _ _), M.bind_ok (hc _ _)]; exact ⟨rfl, rfl⟩
  unfold stackObjs
  rw [M.bind_ok (deepcopy_apply runs _)]
  simp only
  rw [← hread]
  generalize copied h runs = cs at hp
  have hgen : ∃ v h' ws', (do
        relabelObjs A da dw 0 cs
        let h ← M.getState
        let tmm ← M.lift (tmmStack (cs.map (RunObj.read h)))
        let arrs ← M.lift (arraysGivenRuns (cs.map (RunObj.read h)))
        let rows ← M.lift (vstack arrs)
        dictGivenRunArray (sortBy A (·.logl) rows) tmm : M Heap (Run K)) ⟨h.copy, ws⟩ = (v, ⟨h', ws'⟩) ∧
      (do
        let runs ← relabelLoop A da dw 0 (cs.map (RunObj.read h.copy))
        let tmm ← M.lift (tmmStack runs)
        let arrs ← M.lift (arraysGivenRuns runs)
        let rows ← M.lift (vstack arrs)
        dictGivenRunArray (sortBy A (·.logl) rows) tmm : M σ (Run K)) ⟨s, ws⟩ = (v, ⟨s, ws'⟩) := by
    rcases relabelObjs_sim A da dw cs hp 0 h.copy ws s with ⟨e, h', ws', e1, e2⟩ | ⟨h', ws', e1, e2, -⟩
    · exact ⟨.error e, h', ws', M.bind_error e2, M.bind_error e1⟩
    · rw [M.bind_ok e2, M.bind_ok e1, M.bind_ok (M.getState_apply _)]
      simp only
      cases h1 : tmmStack (cs.map (RunObj.read h')) with
      | error e => exact ⟨.error e, h', ws', M.bind_error rfl, M.bind_error rfl⟩
      | ok tmm =>
      rw [M.bind_ok (M.lift_apply (Except.ok tmm) _), M.bind_ok (M.lift_apply (Except.ok tmm) _)]
      cases h2 : arraysGivenRuns (cs.map (RunObj.read h')) with
      | error e => exact ⟨.error e, h', ws', M.bind_error rfl, M.bind_error rfl⟩
      | ok arrs =>
      rw [M.bind_ok (M.lift_apply (Except.ok arrs) _), M.bind_ok (M.lift_apply (Except.ok arrs) _)]
      cases h3 : vstack arrs with
      | error e => exact ⟨.error e, h', ws', M.bind_error rfl, M.bind_error rfl⟩
      | ok rows =>
      rw [M.bind_ok (M.lift_apply (Except.ok rows) _), M.bind_ok (M.lift_apply (Except.ok rows) _)]
      obtain ⟨v, ws1, hd⟩ := dict_uniform (sortBy A (·.logl) rows) tmm
      exact ⟨v, h', ws' ++ ws1, hd Heap _, hd σ _⟩
  match cs, hgen with
  | [], hgen => exact hgen
  | [r], _ => exact ⟨.ok (r.read h.copy), h.copy, ws, rfl, rfl⟩
  | r :: r' :: rs, hgen => exact hgen

/-- The loop writes only to the arrays of the runs it is given. -/
theorem relabelObjs_frame (A : Argsort K) (da dw : Bool) (rs : List (RunObj K)) (n : Nat) (w : World Heap)
    {a : Nat} (ha : ∀ r ∈ rs, r.labels ≠ some a) :
    (relabelObjs A da dw n rs w).2.rng.arr a = w.rng.arr a := by
  induction rs generalizing n w with
  | nil => rfl
  | cons r rs ih =>
    obtain ⟨v, ws1, hu⟩ := checkRun_uniform A (r.read w.rng) da dw
    rw [relabelObjs, M.bind_ok (M.getState_apply _)]
    cases v with
    | error e => rw [M.bind_error (hu Heap w)]
    | ok u =>
      obtain ⟨b, tmm, hb, -⟩ := labels_of_check (hu Heap w)
      rw [M.bind_ok (hu Heap w), hb, M.bind_ok (addLabels_some n b _),
        ih _ _ (fun x hx => ha x (by simp [hx]))]
      have : a ≠ b := fun hab => ha r (by simp) (by rw [hb, hab])
      simp [Heap.add, this]

theorem lift_rng {α : Type} (x : Py α) (w : World σ) : ((M.lift x : M σ α) w).2 = w := rfl

/-- A computation which leaves an array alone. -/
def Keeps {α : Type} (a : Nat) (x : M Heap α) : Prop := ∀ w, (x w).2.rng.arr a = w.rng.arr a

theorem Keeps.bind {α β : Type} {a : Nat} {x : M Heap α} {f : α → M Heap β} (hx : Keeps a x)
    (hf : ∀ v, Keeps a (f v)) : Keeps a (x >>= f) := by
  intro w
  rw [M.bind_apply]
  have := hx w
  rcases h : x w with ⟨v | v, w1⟩
  · rw [h] at this; exact this
  · rw [h] at this; simp only; rw [hf v w1]; exact this

theorem Keeps.check (a : Nat) (A : Argsort K) (r : Run K) (da dw : Bool) : Keeps a (checkRun A r da dw) := by
  intro w
  rw [(checkRun_world A r da dw w).1]

/-- C74: the arrays which exist when `combine_ns_runs` is called, those of the given runs
among them, are never changed: neither if it returns nor if it raises. -/
theorem C74_inputs_kept (A : Argsort K) (da dw : Bool) (runs : List (RunObj K)) (w : World Heap) {a : Nat}
    (ha : a < w.rng.next) : (combineObjs A runs da dw w).2.rng.arr a = w.rng.arr a := by
  have hcopy : w.rng.copy.arr a = w.rng.arr a := by
    unfold Heap.copy; simp only; rw [if_neg (by omega)]
  have hno : ∀ r ∈ copied w.rng runs, r.labels ≠ some a := by
    intro r hr
    unfold copied at hr
    rw [List.mem_map] at hr
    obtain ⟨r0, -, rfl⟩ := hr
    intro h
    simp only [Option.map_eq_some_iff] at h
    obtain ⟨b, -, hb⟩ := h
    omega
  have hk : ∀ cs : List (RunObj K), (∀ r ∈ cs, r.labels ≠ some a) → Keeps a (do
      relabelObjs A da dw 0 cs
      let h ← M.getState
      let tmm ← M.lift (tmmStack (cs.map (RunObj.read h)))
      let arrs ← M.lift (arraysGivenRuns (cs.map (RunObj.read h)))
      let rows ← M.lift (vstack arrs)
      dictGivenRunArray (sortBy A (·.logl) rows) tmm : M Heap (Run K)) := by
    intro cs hcs
    refine Keeps.bind (fun w => relabelObjs_frame A da dw cs 0 w hcs) (fun _ => ?_)
    refine Keeps.bind (fun _ => rfl) (fun h => ?_)
    refine Keeps.bind (fun _ => rfl) (fun tmm => ?_)
    refine Keeps.bind (fun _ => rfl) (fun arrs => ?_)
    refine Keeps.bind (fun _ => rfl) (fun rows => ?_)
    intro w
    obtain ⟨v, ws1, hd⟩ := dict_uniform (sortBy A (·.logl) rows) tmm
    rw [hd]
  have hst : (stackObjs A runs da dw w).2.rng.arr a = w.rng.arr a := by
    unfold stackObjs
    rw [M.bind_ok (deepcopy_apply runs w), ← hcopy]
    generalize copied w.rng runs = cs at hno
    match cs, hk cs hno with
    | [], hk => exact hk ⟨w.rng.copy, w.warns⟩
    | [r], _ => rfl
    | r :: r' :: rs, hk => exact hk ⟨w.rng.copy, w.warns⟩
  unfold combineObjs
  rw [M.bind_apply]
  rcases h : stackObjs A runs da dw w with ⟨v | v, w1⟩
  · rw [h] at hst; exact hst
  · rw [h] at hst
    simp only
    rw [Keeps.bind (Keeps.check a A v da dw) (fun _ _ => rfl) w1]
    exact hst

/-- Labels only grow in the loop, and the number of labels of an array stays. -/
theorem relabelObjs_grows {A : Argsort K} {da dw : Bool} {rs : List (RunObj K)} {n : Nat} {w w' : World Heap}
    (h : relabelObjs A da dw n rs w = (.ok (), w')) (a : Nat) :
    (w'.rng.arr a).length = (w.rng.arr a).length ∧
    ((∀ k ∈ w.rng.arr a, 1 ≤ k) → ∀ k ∈ w'.rng.arr a, 1 ≤ k) := by
  induction rs generalizing n w with
  | nil =>
    rw [show w' = w from (congrArg Prod.snd h).symm]
    exact ⟨rfl, id⟩
  | cons r rs ih =>
    obtain ⟨v, ws1, hu⟩ := checkRun_uniform A (r.read w.rng) da dw
    rw [relabelObjs, M.bind_ok (M.getState_apply _)] at h
    cases v with
    | error e => rw [M.bind_error (hu Heap w)] at h; simp at h
    | ok u =>
      obtain ⟨b, tmm, hb, -⟩ := labels_of_check (hu Heap w)
      rw [M.bind_ok (hu Heap w), hb, M.bind_ok (addLabels_some n b _)] at h
      obtain ⟨h1, h2⟩ := ih h
      simp only [Heap.add] at h1 h2
      by_cases hab : a = b
      · rw [if_pos hab] at h1 h2
        refine ⟨by rw [h1, List.length_map], fun hk => h2 ?_⟩
        intro k hk'
        rw [List.mem_map] at hk'
        obtain ⟨j, hj, rfl⟩ := hk'
        have := hk j hj
        omega
      · rw [if_neg hab] at h1 h2
        exact ⟨h1, h2⟩

/-- A run whose labels start above zero does not pass the loop. -/
theorem relabelObjs_zero {A : Argsort K} {da dw : Bool} {rs : List (RunObj K)} {n : Nat} {w w' : World Heap}
    (h : relabelObjs A da dw n rs w = (.ok (), w')) {a : Nat} (ha : ∀ k ∈ w.rng.arr a, 1 ≤ k) :
    ∀ r ∈ rs, r.labels ≠ some a := by
  induction rs generalizing n w with
  | nil => simp
  | cons r rs ih =>
    obtain ⟨v, ws1, hu⟩ := checkRun_uniform A (r.read w.rng) da dw
    rw [relabelObjs, M.bind_ok (M.getState_apply _)] at h
    cases v with
    | error e => rw [M.bind_error (hu Heap w)] at h; simp at h
    | ok u =>
      obtain ⟨b, tmm, hb, -, ht, hk⟩ := labels_of_check (hu Heap w)
      rw [M.bind_ok (hu Heap w), hb, M.bind_ok (addLabels_some n b _)] at h
      intro x hx hxa
      rcases List.mem_cons.mp hx with rfl | hx
      · rw [hb, Option.some.injEq] at hxa
        subst hxa
        have := ha 0 ((hk 0).mpr ⟨le_rfl, by have := List.length_pos_iff.mpr ht; omega⟩)
        omega
      · refine ih h ?_ x hx hxa
        simp only [Heap.add]
        split_ifs
        · intro k hk'
          rw [List.mem_map] at hk'
          obtain ⟨j, hj, rfl⟩ := hk'
          have := ha j hj
          omega
        · exact ha

/-- After the loop, started with a positive count, no label of its runs is zero; and no two of
the runs share labels. -/
theorem relabelObjs_pos {A : Argsort K} {da dw : Bool} {rs : List (RunObj K)} {n : Nat} {w w' : World Heap}
    (h : relabelObjs A da dw n rs w = (.ok (), w')) (hn : 0 < n) :
    (∀ r ∈ rs, ∀ a, r.labels = some a → ∀ k ∈ w'.rng.arr a, 1 ≤ k) ∧
    rs.Pairwise (fun r r' => ∀ a, r.labels = some a → r'.labels ≠ some a) := by
  induction rs generalizing n w with
  | nil => simp
  | cons r rs ih =>
    obtain ⟨v, ws1, hu⟩ := checkRun_uniform A (r.read w.rng) da dw
    rw [relabelObjs, M.bind_ok (M.getState_apply _)] at h
    cases v with
    | error e => rw [M.bind_error (hu Heap w)] at h; simp at h
    | ok u =>
      obtain ⟨b, tmm, hb, -, ht, hk⟩ := labels_of_check (hu Heap w)
      rw [M.bind_ok (hu Heap w), hb, M.bind_ok (addLabels_some n b _)] at h
      obtain ⟨h1, h2⟩ := ih h (by omega)
      have hpos : ∀ k ∈ (w.rng.add b n).arr b, 1 ≤ k := by
        intro k hk'
        simp only [Heap.add, if_true] at hk'
        rw [List.mem_map] at hk'
        obtain ⟨j, hj, rfl⟩ := hk'
        have := (hk j).mp hj
        omega
      refine ⟨?_, ?_⟩
      · intro x hx a hxa
        rcases List.mem_cons.mp hx with rfl | hx
        · rw [hb, Option.some.injEq] at hxa
          subst hxa
          exact (relabelObjs_grows h b).2 hpos
        · exact h1 x hx a hxa
      · rw [List.pairwise_cons]
        refine ⟨?_, h2⟩
        intro x hx a hra
        rw [hb, Option.some.injEq] at hra
        subst hra
        exact relabelObjs_zero h hpos x hx

/-- The lowest label is kept by the array of samples. -/
theorem arraysGivenRuns_forall₂ {rs : List (Run K)} {arrs : List (List (Row K))}
    (h : arraysGivenRuns rs = .ok arrs) : List.Forall₂ (fun r a => arrayGivenRun r = .ok a) rs arrs := by
  induction rs generalizing arrs with
  | nil => cases h; exact .nil
  | cons r rs ih =>
    rw [arraysGivenRuns] at h
    cases h1 : arrayGivenRun r with
    | error e => rw [h1] at h; cases h
    | ok a =>
      rw [h1] at h
      cases h2 : arraysGivenRuns rs with
      | error e => rw [h2] at h; cases h
      | ok as => rw [h2] at h; cases h; exact .cons h1 (ih h2)

theorem dict_ok_labels {rows : List (Row K)} {tmm : List (WithBot K × K)} {w w' : World σ} {c : Run K}
    (h : dictGivenRunArray rows tmm w = (.ok c, w')) : c.labels = allSome (rows.map (·.label)) := by
  unfold dictGivenRunArray at h
  cases hm : amin (rows.map (·.logl)) with
  | none => rw [hm] at h; simp at h
  | some m =>
    rw [hm] at h
    simp only at h
    obtain ⟨u1, w1, -, h1⟩ := M.bind_eq_ok.mp h
    obtain ⟨nl, w2, -, h2⟩ := M.bind_eq_ok.mp h1
    obtain ⟨u3, w3, -, h3⟩ := M.bind_eq_ok.mp h2
    obtain ⟨u4, w4, -, h4⟩ := M.bind_eq_ok.mp h3
    cases h4
    rfl

theorem dict_error {rows : List (Row K)} {tmm : List (WithBot K × K)} {w w' : World σ} {e : PyErr}
    (hne : rows ≠ []) (h : dictGivenRunArray rows tmm w = (.error e, w')) : e = .assertion := by
  unfold dictGivenRunArray at h
  cases hm : amin (rows.map (·.logl)) with
  | none =>
    cases rows with
    | nil => exact absurd rfl hne
    | cons x xs =>
      exfalso
      rw [List.map_cons] at hm
      unfold amin at hm
      simp at hm
  | some m =>
    rw [hm] at h
    simp only at h
    have hass : ∀ {b : Bool} {w w' : World σ}, (M.assert b : M σ Unit) w = (.error e, w') → e = .assertion := by
      intro b w w' h
      rw [M.assert_apply] at h
      cases b <;> simp at h; exact h.1.symm
    rcases M.bind_eq_error.mp h with h | ⟨u1, w1, -, h⟩
    · exact hass h
    rcases M.bind_eq_error.mp h with h | ⟨nl, w2, -, h⟩
    · split_ifs at h
      · rcases M.bind_eq_error.mp h with h | ⟨_, _, _, h⟩ <;> simp at h
      · simp at h
    rcases M.bind_eq_error.mp h with h | ⟨u3, w3, -, h⟩
    · exact hass h
    rcases M.bind_eq_error.mp h with h | ⟨u4, w4, -, h⟩
    · exact hass h
    simp at h

/-- The memory after a successful loop over all runs. -/
theorem relabelObjs_all {A : Argsort K} {da dw : Bool} {r : RunObj K} {rs : List (RunObj K)}
    {w w' : World Heap} (h : relabelObjs A da dw 0 (r :: rs) w = (.ok (), w'))
    (hs : ¬ (r :: rs).Pairwise (fun r r' => ∀ a, r.labels = some a → r'.labels ≠ some a)) :
    ∀ x ∈ r :: rs, ∃ a, x.labels = some a ∧ ∀ k ∈ w'.rng.arr a, 1 ≤ k := by
  obtain ⟨v, ws1, hu⟩ := checkRun_uniform A (r.read w.rng) da dw
  rw [relabelObjs, M.bind_ok (M.getState_apply _)] at h
  cases v with
  | error e => rw [M.bind_error (hu Heap w)] at h; simp at h
  | ok u =>
    obtain ⟨b, tmm, hb, htm, ht, hk⟩ := labels_of_check (hu Heap w)
    rw [M.bind_ok (hu Heap w), hb, M.bind_ok (addLabels_some 0 b _)] at h
    obtain ⟨h1, h2⟩ := relabelObjs_pos h (by rw [htm]; have := List.length_pos_iff.mpr ht; simpa using this)
    have h3 : ∃ x ∈ rs, x.labels = some b := by
      by_contra hc
      push Not at hc
      refine hs (List.pairwise_cons.mpr ⟨fun x hx a hra => ?_, h2⟩)
      rw [hb, Option.some.injEq] at hra
      rw [← hra]
      exact hc x hx
    have h4 : ∀ x ∈ rs, ∃ a, x.labels = some a := by
      have : ∀ (n : Nat) (w w' : World Heap) (rs : List (RunObj K)), relabelObjs A da dw n rs w = (.ok (), w') →
          ∀ x ∈ rs, ∃ a, x.labels = some a := by
        intro n w w' rs h
        induction rs generalizing n w with
        | nil => simp
        | cons r rs ih =>
          obtain ⟨v, ws1, hu⟩ := checkRun_uniform A (r.read w.rng) da dw
          rw [relabelObjs, M.bind_ok (M.getState_apply _)] at h
          cases v with
          | error e => rw [M.bind_error (hu Heap w)] at h; simp at h
          | ok u =>
            obtain ⟨b, tmm, hb, -⟩ := labels_of_check (hu Heap w)
            rw [M.bind_ok (hu Heap w), hb, M.bind_ok (addLabels_some n b _)] at h
            intro x hx
            rcases List.mem_cons.mp hx with rfl | hx
            · exact ⟨b, hb⟩
            · exact ih _ _ h x hx
      exact this _ _ _ _ h
    intro x hx
    rcases List.mem_cons.mp hx with rfl | hx
    · obtain ⟨y, hy, hyb⟩ := h3
      exact ⟨b, hb, h1 y hy b hyb⟩
    · obtain ⟨a, ha⟩ := h4 x hx
      exact ⟨a, ha, h1 x hx a ha⟩

theorem copied_shared {h : Heap} {runs : List (RunObj K)} (hs : ¬ Unshared runs) :
    (∃ r r' rs, copied h runs = r :: r' :: rs) ∧
    ¬ (copied h runs).Pairwise (fun r r' => ∀ a, r.labels = some a → r'.labels ≠ some a) := by
  constructor
  · match runs, hs with
    | [], hs => exact absurd (unshared_iff.mpr .nil) hs
    | [r], hs => exact absurd (unshared_iff.mpr (by simp)) hs
    | r :: r' :: rs, _ => exact ⟨_, _, _, rfl⟩
  · intro hp
    refine hs (unshared_iff.mpr ?_)
    unfold copied at hp
    rw [List.pairwise_map] at hp
    refine hp.imp ?_
    intro r r' hr a h1 h2
    exact hr (a + h.next) (by simp [h1]) (by simp [h2])

/-- C74, what fails: if two places of the list share a `thread_labels` array (for instance
because the same run dictionary is given twice), `combine_ns_runs` does not return,
whatever the runs and the options of the check are. -/
theorem C74_shared_fails (A : Argsort K) (da dw : Bool) {runs : List (RunObj K)} (hs : ¬ Unshared runs)
    (w : World Heap) : ∃ e, (combineObjs A runs da dw w).1 = .error e := by
  rcases hc : combineObjs A runs da dw w with ⟨e | c, w'⟩
  · exact ⟨e, rfl⟩
  exfalso
  obtain ⟨⟨r, r', rs, hcs⟩, hp⟩ := copied_shared (h := w.rng) hs
  unfold combineObjs at hc
  obtain ⟨c', w1, h1, hc⟩ := M.bind_eq_ok.mp hc
  obtain ⟨u, w2, h2, hc⟩ := M.bind_eq_ok.mp hc
  cases hc
  unfold stackObjs at h1
  rw [M.bind_ok (deepcopy_apply runs w), hcs] at h1
  rw [hcs] at hp
  simp only at h1
  obtain ⟨u3, w3, g3, h1⟩ := M.bind_eq_ok.mp h1
  obtain ⟨h4, w4, g4, h1⟩ := M.bind_eq_ok.mp h1
  cases g4
  obtain ⟨tmm, w5, g5, h1⟩ := M.bind_eq_ok.mp h1
  obtain ⟨arrs, w6, g6, h1⟩ := M.bind_eq_ok.mp h1
  obtain ⟨rows, w7, g7, h1⟩ := M.bind_eq_ok.mp h1
  have g6' : arraysGivenRuns ((r :: r' :: rs).map (RunObj.read w3.rng)) = .ok arrs := congrArg Prod.fst g6
  have g7' : vstack arrs = .ok rows := congrArg Prod.fst g7
  have hrows : rows = arrs.flatten := by
    unfold vstack at g7'
    cases arrs with
    | nil => simp at g7'
    | cons a as =>
      simp only at g7'
      split_ifs at g7'
      simpa using g7'.symm
  have hall := relabelObjs_all g3 hp
  have hlab : ∀ x ∈ rows, ∀ k : Int, x.label = some k → 1 ≤ k := by
    rw [hrows]
    intro x hx k hk
    obtain ⟨arr, harr, hxa⟩ := List.mem_flatten.mp hx
    have hf := arraysGivenRuns_forall₂ g6'
    obtain ⟨i, hi⟩ := List.mem_iff_getElem?.mp harr
    have hil : i < ((r :: r' :: rs).map (RunObj.read w3.rng)).length := by
      rw [hf.length_eq]; exact (List.getElem?_eq_some_iff.mp hi).1
    have hia := (List.getElem?_eq_some_iff.mp hi)
    have hgi := List.Forall₂.get hf hil hia.1
    rw [List.get_eq_getElem, List.get_eq_getElem, hia.2] at hgi
    obtain ⟨o, ho, hoe⟩ := List.mem_map.mp (List.getElem_mem hil)
    rw [← hoe] at hgi
    obtain ⟨a, hoa, hpos⟩ := hall o ho
    rcases arrayGivenRun_cases (o.read w3.rng) with ⟨e, he⟩ | ⟨-, -, -, -, rows', hr1, -, hr2, -⟩
    · rw [he] at hgi; cases hgi
    · rw [hr1] at hgi
      cases hgi
      have hl : labelColumn (o.read w3.rng) = (w3.rng.arr a).map some := by
        simp [labelColumn, RunObj.read, hoa]
      rw [hl] at hr2
      have : some k ∈ (w3.rng.arr a).map some := by
        rw [← hr2, ← hk]; exact List.mem_map_of_mem hxa
      rw [List.mem_map] at this
      obtain ⟨j, hj, hjk⟩ := this
      cases hjk
      exact hpos _ hj
  have hlc := dict_ok_labels h1
  obtain ⟨⟨labels, tm, hv⟩, -⟩ := (checkRun_ok_iff A c da dw w1).mp (by rw [h2])
  obtain ⟨p, hpm, -⟩ := hv.init
  have h0 : (0 : Int) ∈ labels :=
    (hv.labels_range 0).mpr ⟨le_rfl, by have := List.length_pos_of_mem hpm; omega⟩
  rw [hv.labels_eq] at hlc
  have h5 := allSome_eq_some.mp hlc.symm
  have h6 : some (0 : Int) ∈ (sortBy A (fun x : Row K => x.logl) rows).map (·.label) := by
    rw [h5]; exact List.mem_map_of_mem h0
  rw [List.mem_map] at h6
  obtain ⟨x, hx, hx0⟩ := h6
  have := hlab x ((sortBy_perm A _ rows).mem_iff.mp hx) 0 hx0
  omega

theorem relabelObjs_error {A : Argsort K} {da dw : Bool} {rs : List (RunObj K)} {n : Nat} {w w' : World Heap}
    {e : PyErr} (h : relabelObjs A da dw n rs w = (.error e, w')) : e = .assertion := by
  induction rs generalizing n w with
  | nil => cases h
  | cons r rs ih =>
    obtain ⟨v, ws1, hu⟩ := checkRun_uniform A (r.read w.rng) da dw
    rw [relabelObjs, M.bind_ok (M.getState_apply _)] at h
    cases v with
    | error e' =>
      rw [M.bind_error (hu Heap w)] at h
      cases h
      exact checkRun_error A _ da dw w (by rw [hu Heap w])
    | ok u =>
      obtain ⟨b, tmm, hb, -⟩ := labels_of_check (hu Heap w)
      rw [M.bind_ok (hu Heap w), hb, M.bind_ok (addLabels_some n b _)] at h
      exact ih h

/-- C74: for runs of the documented format with parameter vectors of one dimension, the only
exception is AssertionError, so two runs sharing an array give that one. -/
theorem C74_shared_assertion (A : Argsort K) (da dw : Bool) {runs : List (RunObj K)} {w : World Heap}
    (ha : Allocated w.rng runs) (hv : ∀ r ∈ runs, Valid (r.read w.rng)) (hd : SameDim (runs.flatMap (·.theta)))
    (hs : ¬ Unshared runs) : (combineObjs A runs da dw w).1 = .error .assertion := by
  obtain ⟨e, he⟩ := C74_shared_fails A da dw hs w
  rw [he]
  congr 1
  obtain ⟨⟨r, r', rs, hcs⟩, -⟩ := copied_shared (h := w.rng) hs
  have hread := read_copied ha
  rcases hc : combineObjs A runs da dw w with ⟨e' | c, w'⟩
  swap
  · rw [hc] at he; cases he
  rw [hc] at he
  cases he
  unfold combineObjs at hc
  rcases M.bind_eq_error.mp hc with h1 | ⟨c, w1, -, h1⟩
  swap
  · rcases M.bind_eq_error.mp h1 with h1 | ⟨u, w2, -, h1⟩
    · exact checkRun_error A _ da dw w1 (by rw [h1])
    · simp at h1
  unfold stackObjs at h1
  rw [M.bind_ok (deepcopy_apply runs w), hcs] at h1
  simp only at h1
  rw [hcs] at hread
  rcases M.bind_eq_error.mp h1 with h1 | ⟨u, w2, g2, h1⟩
  · exact relabelObjs_error h1
  rw [M.bind_ok (M.getState_apply _)] at h1
  set cs := r :: r' :: rs with hcsdef
  have hvc : ∀ x ∈ cs, Valid (x.read w.rng.copy) := by
    intro x hx
    have : x.read w.rng.copy ∈ cs.map (RunObj.read w.rng.copy) := List.mem_map_of_mem hx
    rw [hread, List.mem_map] at this
    obtain ⟨y, hy, e⟩ := this
    rw [← e]; exact hv y hy
  have hthetas : cs.flatMap (·.theta) = runs.flatMap (·.theta) := by
    rw [← hcs]; unfold copied; rw [List.flatMap_map]
  have harr : ∀ x ∈ cs, ∃ tm a, x.tmm = some tm ∧ arrayGivenRun (x.read w2.rng) = .ok a ∧ a ≠ [] ∧
      a.map (·.theta) = x.theta := by
    intro x hx
    obtain ⟨labels, tm, hx⟩ := hvc x hx
    have hx1 := hx.labels_eq
    unfold RunObj.read at hx1
    simp only [Option.map_eq_some_iff] at hx1
    obtain ⟨b, hb, hbl⟩ := hx1
    have hne := Valid.logl_ne ⟨labels, tm, hx⟩
    obtain ⟨rows, q1, q2, -, -, q5⟩ := arrayGivenRun_ok (r := x.read w2.rng) (labels := w2.rng.arr b)
      (by simp [RunObj.read, hb]) (by
        have := (relabelObjs_grows g2 b).1
        rw [this, hbl]; exact hx.labels_len) hx.nlive_len hx.theta_len hne
    refine ⟨tm, rows, hx.tmm_eq, q1, ?_, q5⟩
    rintro rfl
    exact hne q2.symm
  have hex : ∀ l : List (RunObj K), (∀ x ∈ l, ∃ tm a, x.tmm = some tm ∧ arrayGivenRun (x.read w2.rng) = .ok a ∧
      a ≠ [] ∧ a.map (·.theta) = x.theta) →
      ∃ tms arrs, List.Forall₂ (fun t tm => t.tmm = some tm) (l.map (RunObj.read w2.rng)) tms ∧
        List.Forall₂ (fun t a => arrayGivenRun t = .ok a) (l.map (RunObj.read w2.rng)) arrs ∧
        (∀ a ∈ arrs, a ≠ []) ∧ arrs.flatten.map (·.theta) = l.flatMap (·.theta) := by
    intro l
    induction l with
    | nil => intro _; exact ⟨[], [], .nil, .nil, by simp, rfl⟩
    | cons x xs ih =>
      intro hl
      obtain ⟨tms, arrs, q1, q2, q3, q4⟩ := ih (fun y hy => hl y (by simp [hy]))
      obtain ⟨tm, a, p1, p2, p3, p4⟩ := hl x (by simp)
      refine ⟨tm :: tms, a :: arrs, .cons p1 q1, .cons p2 q2, ?_, by simp [p4, q4]⟩
      intro b hb
      rcases List.mem_cons.mp hb with rfl | hb
      · exact p3
      · exact q3 b hb
  obtain ⟨tms, arrs, q1, q2, q3, q4⟩ := hex cs harr
  have hane : arrs ≠ [] := by
    rintro rfl
    have := q2.length_eq
    simp [hcsdef] at this
  rw [tmmStack_ok (by simp [hcsdef]) q1, M.bind_ok (M.lift_apply _ _), arraysGivenRuns_ok q2,
    M.bind_ok (M.lift_apply _ _), vstack_ok hane (by rw [q4, hthetas]; exact hd),
    M.bind_ok (M.lift_apply _ _)] at h1
  refine dict_error ?_ h1
  intro h0
  have hperm := sortBy_perm A (fun x : Row K => x.logl) arrs.flatten
  rw [h0] at hperm
  have := hperm.symm.eq_nil
  cases arrs with
  | nil => exact hane rfl
  | cons a as =>
    rw [List.flatten_cons, List.append_eq_nil_iff] at this
    exact q3 a (by simp) this.1

end

section examples

/-- Two runs in memory and their labels. -/
def exHeap : Heap := { next := 2, arr := fun a => if a = 0 then [0, 1, 0, 2, 1, 2] else [0, 1, 1] }
def exDynamicObj : RunObj ℤ :=
  { logl := exDynamic.logl, nlive := exDynamic.nlive, theta := exDynamic.theta, labels := some 0,
    tmm := exDynamic.tmm }
def exOtherObj : RunObj ℤ :=
  { logl := exOther.logl, nlive := exOther.nlive, theta := exOther.theta, labels := some 1, tmm := exOther.tmm }

example : [exDynamicObj, exOtherObj].map (RunObj.read exHeap) = [exDynamic, exOther] := by rfl

theorem exAllocated : Allocated exHeap [exDynamicObj, exOtherObj] := by
  intro r hr a ha
  fin_cases hr <;> cases ha <;> decide

theorem exUnshared : Unshared [exDynamicObj, exOtherObj] := by
  rw [unshared_iff]; simp [exDynamicObj, exOtherObj]

/-- C74: two different runs are combined as their values are. -/
example : (combineObjs (stableSort ℤ) [exDynamicObj, exOtherObj] true false ⟨exHeap, []⟩).1 =
    .ok { logl := [1, 3, 5, 6, 7, 8, 9, 12, 20], nlive := [4, 3, 3, 4, 4, 3, 3, 2, 1],
          theta := [[7], [2], [1], [8], [3], [4], [5], [6], [9]],
          labels := some [3, 0, 1, 4, 0, 2, 1, 2, 4],
          tmm := some [(⊥, 7), (⊥, 9), ((5 : ℤ), 12), (⊥, 1), (⊥, 20)] } := by rfl

/-- The same run twice, and what is proved about it. -/
theorem exShared : ¬ Unshared [exOtherObj, exOtherObj] := by
  rw [unshared_iff]; simp [exOtherObj]

example : (combineObjs (stableSort ℤ) [exOtherObj, exOtherObj] false false ⟨exHeap, []⟩).1 =
    .error .assertion := by
  refine C74_shared_assertion _ _ _ ?_ ?_ ?_ exShared
  · intro r hr a ha
    fin_cases hr <;> cases ha <;> decide
  · intro r hr
    have : r = exOtherObj := by simpa using hr
    rw [this]
    exact exCombinable.valid exOther (by simp)
  · unfold SameDim; decide

/-- The values of the same run twice as two separate objects are combined with duplicate
loglikelihoods allowed, so it is the sharing which makes the call above fail. -/
example : (combineObjs (stableSort ℤ) [exOtherObj, { exOtherObj with labels := some 0 }] false false
    ⟨{ exHeap with arr := fun _ => [0, 1, 1] }, []⟩).1 =
    .ok { logl := [1, 1, 6, 6, 20, 20], nlive := [4, 3, 2, 2, 2, 1],
          theta := [[7], [7], [8], [8], [9], [9]], labels := some [0, 2, 1, 3, 1, 3],
          tmm := some [(⊥, 1), (⊥, 20), (⊥, 1), (⊥, 20)] } := by rfl

end examples
end Nestcheck
