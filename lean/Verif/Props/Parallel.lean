import Mathlib.Data.List.Sort
import Verif.Model.Parallel
import Verif.Spec.Run
import Verif.Proofs.Basic
import Verif.Props.Stats
import Verif.Props.ErrorAnalysis

/-
C46: parallel_apply and parallel_map; C13: batch_process_data; C65: its report.
-/

namespace Nestcheck
open Spec
variable {σ α β : Type}

/-! ### C46 -/

theorem taskResults_getElem? (f : α → M σ β) (worlds : Nat → World σ) (xs : List α) (k i : Nat) :
    (taskResults f worlds k xs)[i]? = (xs[i]?).map (fun x => (f x (worlds (k + i))).1) := by
  induction xs generalizing k i with
  | nil => simp [taskResults]
  | cons x xs ih =>
    cases i with
    | zero => simp [taskResults]
    | succ i => simp only [taskResults, List.getElem?_cons_succ, ih]; rw [Nat.add_right_comm, Nat.add_assoc]

theorem taskResults_length (f : α → M σ β) (worlds : Nat → World σ) (xs : List α) (k : Nat) :
    (taskResults f worlds k xs).length = xs.length := by
  induction xs generalizing k with
  | nil => rfl
  | cons x xs ih => simp [taskResults, ih]

theorem collect_ok {rs : List (Py β)} {ys : List β} (h : rs = ys.map .ok) {is : List Nat}
    (hi : ∀ i ∈ is, i < ys.length) : collect rs is = .ok (is.filterMap (fun i => ys[i]?)) := by
  induction is with
  | nil => rfl
  | cons i is ih =>
    have hil := hi i (by simp)
    have hr : rs[i]? = some (.ok ys[i]) := by rw [h, List.getElem?_map, List.getElem?_eq_getElem hil]; rfl
    simp only [collect, hr, ih (fun j hj => hi j (by simp [hj]))]
    rw [List.filterMap_cons, List.getElem?_eq_getElem hil]

theorem collect_error {rs : List (Py β)} {is : List Nat} (hi : ∀ i ∈ is, i < rs.length)
    {i : Nat} (him : i ∈ is) {e : PyErr} (he : rs[i]? = some (.error e)) :
    ∃ (pre post : List Nat) (j : Nat) (e' : PyErr), is = pre ++ j :: post ∧
      (∀ l ∈ pre, ∃ y, rs[l]? = some (.ok y)) ∧ rs[j]? = some (.error e') ∧ collect rs is = .error e' := by
  induction is with
  | nil => simp at him
  | cons k is ih =>
    have hk := hi k (by simp)
    cases hr : rs[k] with
    | error e' =>
      have : rs[k]? = some (.error e') := by rw [List.getElem?_eq_getElem hk, hr]
      exact ⟨[], is, k, e', rfl, by simp, this, by simp only [collect, this]⟩
    | ok y =>
      have hk' : rs[k]? = some (.ok y) := by rw [List.getElem?_eq_getElem hk, hr]
      have him' : i ∈ is := by
        rcases List.mem_cons.mp him with rfl | h
        · rw [hk'] at he; cases he
        · exact h
      obtain ⟨pre, post, j, e', h1, h2, h3, h4⟩ := ih (fun j hj => hi j (by simp [hj])) him'
      refine ⟨k :: pre, post, j, e', by rw [h1]; rfl, ?_, h3, by simp only [collect, hk', h4]⟩
      intro l hl
      rcases List.mem_cons.mp hl with rfl | hl
      · exact ⟨y, hk'⟩
      · exact h2 l hl

theorem filterMap_range (ys : List β) : (List.range ys.length).filterMap (fun i => ys[i]?) = ys := by
  induction ys using List.reverseRecOn with
  | nil => rfl
  | append_singleton ys y ih =>
    rw [List.length_append, List.length_singleton, List.range_succ, List.filterMap_append]
    congr 1
    · conv_rhs => rw [← ih]
      apply List.filterMap_congr
      intro i hi
      rw [List.getElem?_append_left (List.mem_range.mp hi)]
    · simp

/-- The values that the tasks return, if they all do. -/
def Spec.AllReturn (f : α → M σ β) (xs : List α) (worlds : Nat → World σ) (ys : List β) : Prop :=
  ys.length = xs.length ∧ ∀ (i : Nat) (x : α) (y : β), xs[i]? = some x → ys[i]? = some y →
    (f x (worlds i)).1 = .ok y

theorem allReturn_eq {f : α → M σ β} {xs : List α} {worlds : Nat → World σ} {ys : List β}
    (h : AllReturn f xs worlds ys) : taskResults f worlds 0 xs = ys.map .ok := by
  apply List.ext_getElem?
  intro i
  rw [taskResults_getElem?, List.getElem?_map]
  by_cases hi : i < xs.length
  · have hy : i < ys.length := by rw [h.1]; exact hi
    rw [List.getElem?_eq_getElem hi, List.getElem?_eq_getElem hy, Option.map_some, Option.map_some, Nat.zero_add,
      h.2 i _ _ (List.getElem?_eq_getElem hi) (List.getElem?_eq_getElem hy)]
  · rw [List.getElem?_eq_none (by omega), List.getElem?_eq_none (by rw [h.1]; omega)]
    rfl

/-- C46, `parallel_apply`: for every execution by the workers in which all tasks return, the
result has exactly their values, in the order of completion; the caller's state is not
touched. -/
theorem C46_apply (f : α → M σ β) (xs : List α) (warn : Bool) (S : Schedule σ xs.length) {ys : List β}
    (h : AllReturn f xs S.worlds ys) (w : World σ) :
    ∃ zs : List β, parallelApply f xs true warn S w = (.ok zs, w) ∧ zs.Perm ys ∧
      ∀ k : Nat, zs[k]? = (S.order[k]?).bind (fun i => ys[i]?) := by
  have hlt : ∀ i ∈ S.order, i < ys.length := by
    intro i hi
    rw [h.1]
    exact List.mem_range.mp (S.complete.mem_iff.mp hi)
  refine ⟨S.order.filterMap (fun i => ys[i]?), ?_, ?_, ?_⟩
  · unfold parallelApply
    rw [if_pos rfl, M.lift_apply, collect_ok (allReturn_eq h) hlt]
  · have := S.complete.filterMap (fun i => ys[i]?)
    have e : (List.range xs.length).filterMap (fun i => ys[i]?) = ys := by rw [← h.1]; exact filterMap_range ys
    rwa [e] at this
  · intro k
    have : ∀ is : List Nat, (∀ i ∈ is, i < ys.length) → ∀ k : Nat,
        (is.filterMap (fun i => ys[i]?))[k]? = (is[k]?).bind (fun i => ys[i]?) := by
      intro is
      induction is with
      | nil => simp
      | cons i is ih =>
        intro hi k
        rw [List.filterMap_cons, List.getElem?_eq_getElem (hi i (by simp))]
        cases k with
        | zero => simp [List.getElem?_eq_getElem (hi i (by simp))]
        | succ k => simpa using ih (fun j hj => hi j (by simp [hj])) k
    exact this _ hlt k

/-- C46, `parallel_apply`, errors: if a task fails, then the error of the failing task which is
completed first is raised. -/
theorem C46_apply_error (f : α → M σ β) (xs : List α) (warn : Bool) (S : Schedule σ xs.length)
    {i : Nat} {x : α} {e : PyErr} (hx : xs[i]? = some x) (he : (f x (S.worlds i)).1 = .error e) (w : World σ) :
    ∃ (pre post : List Nat) (j : Nat) (y : α) (e' : PyErr), S.order = pre ++ j :: post ∧
      (∀ l ∈ pre, ∀ z, xs[l]? = some z → ∃ v, (f z (S.worlds l)).1 = .ok v) ∧
      xs[j]? = some y ∧ (f y (S.worlds j)).1 = .error e' ∧
      parallelApply f xs true warn S w = (.error e', w) := by
  have hlt : ∀ i ∈ S.order, i < (taskResults f S.worlds 0 xs).length := by
    intro i hi
    rw [taskResults_length]
    exact List.mem_range.mp (S.complete.mem_iff.mp hi)
  have hi : i ∈ S.order := S.complete.mem_iff.mpr (List.mem_range.mpr (List.getElem?_eq_some_iff.mp hx).1)
  obtain ⟨pre, post, j, e', h1, h2, h3, h4⟩ := collect_error hlt hi (e := e) (by
    rw [taskResults_getElem?, hx, Option.map_some, Nat.zero_add, he])
  rw [taskResults_getElem?, Option.map_eq_some_iff] at h3
  obtain ⟨y, hy, h3⟩ := h3
  rw [Nat.zero_add] at h3
  refine ⟨pre, post, j, y, e', h1, ?_, hy, h3, ?_⟩
  · intro l hl z hz
    obtain ⟨v, hv⟩ := h2 l hl
    rw [taskResults_getElem?, hz, Option.map_some, Nat.zero_add, Option.some.injEq] at hv
    exact ⟨v, hv⟩
  · unfold parallelApply
    rw [if_pos rfl, M.lift_apply, h4]

/-- A function whose result does not depend on the global state, and which leaves it as it
is. -/
def Spec.Pointwise (f : α → M σ β) (v : α → Py β) : Prop := ∀ (x : α) (w : World σ), f x w = (v x, w)

theorem mapSeq_pointwise {f : α → M σ β} {v : α → Py β} (h : Pointwise f v) (xs : List α) (w : World σ) :
    mapSeq f xs w = (xs.mapM v, w) := by
  induction xs with
  | nil => rfl
  | cons x xs ih =>
    rw [mapSeq, List.mapM_cons]
    cases hv : v x with
    | error e => rw [M.bind_error (by rw [h, hv])]; rfl
    | ok y =>
      rw [M.bind_ok (by rw [h, hv])]
      cases hm : xs.mapM v with
      | error e => rw [M.bind_error (by rw [ih, hm])]; rfl
      | ok ys => rw [M.bind_ok (by rw [ih, hm])]; rfl

/-- The warning that code is not run in parallel. -/
def Spec.warned (warn : Bool) (w : World σ) : World σ :=
  if warn then { w with warns := w.warns ++ [.notParallel] } else w

theorem parallelWarning_ok (warn : Bool) (w : World σ) : parallelWarning warn w = (.ok (), warned warn w) := by
  cases warn <;> rfl

/-- C46, without parallelisation: both functions are the list comprehension, after a warning
unless it is turned off. -/
theorem C46_sequential (f : α → M σ β) (xs : List α) (warn : Bool) (S : Schedule σ xs.length) (k : Nat)
    (worlds : Nat → World σ) (w : World σ) :
    parallelApply f xs false warn S w = mapSeq f xs (warned warn w) ∧
    parallelMap f xs k false warn worlds w = mapSeq f xs (warned warn w) := by
  constructor
  · unfold parallelApply
    rw [if_neg (by simp), M.bind_ok (parallelWarning_ok warn w)]
  · unfold parallelMap
    rw [if_neg (by simp), M.bind_ok (parallelWarning_ok warn w)]

theorem mapM_ok_getElem {v : α → Py β} {xs : List α} {ys : List β} (h : xs.mapM v = .ok ys) :
    ys.length = xs.length ∧ ∀ (i : Nat) (x : α) (y : β), xs[i]? = some x → ys[i]? = some y → v x = .ok y := by
  induction xs generalizing ys with
  | nil => rw [List.mapM_nil] at h; cases h; simp
  | cons x xs ih =>
    rw [List.mapM_cons] at h
    cases hv : v x with
    | error e => rw [hv] at h; cases h
    | ok y =>
      rw [hv] at h
      cases hm : xs.mapM v with
      | error e => rw [hm] at h; cases h
      | ok zs =>
        rw [hm] at h
        cases h
        obtain ⟨h1, h2⟩ := ih hm
        refine ⟨by simp [h1], ?_⟩
        intro i a b ha hb
        cases i with
        | zero => simp at ha hb; rw [← ha, ← hb, hv]
        | succ i => exact h2 i a b (by simpa using ha) (by simpa using hb)

/-- C46, schedules do not matter: if the result of the function does not depend on the global
state and the list comprehension returns, then whatever the workers do `parallel_apply` returns
the same values in some order. -/
theorem C46_schedule {f : α → M σ β} {v : α → Py β} (hf : Pointwise f v) (xs : List α) (warn : Bool)
    {ys : List β} (h : xs.mapM v = .ok ys) (S : Schedule σ xs.length) (w : World σ) :
    ∃ zs, parallelApply f xs true warn S w = (.ok zs, w) ∧ zs.Perm ys := by
  obtain ⟨h1, h2⟩ := mapM_ok_getElem h
  obtain ⟨zs, a, b, -⟩ := C46_apply f xs warn S (ys := ys)
    ⟨h1, fun i x y hx hy => by rw [hf, h2 i x y hx hy]⟩ w
  exact ⟨zs, a, b⟩

theorem mapM_append_py (v : α → Py β) (xs ys : List α) :
    (xs ++ ys).mapM v = match xs.mapM v with
      | .error e => .error e
      | .ok a => match ys.mapM v with
        | .error e => .error e
        | .ok b => .ok (a ++ b) := by
  rw [List.mapM_append]
  cases xs.mapM v with
  | error e => rfl
  | ok a =>
    cases ys.mapM v with
    | error e => rfl
    | ok b => rfl

theorem joinResults_chunks {f : α → M σ β} {v : α → Py β} (hf : Pointwise f v) (worlds : Nat → World σ) {k : Nat}
    (hk : 0 < k) (fuel i : Nat) (xs : List α) (h : xs.length ≤ fuel) :
    joinResults (taskResults (mapSeq f) worlds i (chunks k fuel xs)) = xs.mapM v := by
  induction fuel generalizing i xs with
  | zero =>
    have : xs = [] := List.length_eq_zero_iff.mp (by omega)
    subst this
    rfl
  | succ fuel ih =>
    rw [chunks]
    by_cases hx : xs = []
    · subst hx; rfl
    · have hpos : 0 < xs.length := List.length_pos_iff.mpr hx
      rw [if_neg hx, taskResults, mapSeq_pointwise hf]
      conv_rhs => rw [← List.take_append_drop k xs, mapM_append_py]
      have := ih (i + 1) (xs.drop k) (by rw [List.length_drop]; omega)
      cases (xs.take k).mapM v with
      | error e => rfl
      | ok a =>
        simp only [joinResults, this]
        cases (xs.drop k).mapM v <;> rfl

/-- C46, `parallel_map`: for every chunksize and every execution by the workers the result is
that of the list comprehension, in order, and so is the error if there is one. -/
theorem C46_map {f : α → M σ β} {v : α → Py β} (hf : Pointwise f v) (xs : List α) (warn : Bool) {k : Nat}
    (hk : 0 < k) (worlds : Nat → World σ) (w : World σ) :
    parallelMap f xs k true warn worlds w = (xs.mapM v, w) := by
  unfold parallelMap
  rw [if_pos rfl, if_neg (by omega), M.lift_apply, joinResults_chunks hf worlds hk _ _ _ le_rfl]

/-- C46: `parallel_map` with `chunksize=0` raises `ValueError`, whatever the list (unless `parallel=False`, which ignores it). -/
theorem C46_chunksize (f : α → M σ β) (xs : List α) (warn : Bool) (worlds : Nat → World σ) (w : World σ) :
    parallelMap f xs 0 true warn worlds w = (.error .value, w) ∧
    parallelMap f xs 0 false warn worlds w = mapSeq f xs (warned warn w) := by
  refine ⟨rfl, ?_⟩
  unfold parallelMap
  rw [if_neg (by simp), M.bind_ok (parallelWarning_ok warn w)]

/-! ### C13 -/

theorem helper_result (f : String → M σ β) (handled : PyErr → Bool) (root : String) (w : World σ) :
    (processErrorHelper f handled root w).1 = match (f root w).1 with
      | .ok b => .ok (.done b)
      | .error e => if handled e then .ok (.failed root e) else .error e := by
  unfold processErrorHelper
  rcases hf : f root w with ⟨_ | _, w'⟩
  · rename_i e
    by_cases he : handled e = true
    · rw [M.tryExcept_handled (M.bind_error hf) he]; simp [he]
    · unfold M.tryExcept
      rw [M.bind_error hf]
      simp [he]
  · rename_i b
    rw [M.tryExcept_ok (a := .done b) (w' := w') (by rw [M.bind_ok hf]; rfl)]

/-- The outcome of processing a root as `process_error_helper` reports it. -/
def Spec.asItem (root : String) : Py β → Item β
  | .ok b => .done b
  | .error e => .failed root e

/-- The root an item says it belongs to. -/
def Spec.itemRoot (rootOf : β → Option String) : Item β → Option String
  | .done b => rootOf b
  | .failed root _ => some root

theorem findIdx?_nodup {roots : List String} (hn : roots.Nodup) {i : Nat} {root : String}
    (h : roots[i]? = some root) : roots.findIdx? (fun r => decide (r = root)) = some i := by
  obtain ⟨hi, hr⟩ := List.getElem?_eq_some_iff.mp h
  rw [List.findIdx?_eq_some_iff_getElem]
  refine ⟨hi, by simp [hr], ?_⟩
  intro j hj
  simp only [Bool.not_eq_true, decide_eq_false_iff_not]
  intro hc
  have := (List.Nodup.getElem_inj_iff hn (hi := by omega) (hj := hi)).mp (hc.trans hr.symm)
  omega

theorem keyed_ok {roots : List String} (hn : roots.Nodup) {rootOf : β → Option String} {items : List (Item β)}
    (ht : ∀ (i : Nat) (x : Item β), items[i]? = some x → ∃ root, roots[i]? = some root ∧ itemRoot rootOf x = some root)
    {is : List Nat} (hi : ∀ i ∈ is, i < items.length) :
    keyed roots rootOf (is.filterMap (fun i => items[i]?)) =
      .ok (is.filterMap (fun i => (items[i]?).map (fun x => (i, x)))) := by
  induction is with
  | nil => rfl
  | cons i is ih =>
    obtain ⟨x, hil⟩ : ∃ x, items[i]? = some x := ⟨_, List.getElem?_eq_getElem (hi i (by simp))⟩
    obtain ⟨root, h1, h2⟩ := ht i _ hil
    have hk : itemKey roots rootOf x = .ok i := by
      cases x <;> simp only [itemRoot] at h2 <;> simp only [itemKey, h2, findIdx?_nodup hn h1]
      cases h2
      simp only [findIdx?_nodup hn h1]
    rw [List.filterMap_cons, List.filterMap_cons, hil]
    simp only [keyed, hk, ih (fun j hj => hi j (by simp [hj])), Option.map_some]

theorem filterMap_range' (ys : List β) :
    (List.range ys.length).filterMap (fun i => (ys[i]?).map (fun x => (i, x))) = ys.zipIdx.map Prod.swap := by
  induction ys using List.reverseRecOn with
  | nil => rfl
  | append_singleton ys y ih =>
    rw [List.length_append, List.length_singleton, List.range_succ, List.filterMap_append, List.zipIdx_append,
      List.map_append]
    congr 1
    · rw [← ih]
      apply List.filterMap_congr
      intro i hi
      rw [List.getElem?_append_left (List.mem_range.mp hi)]
    · simp

theorem sortItems_of_perm {items : List (Item β)} {l : List (Nat × Item β)}
    (h : l.Perm (items.zipIdx.map Prod.swap)) : sortItems l = items := by
  unfold sortItems
  set m := l.insertionSort (fun a b => a.1 ≤ b.1) with hm
  have hperm : m.Perm (items.zipIdx.map Prod.swap) := (List.perm_insertionSort _ _).trans h
  have hsorted : m.Pairwise (fun a b => a.1 ≤ b.1) := by
    have : Std.Total (fun a b : Nat × Item β => a.1 ≤ b.1) := ⟨fun a b => Nat.le_total _ _⟩
    have : IsTrans (Nat × Item β) (fun a b => a.1 ≤ b.1) := ⟨fun a b c h1 h2 => Nat.le_trans h1 h2⟩
    exact List.pairwise_insertionSort _ _
  have hfst : m.map Prod.fst = List.range items.length := by
    apply List.Perm.eq_of_pairwise (le := (· ≤ ·)) (fun a b _ _ h1 h2 => Nat.le_antisymm h1 h2)
    · rw [List.pairwise_map]; exact hsorted
    · exact List.pairwise_le_range
    · refine (hperm.map Prod.fst).trans ?_
      rw [List.map_map]
      rw [show (Prod.fst ∘ Prod.swap : Item β × Nat → Nat) = Prod.snd from rfl, List.zipIdx_map_snd]
      rw [List.range_eq_range']
  apply List.ext_getElem?
  intro i
  rw [List.getElem?_map]
  cases hi : m[i]? with
  | none =>
    have hl : m.length ≤ i := List.getElem?_eq_none_iff.mp hi
    have h2 : m.length = items.length := by
      have := congrArg List.length hfst
      simpa using this
    rw [List.getElem?_eq_none (by omega)]
    rfl
  | some p =>
    have hk : (m.map Prod.fst)[i]? = some p.1 := by rw [List.getElem?_map, hi]; rfl
    rw [hfst, List.getElem?_eq_some_iff] at hk
    obtain ⟨hlt, hk⟩ := hk
    rw [List.getElem_range] at hk
    have hmem : p ∈ items.zipIdx.map Prod.swap := hperm.mem_iff.mp (List.mem_of_getElem? hi)
    rw [List.mem_map] at hmem
    obtain ⟨q, hq, rfl⟩ := hmem
    have := List.mem_zipIdx_iff_getElem?.mp hq
    rw [Option.map_some, hk]
    exact this.symm

theorem addError_spec {d : List (PyErr × List Nat)} (hd : (d.map Prod.fst).Nodup) (e : PyErr) (i : Nat) :
    ((addError e i d).map Prod.fst).Nodup ∧
    (∀ e', e' ∈ (addError e i d).map Prod.fst ↔ e' = e ∨ e' ∈ d.map Prod.fst) ∧
    (∀ e' is, (e', is) ∈ addError e i d ↔
      (e' ≠ e ∧ (e', is) ∈ d) ∨
      (e' = e ∧ ((∃ js, (e, js) ∈ d ∧ is = js ++ [i]) ∨ (e ∉ d.map Prod.fst ∧ is = [i])))) := by
  induction d with
  | nil => simp [addError]
  | cons p d ih =>
    obtain ⟨e₀, js⟩ := p
    rw [List.map_cons, List.nodup_cons] at hd
    obtain ⟨h1, h2, h3⟩ := ih hd.2
    by_cases he : e₀ = e
    · subst he
      have hno : ∀ js', (e₀, js') ∉ d := fun js' hm => hd.1 (List.mem_map.mpr ⟨_, hm, rfl⟩)
      simp only [addError, if_true]
      refine ⟨by rw [List.map_cons, List.nodup_cons]; exact hd, by simp, ?_⟩
      intro e' is
      by_cases hee : e' = e₀
      · subst hee
        simp [hno]
      · simp [hee]
    · simp only [addError, if_neg he]
      refine ⟨?_, ?_, ?_⟩
      · rw [List.map_cons, List.nodup_cons]
        refine ⟨?_, h1⟩
        rw [h2]
        rintro (h | h)
        · exact he h
        · exact hd.1 h
      · intro e'
        rw [List.map_cons, List.mem_cons, h2, List.map_cons, List.mem_cons]
        tauto
      · intro e' is
        rw [List.mem_cons, h3]
        have hne : e ≠ e₀ := fun h => he h.symm
        by_cases hee : e' = e
        · subst hee
          simp [hne]
        · simp [hee]

/-- What the printed report should say: for each type of error the positions at which it
occurred in increasing order, every type once. -/
def Spec.IsReport (outs : List (Py β)) (report : List (PyErr × List Nat)) : Prop :=
  (report.map Prod.fst).Nodup ∧
  (∀ (i : Nat) (e : PyErr), outs[i]? = some (.error e) → e ∈ report.map Prod.fst) ∧
  ∀ (e : PyErr) (is : List Nat), (e, is) ∈ report →
    is ≠ [] ∧ is.Pairwise (· < ·) ∧ ∀ i : Nat, i ∈ is ↔ outs[i]? = some (.error e)

theorem isReport_snoc_ok {outs : List (Py β)} {d : List (PyErr × List Nat)} (h : IsReport outs d) (b : β) :
    IsReport (outs ++ [.ok b]) d := by
  have key : ∀ (i : Nat) (e : PyErr), (outs ++ [.ok b])[i]? = some (.error e) ↔ outs[i]? = some (.error e) := by
    intro i e
    by_cases hi : i < outs.length
    · rw [List.getElem?_append_left hi]
    · rw [List.getElem?_append_right (by omega), List.getElem?_eq_none (l := outs) (by omega)]
      rcases Nat.eq_zero_or_pos (i - outs.length) with h0 | h0
      · simp [h0]
      · rw [List.getElem?_eq_none (by simp; omega)]
  refine ⟨h.1, fun i e hi => h.2.1 i e ((key i e).mp hi), fun e is he => ?_⟩
  obtain ⟨a, b', c⟩ := h.2.2 e is he
  exact ⟨a, b', fun i => (c i).trans (key i e).symm⟩

theorem isReport_snoc_error {outs : List (Py β)} {d : List (PyErr × List Nat)} (h : IsReport outs d) (e : PyErr) :
    IsReport (outs ++ [.error e]) (addError e outs.length d) := by
  obtain ⟨a1, a2, a3⟩ := addError_spec h.1 e outs.length
  have key : ∀ (i : Nat) (e' : PyErr), (outs ++ [.error e])[i]? = some (.error e') ↔
      outs[i]? = some (.error e') ∨ (i = outs.length ∧ e' = e) := by
    intro i e'
    by_cases hi : i < outs.length
    · rw [List.getElem?_append_left hi]
      constructor
      · exact Or.inl
      · rintro (h | h)
        · exact h
        · omega
    · rw [List.getElem?_append_right (by omega), List.getElem?_eq_none (l := outs) (by omega)]
      rcases Nat.eq_zero_or_pos (i - outs.length) with h0 | h0
      · have : i = outs.length := by omega
        subst this
        simp [eq_comm]
      · rw [List.getElem?_eq_none (by simp; omega)]
        simp
        omega
  refine ⟨a1, ?_, ?_⟩
  · intro i e' hi
    rw [a2]
    rcases (key i e').mp hi with h' | h'
    · exact Or.inr (h.2.1 i e' h')
    · exact Or.inl h'.2
  · intro e' is he
    rw [a3] at he
    rcases he with ⟨hne, he⟩ | ⟨rfl, ⟨js, hj, rfl⟩ | ⟨hno, rfl⟩⟩
    · obtain ⟨b1, b2, b3⟩ := h.2.2 e' is he
      refine ⟨b1, b2, fun i => ?_⟩
      rw [key, b3]
      tauto
    · obtain ⟨b1, b2, b3⟩ := h.2.2 e' js hj
      refine ⟨by simp, ?_, ?_⟩
      · rw [List.pairwise_append]
        refine ⟨b2, by simp, ?_⟩
        intro i hi j hj'
        rw [List.mem_singleton] at hj'
        subst hj'
        exact (List.getElem?_eq_some_iff.mp ((b3 i).mp hi)).1
      · intro i
        rw [key, List.mem_append, b3, List.mem_singleton]
        tauto
    · refine ⟨by simp, by simp, fun i => ?_⟩
      rw [key, List.mem_singleton]
      constructor
      · intro h'
        exact Or.inr ⟨h', rfl⟩
      · rintro (h' | h')
        · exact absurd (h.2.1 i e' h') hno
        · exact h'.1

theorem errorReport_spec (pairs : List (String × Py β)) (pre : List (Py β)) (d : List (PyErr × List Nat))
    (h : IsReport pre d) :
    IsReport (pre ++ pairs.map Prod.snd) (errorReport pre.length (pairs.map (fun p => asItem p.1 p.2)) d) := by
  induction pairs generalizing pre d with
  | nil => simpa [errorReport] using h
  | cons p pairs ih =>
    obtain ⟨root, o⟩ := p
    cases o with
    | ok b =>
      have := ih (pre ++ [.ok b]) d (isReport_snoc_ok h b)
      simpa [asItem, errorReport] using this
    | error e =>
      have := ih (pre ++ [.error e]) _ (isReport_snoc_error h e)
      simpa [asItem, errorReport] using this

theorem goodRuns_spec (pairs : List (String × Py β)) :
    goodRuns (pairs.map (fun p => asItem p.1 p.2)) = (pairs.map Prod.snd).filterMap Except.toOption := by
  induction pairs with
  | nil => rfl
  | cons p pairs ih =>
    obtain ⟨root, o⟩ := p
    cases o with
    | ok b =>
      simp only [List.map_cons, asItem, goodRuns, List.filterMap_cons, Except.toOption]
      exact congrArg _ ih
    | error e =>
      simp only [List.map_cons, asItem, goodRuns, List.filterMap_cons, Except.toOption]
      exact ih

/-- The outcomes of the processing of the roots, each in the state in which its worker
starts it. -/
def Spec.Outcomes (f : String → M σ β) (roots : List String) (worlds : Nat → World σ) (outs : List (Py β)) : Prop :=
  outs.length = roots.length ∧ ∀ (i : Nat) (root : String) (o : Py β), roots[i]? = some root → outs[i]? = some o →
    (f root (worlds i)).1 = o

theorem Spec.Outcomes.exists (f : String → M σ β) (roots : List String) (worlds : Nat → World σ) :
    ∃ outs, Outcomes f roots worlds outs := by
  refine ⟨taskResults f worlds 0 roots, taskResults_length _ _ _ _, ?_⟩
  intro i root o hr ho
  rw [taskResults_getElem?, hr, Option.map_some, Nat.zero_add, Option.some.injEq] at ho
  exact ho

/-- The processing function tags its runs with the file root. -/
def Spec.Tags (roots : List String) (rootOf : β → Option String) (outs : List (Py β)) : Prop :=
  ∀ (i : Nat) (root : String) (b : β), roots[i]? = some root → outs[i]? = some (.ok b) → rootOf b = some root

theorem sorted_items {roots : List String} (hn : roots.Nodup) {rootOf : β → Option String} {outs : List (Py β)}
    (hl : outs.length = roots.length) (ht : Tags roots rootOf outs) {order : List Nat}
    (ho : order.Perm (List.range roots.length)) :
    let items := (roots.zip outs).map (fun p => asItem p.1 p.2)
    ∃ ks, keyed roots rootOf (order.filterMap (fun i => items[i]?)) = .ok ks ∧ sortItems ks = items := by
  intro items
  have hil : items.length = roots.length := by simp [items, hl]
  have hk := keyed_ok (roots := roots) hn (rootOf := rootOf) (items := items) (by
    intro i x hx
    simp only [items, List.getElem?_map, Option.map_eq_some_iff] at hx
    obtain ⟨⟨root, o⟩, hz, rfl⟩ := hx
    rw [List.getElem?_zip_eq_some] at hz
    refine ⟨root, hz.1, ?_⟩
    cases o with
    | ok b => exact ht i root b hz.1 hz.2
    | error e => rfl) (is := order) (by
    intro i hi
    rw [hil]
    exact List.mem_range.mp (ho.mem_iff.mp hi))
  refine ⟨_, hk, sortItems_of_perm ?_⟩
  have := ho.filterMap (fun i => (items[i]?).map (fun x => (i, x)))
  rwa [show List.range roots.length = List.range items.length by rw [hil], filterMap_range'] at this

/-- C13 and C65: for every execution by the worker processes in which every error is among
errors_to_handle, `batch_process_data` returns the runs of the roots which were processed
without an error in the order of `file_roots`, and reports for each type of error the positions
in `file_roots` at which it occurred. -/
theorem C13 (f : String → M σ β) (rootOf : β → Option String) (handled : PyErr → Bool) {roots : List String}
    (hn : roots.Nodup) (warn : Bool) (S : Schedule σ roots.length) {outs : List (Py β)}
    (hf : Outcomes f roots S.worlds outs) (ht : Tags roots rootOf outs)
    (hh : ∀ (i : Nat) (e : PyErr), outs[i]? = some (.error e) → handled e = true) (w : World σ) :
    ∃ report : List (PyErr × List Nat),
      batchProcess f rootOf handled roots true warn S w = (.ok (report, outs.filterMap Except.toOption), w) ∧
      IsReport outs report := by
  have hall : AllReturn (processErrorHelper f handled) roots S.worlds
      ((roots.zip outs).map (fun p => asItem p.1 p.2)) := by
    refine ⟨by simp [hf.1], ?_⟩
    intro i root y hr hy
    rw [List.getElem?_map, Option.map_eq_some_iff] at hy
    obtain ⟨⟨root', o⟩, hz, rfl⟩ := hy
    rw [List.getElem?_zip_eq_some] at hz
    obtain ⟨hz1, hz2⟩ := hz
    rw [hr] at hz1
    rw [Option.some.injEq] at hz1
    subst hz1
    rw [helper_result, hf.2 i _ o hr hz2]
    cases o with
    | ok b => rfl
    | error e => simp only [hh i e hz2, if_true, asItem]
  have hpos : S.order.Perm (List.range roots.length) := S.complete
  obtain ⟨ks, hk, hs⟩ := sorted_items hn hf.1 ht hpos
  have hlt : ∀ i ∈ S.order, i < ((roots.zip outs).map (fun p => asItem p.1 p.2)).length := by
    intro i hi
    rw [hall.1]
    exact List.mem_range.mp (S.complete.mem_iff.mp hi)
  have hsnd : (roots.zip outs).map Prod.snd = outs := List.map_snd_zip (by rw [hf.1])
  refine ⟨errorReport 0 ((roots.zip outs).map (fun p => asItem p.1 p.2)) [], ?_, ?_⟩
  · unfold batchProcess
    rw [M.bind_ok (by
      unfold parallelApply
      rw [if_pos rfl, M.lift_apply, collect_ok (allReturn_eq hall) hlt]), M.bind_ok (by
      rw [M.lift_apply, hk]), M.pure_apply, hs, goodRuns_spec, hsnd]
  · have := errorReport_spec (roots.zip outs) [] [] ⟨by simp, by simp, by simp⟩
    rw [hsnd] at this
    exact this

/-- C13, other errors: an error that is not among errors_to_handle propagates (the first such
error in order of completion). -/
theorem C13_error (f : String → M σ β) (rootOf : β → Option String) (handled : PyErr → Bool) {roots : List String}
    (warn : Bool) (S : Schedule σ roots.length) {outs : List (Py β)}
    (hf : Outcomes f roots S.worlds outs) {i : Nat} {e : PyErr} (he : outs[i]? = some (.error e))
    (hh : handled e = false) (w : World σ) :
    ∃ (j : Nat) (e' : PyErr), outs[j]? = some (.error e') ∧ handled e' = false ∧
      batchProcess f rootOf handled roots true warn S w = (.error e', w) := by
  have hil : i < roots.length := by rw [← hf.1]; exact (List.getElem?_eq_some_iff.mp he).1
  have hr := List.getElem?_eq_getElem hil
  obtain ⟨-, -, j, root, e', -, -, h3, h4, h5⟩ := C46_apply_error (processErrorHelper f handled) roots warn S
    (e := e) hr (by rw [helper_result, hf.2 i _ _ hr he]; simp [hh]) w
  have hjl : j < outs.length := by rw [hf.1]; exact (List.getElem?_eq_some_iff.mp h3).1
  rw [helper_result, hf.2 j _ _ h3 (List.getElem?_eq_getElem hjl)] at h4
  refine ⟨j, e', ?_, ?_, ?_⟩
  · rw [List.getElem?_eq_getElem hjl]
    cases ho : outs[j] with
    | ok b => rw [ho] at h4; cases h4
    | error e'' =>
      rw [ho] at h4
      by_cases hx : handled e'' = true
      · simp [hx] at h4
      · simp [hx] at h4; rw [h4]
  · cases ho : outs[j] with
    | ok b => rw [ho] at h4; cases h4
    | error e'' =>
      rw [ho] at h4
      by_cases hx : handled e'' = true
      · simp [hx] at h4
      · simp [hx] at h4; rw [← h4]; simpa using hx
  · unfold batchProcess
    rw [M.bind_error h5]

theorem keyed_error {roots : List String} {rootOf : β → Option String} : ∀ {xs : List (Item β)},
    (∃ x ∈ xs, ∃ e, itemKey roots rootOf x = .error e) →
    ∃ e, keyed roots rootOf xs = .error e ∧ ∃ x ∈ xs, itemKey roots rootOf x = .error e
  | [], h => by simp at h
  | x :: xs, h => by
    rw [keyed]
    cases hx : itemKey roots rootOf x with
    | error e => exact ⟨e, rfl, x, by simp, hx⟩
    | ok k =>
      obtain ⟨y, hy, e, he⟩ := h
      have hy' : y ∈ xs := by
        rcases List.mem_cons.mp hy with rfl | hy
        · rw [hx] at he; cases he
        · exact hy
      obtain ⟨e', h1, z, h2, h3⟩ := keyed_error ⟨y, hy', e, he⟩
      exact ⟨e', by rw [h1], z, by simp [h2], h3⟩

/-- C13, runs without their file root: if the processing function returns a run in which `['output']['file_root']` is missing or is
not one of `file_roots`, no runs are returned: `KeyError`, or `ValueError` if a run has a root that is not in the list. -/
theorem C13_untagged (f : String → M σ β) (rootOf : β → Option String) (handled : PyErr → Bool) {roots : List String}
    (warn : Bool) (S : Schedule σ roots.length) {outs : List (Py β)} (hf : Outcomes f roots S.worlds outs)
    (hh : ∀ (i : Nat) (e : PyErr), outs[i]? = some (.error e) → handled e = true) {b : β} (hb : .ok b ∈ outs)
    (hr : ∀ root ∈ roots, rootOf b ≠ some root) (w : World σ) :
    ∃ e, batchProcess f rootOf handled roots true warn S w = (.error e, w) ∧
      ((e = .key ∧ ∃ b', .ok b' ∈ outs ∧ rootOf b' = none) ∨
        (e = .value ∧ ∃ b' root, .ok b' ∈ outs ∧ rootOf b' = some root ∧ root ∉ roots)) := by
  set items := (roots.zip outs).map (fun p => asItem p.1 p.2) with hitems
  have hall : AllReturn (processErrorHelper f handled) roots S.worlds items := by
    refine ⟨by simp [hitems, hf.1], ?_⟩
    intro i root y hr hy
    rw [hitems, List.getElem?_map, Option.map_eq_some_iff] at hy
    obtain ⟨⟨root', o⟩, hz, rfl⟩ := hy
    rw [List.getElem?_zip_eq_some] at hz
    obtain ⟨hz1, hz2⟩ := hz
    rw [hr, Option.some.injEq] at hz1
    subst hz1
    rw [helper_result, hf.2 i _ o hr hz2]
    cases o with
    | ok b => rfl
    | error e => simp only [hh i e hz2, if_true, asItem]
  obtain ⟨zs, h1, h2, -⟩ := C46_apply _ roots warn S hall w
  have hfind : ∀ root, root ∉ roots → roots.findIdx? (fun r => decide (r = root)) = none := by
    intro root hroot
    rw [List.findIdx?_eq_none_iff]
    intro x hx
    simp only [decide_eq_false_iff_not]
    rintro rfl
    exact hroot hx
  have hmem : Item.done b ∈ items := by
    obtain ⟨i, hi, hib⟩ := List.getElem_of_mem hb
    have hi' : i < roots.length := by rw [← hf.1]; exact hi
    refine List.mem_map.mpr ⟨(roots[i], .ok b), ?_, rfl⟩
    exact List.mem_iff_getElem?.mpr ⟨i, by
      rw [List.getElem?_zip_eq_some]
      exact ⟨List.getElem?_eq_getElem hi', by rw [List.getElem?_eq_getElem hi, hib]⟩⟩
  have hbad : ∃ x ∈ zs, ∃ e, itemKey roots rootOf x = .error e := by
    refine ⟨_, h2.mem_iff.mpr hmem, ?_⟩
    unfold itemKey
    dsimp only
    cases hrb : rootOf b with
    | none => exact ⟨_, rfl⟩
    | some root =>
      have : root ∉ roots := fun h => hr root h hrb
      dsimp only
      rw [hfind root this]
      exact ⟨_, rfl⟩
  obtain ⟨e, h3, x, h4, h5⟩ := keyed_error hbad
  refine ⟨e, ?_, ?_⟩
  · unfold batchProcess
    rw [M.bind_ok h1, M.bind_error (by rw [M.lift_apply, h3])]
  · have hx := h2.mem_iff.mp h4
    obtain ⟨⟨root', o⟩, hz, rfl⟩ := List.mem_map.mp hx
    obtain ⟨hz1, hz2⟩ := List.of_mem_zip hz
    cases o with
    | error e' =>
      exfalso
      obtain ⟨i, hi⟩ : ∃ i, roots.findIdx? (fun r => decide (r = root')) = some i := by
        cases hfi : roots.findIdx? (fun r => decide (r = root')) with
        | some i => exact ⟨i, rfl⟩
        | none =>
          rw [List.findIdx?_eq_none_iff] at hfi
          simpa using hfi root' hz1
      simp only [asItem, itemKey] at h5
      rw [hi] at h5
      cases h5
    | ok b' =>
      simp only [asItem, itemKey] at h5
      cases hrb : rootOf b' with
      | none =>
        rw [hrb] at h5
        cases h5
        exact Or.inl ⟨rfl, b', hz2, hrb⟩
      | some root =>
        rw [hrb] at h5
        dsimp only at h5
        cases hfi : roots.findIdx? (fun r => decide (r = root)) with
        | some i => rw [hfi] at h5; cases h5
        | none =>
          rw [hfi] at h5
          cases h5
          refine Or.inr ⟨rfl, b', root, hz2, hrb, fun hm => ?_⟩
          rw [List.findIdx?_eq_none_iff] at hfi
          simpa using hfi root hm

/-- Runs which carry no file root. -/
example : Outcomes (σ := Unit) (fun r => pure r) ["a", "b"] (fun _ => ⟨(), []⟩) [.ok "a", .ok "b"] ∧
    (∀ root ∈ ["a", "b"], (fun _ : String => (none : Option String)) "a" ≠ some root) := by
  refine ⟨⟨rfl, ?_⟩, by simp⟩
  intro i root o hr ho
  match i with
  | 0 => cases hr; cases ho; rfl
  | 1 => cases hr; cases ho; rfl
  | i + 2 => simp at hr

/-- C13, without parallelisation: if the processing does not depend on the global state, the
result is the same as with any execution by workers, after a warning unless it is turned off. -/
theorem C13_sequential {f : String → M σ β} {v : String → Py β} (hf : Pointwise f v) (rootOf : β → Option String)
    (handled : PyErr → Bool) {roots : List String} (hn : roots.Nodup) (warn : Bool)
    (S : Schedule σ roots.length) (ht : ∀ root b, v root = .ok b → rootOf b = some root)
    (hh : ∀ root ∈ roots, ∀ e, v root = .error e → handled e = true) (w : World σ) :
    batchProcess f rootOf handled roots false warn S w =
      ((batchProcess f rootOf handled roots true warn S w).1, warned warn w) := by
  have hf' : Outcomes f roots S.worlds (roots.map v) :=
    ⟨by simp, fun i root o hr ho => by
      rw [List.getElem?_map, hr, Option.map_some, Option.some.injEq] at ho
      rw [hf, ho]⟩
  have ht' : Tags roots rootOf (roots.map v) := by
    intro i root b hr hb
    rw [List.getElem?_map, hr, Option.map_some, Option.some.injEq] at hb
    exact ht root b hb
  have hp : Pointwise (processErrorHelper f handled) (fun root => match v root with
      | .ok b => .ok (.done b)
      | .error e => if handled e then .ok (.failed root e) else .error e) := by
    intro root w
    have h1 := helper_result f handled root w
    rw [hf] at h1
    have h2 : (processErrorHelper f handled root w).2 = w := by
      unfold processErrorHelper
      cases hv : v root with
      | ok b =>
        rw [M.tryExcept_ok (a := .done b) (w' := w) (by rw [M.bind_ok (by rw [hf, hv])]; rfl)]
      | error e =>
        by_cases he : handled e = true
        · rw [M.tryExcept_handled (M.bind_error (by rw [hf, hv])) he]; rfl
        · unfold M.tryExcept
          rw [M.bind_error (by rw [hf, hv])]
          simp [he]
    exact Prod.ext h1 h2
  have hm : ∀ rs : List String, (∀ root ∈ rs, ∀ e, v root = .error e → handled e = true) →
      rs.mapM (m := Py) (fun root => match v root with
        | .ok b => .ok (.done b)
        | .error e => if handled e then .ok (.failed root e) else .error e) =
      .ok (rs.map (fun root => asItem root (v root))) := by
    intro rs
    induction rs with
    | nil => intro _; rfl
    | cons r rs ih =>
      intro h
      rw [List.mapM_cons, ih (fun root hr => h root (by simp [hr]))]
      cases hv : v r with
      | ok b => simp [asItem, hv]; rfl
      | error e => simp [asItem, hv, h r (by simp) e hv]; rfl
  obtain ⟨report, hpar, -⟩ := C13 f rootOf handled hn warn S hf' ht' (by
    intro i e hi
    rw [List.getElem?_map, Option.map_eq_some_iff] at hi
    obtain ⟨root, hr, hv⟩ := hi
    exact hh root (List.mem_of_getElem? hr) e hv) w
  obtain ⟨ks, hk, hs⟩ := sorted_items hn (outs := roots.map v) (by simp) ht' (List.Perm.refl (List.range roots.length))
  have hz : (roots.zip (roots.map v)).map (fun p => asItem p.1 p.2) = roots.map (fun root => asItem root (v root)) := by
    rw [List.zip_map_right, List.map_map, List.zip_eq_zipWith, List.zipWith_self]
    simp
  obtain ⟨ks', hk', hs'⟩ := sorted_items hn (outs := roots.map v) (by simp) ht' S.complete
  rw [hz] at hk hs hk' hs'
  have hall : AllReturn (processErrorHelper f handled) roots S.worlds
      (roots.map (fun root => asItem root (v root))) := by
    refine ⟨by simp, ?_⟩
    intro i root y hr hy
    rw [List.getElem?_map, hr, Option.map_some, Option.some.injEq] at hy
    rw [hp]
    subst hy
    cases hv : v root with
    | ok b => simp [asItem, hv]
    | error e => simp [asItem, hv, hh root (List.mem_of_getElem? hr) e hv]
  have hlt : ∀ i ∈ S.order, i < (roots.map (fun root => asItem root (v root))).length := by
    intro i hi
    rw [hall.1]
    exact List.mem_range.mp (S.complete.mem_iff.mp hi)
  have hrange : (List.range roots.length).filterMap (fun i => (roots.map (fun root => asItem root (v root)))[i]?) =
      roots.map (fun root => asItem root (v root)) := by
    conv_lhs => rw [show roots.length = (roots.map (fun root => asItem root (v root))).length by simp]
    exact filterMap_range _
  rw [hrange] at hk
  unfold batchProcess
  rw [M.bind_ok (by rw [(C46_sequential _ roots warn S 1 S.worlds w).1, mapSeq_pointwise hp, hm roots hh]),
    M.bind_ok (by rw [M.lift_apply, hk]), M.pure_apply, hs]
  rw [M.bind_ok (by
      unfold parallelApply
      rw [if_pos rfl, M.lift_apply, collect_ok (allReturn_eq hall) hlt]), M.bind_ok (by
      rw [M.lift_apply, hk']), M.pure_apply, hs']

/-! ### Examples -/

/-- Three roots, the second of which cannot be read. -/
def exProcess (root : String) : M σ (String × Nat) :=
  if root = "b" then M.raise .os else pure (root, root.length)

/-- The tasks are completed in the order 2, 0, 1. -/
def exSchedule : Schedule Unit ["a", "b", "c"].length :=
  ⟨[2, 0, 1], by decide, fun _ => ⟨(), []⟩⟩

example : (batchProcess exProcess (fun r => some r.1) (fun e => e == .os) ["a", "b", "c"] true true exSchedule
    ⟨(), []⟩).1 = .ok ([(.os, [1])], [("a", 1), ("c", 1)]) := by decide

example : Outcomes exProcess ["a", "b", "c"] exSchedule.worlds [.ok ("a", 1), .error .os, .ok ("c", 1)] ∧
    Tags ["a", "b", "c"] (fun r : String × Nat => some r.1) [.ok ("a", 1), .error .os, .ok ("c", 1)] ∧
    ["a", "b", "c"].Nodup := by
  refine ⟨⟨rfl, ?_⟩, ?_, by decide⟩
  · intro i root o hr ho
    match i with
    | 0 => cases hr; cases ho; rfl
    | 1 => cases hr; cases ho; rfl
    | 2 => cases hr; cases ho; rfl
    | i + 3 => simp at hr
  · intro i root b hr hb
    match i with
    | 0 => cases hr; cases hb; rfl
    | 1 => cases hb
    | 2 => cases hr; cases hb; rfl
    | i + 3 => simp at hr

/-- The same root twice: both runs are kept, next to each other. -/
example : (batchProcess exProcess (fun r => some r.1) (fun e => e == .os) ["a", "c", "a"] true true exSchedule
    ⟨(), []⟩).1 = .ok ([], [("a", 1), ("a", 1), ("c", 1)]) := by decide

/-- An error which is not handled. -/
example : (batchProcess exProcess (fun r => some r.1) (fun _ => false) ["a", "b", "c"] true true exSchedule
    ⟨(), []⟩).1 = .error .os := by decide

example : (parallelApply (σ := Unit) (fun n : Nat => pure (n * n)) [1, 2, 3] true true exSchedule ⟨(), []⟩).1 =
    .ok [9, 1, 4] := by decide

example : (parallelMap (σ := Unit) (fun n : Nat => pure (n * n)) [1, 2, 3] 2 true true exSchedule.worlds ⟨(), []⟩).1 =
    .ok [1, 4, 9] := by decide

end Nestcheck
