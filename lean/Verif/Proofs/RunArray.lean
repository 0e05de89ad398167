import Verif.Proofs.CheckRun
import Mathlib.Tactic.Ring

/-! array_given_run and dict_given_run_array in closed form. -/

set_option linter.unusedSectionVars false

namespace Nestcheck
open Spec
variable {σ K : Type} [CommRing K] [LinearOrder K]

/-- The live counts which `dict_given_run_array` computes. -/
def liveFrom (n0 : Int) (dns : List Int) : List Int := n0 :: cumsumFrom n0 dns.dropLast

theorem length_liveFrom {n0 : Int} {dns : List Int} (h : dns ≠ []) :
    (liveFrom n0 dns).length = dns.length := by
  have : 0 < dns.length := List.length_pos_iff.mpr h
  simp [liveFrom, length_cumsumFrom]; omega

theorem getElem?_liveFrom {n0 : Int} {dns : List Int} {i : Nat} (h : i < dns.length) :
    (liveFrom n0 dns)[i]? = some (n0 + (dns.take i).sum) := by
  cases i with
  | zero => simp [liveFrom]
  | succ i =>
    rw [liveFrom, List.getElem?_cons_succ, getElem?_cumsumFrom _ _ _ (by simp; omega)]
    rw [List.dropLast_eq_take, List.take_take, Nat.min_eq_left (by omega)]

/-- The run made from rows with given live counts. -/
def runOfRows (rows : List (Row K)) (nl : List Int) (tmm : List (WithBot K × K)) : Run K :=
  { logl := rows.map (·.logl), nlive := nl, theta := rows.map (·.theta),
    labels := allSome (rows.map (·.label)), tmm := some tmm }

/-- `dict_given_run_array` when at most one thread starts on the lowest sample. -/
theorem dict_apply {rows : List (Row K)} {tmm : List (WithBot K × K)} {m : K}
    (hm : amin (rows.map (·.logl)) = some m)
    (hd : tmm.countP (fun p => decide (p.1 = (m : WithBot K))) ≤ 1) {n0 : Int}
    (hn : n0 = tmm.countP (fun p => decide (p.1 ≤ (m : WithBot K)))) (w : World σ) :
    dictGivenRunArray rows tmm w =
      if (∀ i < rows.length, 0 < n0 + ((rows.map (·.dn)).take i).sum) ∧
          n0 + ((rows.map (·.dn)).take (rows.length - 1)).sum = 1
      then (.ok (runOfRows rows (liveFrom n0 (rows.map (·.dn))) tmm), w)
      else (.error .assertion, w) := by
  have hne : rows ≠ [] := by rintro rfl; simp [amin] at hm
  have hpos : 0 < rows.length := List.length_pos_iff.mpr hne
  have hdn : (rows.map (·.dn)).length = rows.length := by simp
  have hdne : rows.map (·.dn) ≠ [] := by simpa using hne
  unfold dictGivenRunArray
  simp only [hm]
  rw [← hn]
  by_cases h0 : 0 < n0
  swap
  · rw [M.bind_error (e := .assertion) (w' := w) (by rw [M.assert_apply]; simp [h0]), if_neg]
    rintro ⟨h, -⟩
    have := h 0 hpos
    simp at this; omega
  rw [M.bind_ok (a := ()) (w' := w) (by rw [M.assert_apply]; simp [h0])]
  rw [M.bind_ok (a := liveFrom n0 (rows.map (·.dn))) (w' := w) (by rw [if_neg (by omega)]; rfl)]
  have hall : (liveFrom n0 (rows.map (·.dn))).all (fun x => decide (0 < x)) = true ↔
      ∀ i < rows.length, 0 < n0 + ((rows.map (·.dn)).take i).sum := by
    rw [List.all_eq_true]
    constructor
    · intro h i hi
      have := h _ (List.mem_of_getElem? (getElem?_liveFrom (n0 := n0) (by rw [hdn]; exact hi)))
      simpa using this
    · intro h x hx
      obtain ⟨i, hi⟩ := List.mem_iff_getElem?.mp hx
      have hil : i < rows.length := by
        rw [← hdn, ← length_liveFrom (n0 := n0) hdne]; exact (List.getElem?_eq_some_iff.mp hi).1
      rw [getElem?_liveFrom (by rw [hdn]; exact hil)] at hi
      cases hi
      simpa using h i hil
  have hlast : (liveFrom n0 (rows.map (·.dn))).getLast? = some 1 ↔
      n0 + ((rows.map (·.dn)).take (rows.length - 1)).sum = 1 := by
    rw [List.getLast?_eq_getElem?, length_liveFrom hdne, hdn, getElem?_liveFrom (by rw [hdn]; omega)]
    simp
  by_cases h1 : ∀ i < rows.length, 0 < n0 + ((rows.map (·.dn)).take i).sum
  swap
  · rw [M.bind_error (e := .assertion) (w' := w)
      (by rw [M.assert_apply, if_neg (by rw [hall]; exact h1)]), if_neg (fun h => h1 h.1)]
  rw [M.bind_ok (a := ()) (w' := w) (by rw [M.assert_apply, if_pos (hall.mpr h1)])]
  by_cases h2 : n0 + ((rows.map (·.dn)).take (rows.length - 1)).sum = 1
  swap
  · rw [M.bind_error (e := .assertion) (w' := w)
      (by rw [M.assert_apply, if_neg (by rw [decide_eq_true_iff, hlast]; exact h2)]),
      if_neg (fun h => h2 h.2)]
  rw [M.bind_ok (a := ()) (w' := w)
    (by rw [M.assert_apply, if_pos (by rw [decide_eq_true_iff, hlast]; exact h2)]), if_pos ⟨h1, h2⟩]
  rfl

/-! ### array_given_run -/

theorem getElem?_diff {xs : List Int} {i : Nat} {a b : Int} (h1 : xs[i]? = some a)
    (h2 : xs[i + 1]? = some b) : (diff xs)[i]? = some (b - a) := by
  simp [diff, List.getElem?_zipWith, h1, h2]

theorem sum_take_diff {xs : List Int} {i : Nat} {a b : Int} (h0 : xs[0]? = some a)
    (hi : xs[i]? = some b) : ((diff xs).take i).sum = b - a := by
  induction i generalizing b with
  | zero => rw [h0] at hi; cases hi; simp
  | succ i ih =>
    have hlt : i + 1 < xs.length := (List.getElem?_eq_some_iff.mp hi).1
    have hi' : xs[i]? = some xs[i] := List.getElem?_eq_getElem (by omega)
    rw [List.take_add_one, getElem?_diff hi' hi, List.sum_append, ih hi']
    simp

theorem mkRows_map {ls : List K} {bs : List (Option Int)} {ds : List Int} {ts : List (List K)}
    (h1 : bs.length = ls.length) (h2 : ds.length = ls.length) (h3 : ts.length = ls.length) :
    (mkRows ls bs ds ts).map (·.logl) = ls ∧ (mkRows ls bs ds ts).map (·.label) = bs ∧
    (mkRows ls bs ds ts).map (·.dn) = ds ∧ (mkRows ls bs ds ts).map (·.theta) = ts := by
  induction ls generalizing bs ds ts with
  | nil => simp_all [mkRows]
  | cons l ls ih =>
    cases bs with
    | nil => simp at h1
    | cons b bs =>
      cases ds with
      | nil => simp at h2
      | cons d ds =>
        cases ts with
        | nil => simp at h3
        | cons t ts =>
          simp only [List.length_cons, Nat.add_right_cancel_iff] at h1 h2 h3
          obtain ⟨a1, a2, a3, a4⟩ := ih h1 h2 h3
          simp [mkRows, a1, a2, a3, a4]

/-- The rows of a run with labels. -/
theorem arrayGivenRun_ok {r : Run K} {labels : List Int} (hl : r.labels = some labels)
    (h1 : labels.length = r.logl.length) (h2 : r.nlive.length = r.logl.length)
    (h3 : r.theta.length = r.logl.length) (h0 : r.logl ≠ []) :
    ∃ rows, arrayGivenRun r = .ok rows ∧ rows.map (·.logl) = r.logl ∧
      rows.map (·.label) = labels.map some ∧ rows.map (·.dn) = diff r.nlive ++ [-1] ∧
      rows.map (·.theta) = r.theta := by
  have hpos : 0 < r.logl.length := List.length_pos_iff.mpr h0
  refine ⟨mkRows r.logl (labels.map some) (diff r.nlive ++ [-1]) r.theta, ?_, ?_⟩
  · unfold arrayGivenRun
    simp only [labelColumn, hl]
    rw [if_neg (by simp [h1, h2, h3]), if_neg (by omega)]
  · exact mkRows_map (by simp [h1]) (by simp [length_diff]; omega) h3

/-- `array_given_run` in every case: the rows, or an exception. -/
theorem arrayGivenRun_cases (r : Run K) :
    (∃ e, arrayGivenRun r = .error e) ∨
    (r.logl ≠ [] ∧ r.nlive.length = r.logl.length ∧ r.theta.length = r.logl.length ∧
      (∀ ls, r.labels = some ls → ls.length = r.logl.length) ∧
      ∃ rows, arrayGivenRun r = .ok rows ∧ rows.map (·.logl) = r.logl ∧
      rows.map (·.label) = labelColumn r ∧ rows.map (·.dn) = diff r.nlive ++ [-1] ∧ rows.map (·.theta) = r.theta) := by
  unfold arrayGivenRun
  have hL : ∀ ls, r.labels = some ls → labelColumn r = ls.map some := by
    intro ls hls; rw [labelColumn, hls]
  simp only
  generalize labelColumn r = L at hL ⊢
  by_cases h : L.length ≠ r.logl.length ∨ r.nlive.length ≠ r.logl.length ∨
      r.theta.length ≠ r.logl.length
  · rw [if_pos h]; left; exact ⟨_, rfl⟩
  · rw [if_neg h]
    push Not at h
    obtain ⟨h1, h2, h3⟩ := h
    by_cases h0 : r.logl.length = 0
    · rw [if_pos h0]; left; exact ⟨_, rfl⟩
    · rw [if_neg h0]
      right
      refine ⟨by intro h; rw [h] at h0; simp at h0, h2, h3, ?_, _, rfl, ?_⟩
      · intro ls hls; rw [hL ls hls] at h1; simpa using h1
      · exact mkRows_map h1 (by simp [length_diff]; omega) h3

theorem row_ext {a b : Row K} (h1 : a.logl = b.logl) (h2 : a.label = b.label) (h3 : a.dn = b.dn)
    (h4 : a.theta = b.theta) : a = b := by
  cases a; cases b; simp_all

theorem allSome_map_some {α : Type} (xs : List α) : allSome (xs.map some) = some xs := by
  induction xs with
  | nil => rfl
  | cons x xs ih => simp [allSome, ih]

theorem allSome_eq_some {α : Type} {xs : List (Option α)} {ys : List α} :
    allSome xs = some ys ↔ xs = ys.map some := by
  constructor
  · intro h
    induction xs generalizing ys with
    | nil => simp [allSome] at h; simp [h]
    | cons x xs ih =>
      cases x with
      | none => simp [allSome] at h
      | some x =>
        simp only [allSome, Option.map_eq_some_iff] at h
        obtain ⟨zs, h1, rfl⟩ := h
        simp [ih h1]
  · rintro rfl; exact allSome_map_some ys

end Nestcheck
