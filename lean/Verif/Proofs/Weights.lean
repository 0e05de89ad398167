import Mathlib.Algebra.BigOperators.Group.List.Basic
import Mathlib.Algebra.Order.BigOperators.Group.List
import Mathlib.Tactic.Linarith
import Mathlib.Tactic.Ring
import Mathlib.Tactic.Positivity
import Mathlib.Tactic.FieldSimp
import Verif.Proofs.Basic
import Verif.Model.Weights
import Verif.Spec.Weights

/-
Lemmas about the real-valued operations of Model/Weights.lean.
-/

namespace Nestcheck
open Spec
variable {σ : Type}

theorem Py.ok_bind {α β : Type} (a : α) (f : α → Py β) : ((.ok a : Py α) >>= f) = f a := rfl

theorem Py.error_bind {α β : Type} (e : PyErr) (f : α → Py β) : ((.error e : Py α) >>= f) = .error e := rfl

theorem pyMap_forall₂ {α β : Type} {f : α → Py β} {l : List α} {ys : List β} (h : pyMap f l = .ok ys) :
    List.Forall₂ (fun a y => f a = .ok y) l ys := by
  induction l generalizing ys with
  | nil => cases h; exact .nil
  | cons a l ih =>
    rw [pyMap] at h
    cases ha : f a with
    | error e => rw [ha, Py.error_bind] at h; cases h
    | ok y =>
      rw [ha, Py.ok_bind] at h
      cases hl : pyMap f l with
      | error e => rw [hl, Py.error_bind] at h; cases h
      | ok zs =>
        rw [hl, Py.ok_bind] at h
        cases h
        exact .cons ha (ih hl)

theorem pyMap_ok {α β : Type} {f : α → Py β} {g : α → β} {xs : List α}
    (h : ∀ x ∈ xs, f x = .ok (g x)) : pyMap f xs = .ok (xs.map g) := by
  induction xs with
  | nil => rfl
  | cons x xs ih =>
    rw [pyMap, h x (by simp), ih (fun y hy => h y (by simp [hy]))]
    rfl

theorem npLog_ok {x : ℝ} (h : 0 < x) : npLog x = .ok (Real.log x) := if_pos h

theorem npDiv_ok {x y : ℝ} (h : y ≠ 0) : npDiv x y = .ok (x / y) := if_neg h

section amax
variable {α : Type} [LinearOrder α]

theorem le_foldl_max (a : α) (xs : List α) :
    a ≤ xs.foldl max a ∧ ∀ x ∈ xs, x ≤ xs.foldl max a := by
  induction xs generalizing a with
  | nil => simp
  | cons x xs ih =>
    obtain ⟨h1, h2⟩ := ih (max a x)
    refine ⟨(le_max_left _ _).trans h1, ?_⟩
    intro y hy
    rcases List.mem_cons.mp hy with rfl | hy
    · exact (le_max_right _ _).trans h1
    · exact h2 y hy

theorem foldl_max_mem (a : α) (xs : List α) : xs.foldl max a ∈ a :: xs := by
  induction xs generalizing a with
  | nil => simp
  | cons x xs ih =>
    rcases List.mem_cons.mp (ih (max a x)) with h | h
    · rw [List.foldl_cons, h]
      rcases max_choice a x with h' | h' <;> simp [h']
    · exact List.mem_cons_of_mem _ (List.mem_cons_of_mem _ h)

theorem amax_eq_some {xs : List α} {m : α} : amax xs = some m ↔ m ∈ xs ∧ ∀ x ∈ xs, x ≤ m := by
  cases xs with
  | nil => simp [amax]
  | cons x xs =>
    simp only [amax, Option.some.injEq]
    constructor
    · rintro rfl
      refine ⟨foldl_max_mem x xs, ?_⟩
      intro y hy
      rcases List.mem_cons.mp hy with rfl | hy
      · exact (le_foldl_max _ _).1
      · exact (le_foldl_max _ _).2 _ hy
    · rintro ⟨h1, h2⟩
      apply le_antisymm (h2 _ (foldl_max_mem x xs))
      rcases List.mem_cons.mp h1 with rfl | h1
      · exact (le_foldl_max _ _).1
      · exact (le_foldl_max _ _).2 _ h1

theorem exists_amax {xs : List α} (h : xs ≠ []) : ∃ m, amax xs = some m := by
  cases xs with
  | nil => exact absurd rfl h
  | cons x xs => exact ⟨_, rfl⟩

end amax

/-- `log_subtract` computes log(a - b). -/
theorem logSubtract_ok {x y : ℝ} (h : y < x) :
    logSubtract x y = .ok (Real.log (Real.exp x - Real.exp y)) := by
  have h1 : 0 < 1 - Real.exp (y - x) := by
    have : Real.exp (y - x) < 1 := by
      rw [← Real.exp_zero]; exact Real.exp_lt_exp.mpr (by linarith)
    linarith
  unfold logSubtract
  rw [npLog_ok h1]
  show Except.ok (x + Real.log (1 - Real.exp (y - x))) = _
  have h2 : Real.exp x - Real.exp y = Real.exp x * (1 - Real.exp (y - x)) := by
    rw [mul_sub, ← Real.exp_add]; ring_nf
  rw [h2, Real.log_mul (Real.exp_ne_zero _) (ne_of_gt h1), Real.log_exp]

theorem sum_exp_pos {xs : List ℝ} (h : xs ≠ []) : 0 < (xs.map Real.exp).sum := by
  cases xs with
  | nil => exact absurd rfl h
  | cons x xs =>
    rw [List.map_cons, List.sum_cons]
    have : 0 ≤ (xs.map Real.exp).sum := List.sum_nonneg (by
      intro y hy
      obtain ⟨z, -, rfl⟩ := List.mem_map.mp hy
      exact (Real.exp_pos z).le)
    have := Real.exp_pos x
    linarith

theorem sum_exp_sub (xs : List ℝ) (m : ℝ) :
    (xs.map (fun x => Real.exp (x - m))).sum = (xs.map Real.exp).sum * Real.exp (-m) := by
  rw [← List.sum_map_mul_right]
  congr 2
  funext x
  rw [← Real.exp_add, sub_eq_add_neg]

/-- `logsumexp` is the logarithm of the sum of the exponentials. -/
theorem logsumexp_ok {xs : List ℝ} (h : xs ≠ []) :
    logsumexp xs = .ok (Real.log ((xs.map Real.exp).sum)) := by
  obtain ⟨m, hm⟩ := exists_amax h
  unfold logsumexp
  rw [hm]
  simp only []
  have hp := sum_exp_pos h
  rw [sum_exp_sub, npLog_ok (mul_pos hp (Real.exp_pos _)),
    Real.log_mul (ne_of_gt hp) (Real.exp_ne_zero _), Real.log_exp]
  show Except.ok _ = _
  congr 1
  ring

theorem relWeights_ok {logw : List ℝ} (h : logw ≠ []) : ∃ m ∈ logw, (∀ x ∈ logw, x ≤ m) ∧
    relWeights logw = .ok (logw.map (fun x => Real.exp (x - m))) := by
  obtain ⟨m, hm⟩ := exists_amax h
  obtain ⟨h1, h2⟩ := amax_eq_some.mp hm
  refine ⟨m, h1, h2, ?_⟩
  unfold relWeights
  rw [hm]

/-- Running sums. -/
theorem cumsum_eq (steps : List ℝ) : cumsum steps = positions steps := by
  unfold cumsum positions
  apply List.ext_getElem?
  intro i
  by_cases hi : i < steps.length
  · rw [getElem?_cumsumFrom 0 steps i hi, List.getElem?_map, List.getElem?_range hi]
    simp
  · rw [List.getElem?_eq_none (by rw [length_cumsumFrom]; omega),
      List.getElem?_eq_none (by simp; omega)]

theorem length_positions (steps : List ℝ) : (positions steps).length = steps.length := by
  simp [positions]

theorem positions_pairwise {steps : List ℝ} (h : ∀ s ∈ steps, s < 0) :
    (positions steps).Pairwise (· > ·) ∧ ∀ x ∈ positions steps, x < 0 := by
  have key : ∀ (xs : List ℝ), (∀ s ∈ xs, s < 0) → xs ≠ [] → xs.sum < 0 := by
    intro xs
    induction xs with
    | nil => intro _ h; exact absurd rfl h
    | cons x xs ih =>
      intro hx _
      rw [List.sum_cons]
      have h1 := hx x (by simp)
      by_cases he : xs = []
      · rw [he]; simpa using h1
      · have := ih (fun s hs => hx s (by simp [hs])) he
        linarith
  constructor
  · unfold positions
    rw [List.pairwise_map]
    have := List.pairwise_lt_range (n := steps.length)
    refine List.Pairwise.imp_of_mem ?_ this
    intro a b ha hb hab
    rw [List.mem_range] at ha hb
    have e : steps.take (b + 1) = steps.take (a + 1) ++ (steps.take (b + 1)).drop (a + 1) := by
      conv_lhs => rw [← List.take_append_drop (a + 1) (steps.take (b + 1))]
      rw [List.take_take]
      congr 2
      omega
    show (steps.take (b + 1)).sum < (steps.take (a + 1)).sum
    rw [e, List.sum_append]
    have := key ((steps.take (b + 1)).drop (a + 1))
      (fun s hs => h s (List.mem_of_mem_take (List.mem_of_mem_drop hs)))
      (by
        intro h0
        have := congrArg List.length h0
        simp only [List.length_drop, List.length_take, List.length_nil] at this
        omega)
    linarith
  · intro x hx
    unfold positions at hx
    obtain ⟨i, hi, rfl⟩ := List.mem_map.mp hx
    rw [List.mem_range] at hi
    refine key _ (fun s hs => h s (List.mem_of_mem_take hs)) ?_
    intro h0
    have := congrArg List.length h0
    simp only [List.length_take, List.length_nil] at this
    omega

/-- `get_logx`, expected volumes. -/
theorem getLogx_expected {R : Rng σ ℝ} {nlive : List Int} (h0 : nlive ≠ []) (hp : ∀ n ∈ nlive, 0 < n)
    (w : World σ) : getLogx R nlive false w = (.ok (positions (expectedSteps nlive)), w) := by
  cases hm : amin nlive with
  | none => cases nlive with
    | nil => exact absurd rfl h0
    | cons => simp [amin] at hm
  | some m =>
    have hm0 := hp m (amin_eq_some.mp hm).1
    unfold getLogx
    rw [hm]
    simp only []
    rw [M.bind_ok (a := ()) (w' := w) (by rw [M.assert_apply]; simp [hm0]), if_neg (by simp)]
    rw [M.bind_ok (a := expectedSteps nlive) (w' := w), ← cumsum_eq]
    · rfl
    · rw [M.lift_apply, pyMap_ok (g := fun n : Int => -1 / (n : ℝ))]
      · rw [expectedSteps]
      · intro n hn
        have : (n : ℝ) ≠ 0 := by exact_mod_cast ne_of_gt (hp n hn)
        unfold expectedStep
        rw [npDiv_ok this]
        show Except.ok _ = _
        congr 1
        ring

/-- `get_logx`, simulated volumes. -/
theorem getLogx_simulated {R : Rng σ ℝ} {nlive : List Int} (h0 : nlive ≠ []) (hp : ∀ n ∈ nlive, 0 < n)
    (w : World σ) (hu : ∀ u ∈ (R.uniform nlive.length w.rng).1, 0 < u) :
    getLogx R nlive true w =
      (.ok (positions (simulatedSteps (R.uniform nlive.length w.rng).1 nlive)),
        { w with rng := (R.uniform nlive.length w.rng).2 }) := by
  cases hm : amin nlive with
  | none => cases nlive with
    | nil => exact absurd rfl h0
    | cons => simp [amin] at hm
  | some m =>
    have hm0 := hp m (amin_eq_some.mp hm).1
    unfold getLogx
    rw [hm]
    simp only []
    rw [M.bind_ok (a := ()) (w' := w) (by rw [M.assert_apply]; simp [hm0]), if_pos (by simp)]
    rw [M.bind_ok (a := simulatedSteps (R.uniform nlive.length w.rng).1 nlive)
      (w' := { w with rng := (R.uniform nlive.length w.rng).2 }), ← cumsum_eq]
    · rfl
    · rw [M.bind_ok (M.draw_apply _ _), M.lift_apply,
        pyMap_ok (g := fun p : ℝ × Int => Real.log p.1 / (p.2 : ℝ))]
      · rw [simulatedSteps, List.zip, List.map_zipWith]
      · rintro ⟨u, n⟩ hun
        have h1 := List.of_mem_zip hun
        have : (n : ℝ) ≠ 0 := by exact_mod_cast ne_of_gt (hp n h1.2)
        unfold simulatedStep
        rw [npLog_ok (hu u h1.1)]
        exact npDiv_ok this

theorem getLogx_assert {R : Rng σ ℝ} {nlive : List Int} (hp : ∃ n ∈ nlive, n ≤ 0) (sim : Bool)
    (w : World σ) : getLogx R nlive sim w = (.error .assertion, w) := by
  obtain ⟨n, hn, hn0⟩ := hp
  cases hm : amin nlive with
  | none => cases nlive with
    | nil => simp at hn
    | cons => simp [amin] at hm
  | some m =>
    have := (amin_eq_some.mp hm).2 n hn
    unfold getLogx
    rw [hm]
    simp only []
    rw [M.bind_error (e := .assertion) (w' := w)]
    rw [M.assert_apply, if_neg]
    simp; omega

theorem expectedSteps_neg {nlive : List Int} (hp : ∀ n ∈ nlive, 0 < n) :
    ∀ s ∈ expectedSteps nlive, s < 0 := by
  intro s hs
  obtain ⟨n, hn, rfl⟩ := List.mem_map.mp hs
  have : (0 : ℝ) < n := by exact_mod_cast hp n hn
  exact div_neg_of_neg_of_pos (by norm_num) this

theorem simulatedSteps_neg {us : List ℝ} {nlive : List Int} (hp : ∀ n ∈ nlive, 0 < n)
    (hu : ∀ u ∈ us, 0 < u ∧ u < 1) : ∀ s ∈ simulatedSteps us nlive, s < 0 := by
  intro s hs
  unfold simulatedSteps at hs
  rw [← List.map_uncurry_zip_eq_zipWith] at hs
  obtain ⟨⟨u, n⟩, hun, rfl⟩ := List.mem_map.mp hs
  have h1 := List.of_mem_zip hun
  have : (0 : ℝ) < n := by exact_mod_cast hp n h1.2
  exact div_neg_of_neg_of_pos (Real.log_neg (hu u h1.1).1 (hu u h1.1).2) this

/-! ### Shells of prior volume -/

theorem length_edges (Xs : List ℝ) : (edges Xs).length = Xs.length - 1 + 2 := by
  simp [edges]

theorem length_shells {Xs : List ℝ} (h : Xs ≠ []) : (shells Xs).length = Xs.length := by
  have := List.length_pos_iff.mpr h
  simp only [shells, List.length_zipWith, List.length_tail, length_edges]
  omega

theorem sum_sub_tail (x : ℝ) (xs : List ℝ) :
    (List.zipWith (fun a b => a - b) (x :: xs) xs).sum = x - (x :: xs).getLast (by simp) := by
  induction xs generalizing x with
  | nil => simp
  | cons y ys ih =>
    rw [List.zipWith_cons_cons, List.sum_cons, ih y, List.getLast_cons_cons]
    ring

theorem sum_shells (Xs : List ℝ) : (shells Xs).sum = 1 := by
  unfold shells edges
  rw [List.tail_cons, sum_sub_tail]
  rw [List.getLast_cons (by simp), List.getLast_append_of_ne_nil _ (by simp)]
  simp

theorem edges_pairwise {Xs : List ℝ} (h : Xs.Pairwise (· > ·)) (hp : ∀ x ∈ Xs, 0 < x ∧ x < 1) :
    List.IsChain (· > ·) (edges Xs) := by
  unfold edges
  cases Xs with
  | nil => simp
  | cons x xs =>
    have key : ∀ (x : ℝ) (xs : List ℝ) (b : ℝ), (x :: xs).Pairwise (· > ·) → (∀ y ∈ x :: xs, 0 < y) → x < b →
        List.IsChain (· > ·) (b :: (List.zipWith (fun a b => (a + b) / 2) (x :: xs) xs ++ [0])) := by
      intro x xs
      induction xs generalizing x with
      | nil =>
        intro b _ hy hb
        have := hy x (by simp)
        simp; linarith
      | cons y ys ih =>
        intro b hp hy hb
        have hxy : y < x := List.rel_of_pairwise_cons hp (by simp)
        have := ih y ((x + y) / 2) (List.Pairwise.of_cons hp) (fun z hz => hy z (by simp [hz])) (by linarith)
        rw [List.zipWith_cons_cons, List.cons_append, List.isChain_cons_cons]
        exact ⟨by linarith, this⟩
    rw [List.tail_cons]
    exact key x xs 1 h (fun y hy => (hp y hy).1) (hp x (by simp)).2

theorem shells_pos {Xs : List ℝ} (h : Xs.Pairwise (· > ·)) (hp : ∀ x ∈ Xs, 0 < x ∧ x < 1) :
    ∀ v ∈ shells Xs, 0 < v := by
  have hc := edges_pairwise h hp
  unfold shells
  revert hc
  generalize edges Xs = es
  intro hc
  induction es with
  | nil => simp
  | cons a as ih =>
    cases as with
    | nil => simp
    | cons b bs =>
      rw [List.isChain_cons_cons] at hc
      intro v hv
      simp only [List.tail_cons, List.zipWith_cons_cons, List.mem_cons] at hv
      rcases hv with rfl | hv
      · linarith [hc.1]
      · exact ih hc.2 v (by simpa using hv)

theorem shells_cons_cons (x y : ℝ) (ys : List ℝ) :
    shells (x :: y :: ys) = (1 - (x + y) / 2) ::
      (List.zipWith (fun a b => (a - b) / 2) (x :: y :: ys).dropLast.dropLast ys ++
        [((x :: y :: ys).dropLast.getLast (by simp) + (y :: ys).getLast (by simp)) / 2]) := by
  have key : ∀ (x y : ℝ) (ys : List ℝ), List.zipWith (fun a b => a - b)
      ((x + y) / 2 :: (List.zipWith (fun a b => (a + b) / 2) (y :: ys) ys ++ [0]))
      (List.zipWith (fun a b => (a + b) / 2) (y :: ys) ys ++ [0]) =
      List.zipWith (fun a b => (a - b) / 2) (x :: y :: ys).dropLast.dropLast ys ++
        [((x :: y :: ys).dropLast.getLast (by simp) + (y :: ys).getLast (by simp)) / 2] := by
    intro x y ys
    induction ys generalizing x y with
    | nil => simp
    | cons z zs ih =>
      have := ih y z
      rw [List.zipWith_cons_cons, List.cons_append, List.zipWith_cons_cons, this]
      simp only [List.dropLast_cons_cons, List.zipWith_cons_cons, List.cons_append, List.getLast_cons_cons]
      congr 1
      ring
  unfold shells edges
  simp only [List.tail_cons, List.zipWith_cons_cons, List.cons_append]
  rw [key]

/-- The log prior volumes of at least two points. -/
theorem volumes_ok {logx : List ℝ} (h2 : 2 ≤ logx.length) (hs : logx.Pairwise (· > ·))
    (hn : ∀ x ∈ logx, x < 0) : volumes logx = .ok ((shells (logx.map Real.exp)).map Real.log) := by
  match logx, h2 with
  | x :: y :: ys, _ =>
    obtain ⟨l, hl⟩ : ∃ l, (x :: y :: ys)[(x :: y :: ys).length - 2]? = some l ∧
        l = (x :: y :: ys).dropLast.getLast (by simp) := by
      refine ⟨_, ?_, rfl⟩
      rw [List.getLast_eq_getElem, List.getElem_dropLast, List.getElem?_eq_getElem (by simp)]
      simp
    have hl' : l ∈ x :: y :: ys := List.mem_of_getElem? hl.1
    have hx := hn x (by simp)
    have hy := hn y (by simp)
    unfold volumes
    rw [hl.1, List.getLast?_eq_some_getLast (by simp)]
    simp only [List.getElem?_cons_zero, List.getElem?_cons_succ]
    unfold innerWeights
    rw [pyMap_ok (g := fun p : ℝ × ℝ => Real.log ((Real.exp p.1 - Real.exp p.2) / 2))]
    · rw [Py.ok_bind, logsumexp_ok (by simp), Py.ok_bind, logsumexp_ok (by simp)]
      have e0 : ∀ a b : ℝ, ((([a, b] : List ℝ).map Real.exp).sum) = Real.exp a + Real.exp b := by
        intro a b; simp
      have pos : ∀ a b : ℝ, 0 < Real.exp a + Real.exp b := fun a b => by positivity
      rw [e0, e0, ← Real.log_div (ne_of_gt (pos _ _)) (by norm_num),
        logSubtract_ok, Py.ok_bind, Py.ok_bind, ← Real.log_div (ne_of_gt (pos _ _)) (by norm_num)]
      · rw [List.map_cons, List.map_cons, shells_cons_cons]
        show Except.ok _ = _
        congr 1
        rw [List.map_cons, Real.exp_zero, Real.exp_log (by have := pos x y; linarith)]
        rw [List.cons_append]
        congr 1
        rw [List.map_append]
        congr 1
        · rw [← List.map_cons, ← List.map_cons, ← List.map_dropLast, ← List.map_dropLast, List.map_zipWith,
            List.zipWith_map, List.zip, List.map_zipWith]
          rfl
        · simp only [← List.map_cons, ← List.map_dropLast, List.getLast_map]
          rw [hl.2, List.getLast_cons_cons]
          rfl
      · apply (Real.log_neg (by have := pos x y; linarith) ?_)
        have h1 : Real.exp x < 1 := by rw [← Real.exp_zero]; exact Real.exp_lt_exp.mpr hx
        have h2 : Real.exp y < 1 := by rw [← Real.exp_zero]; exact Real.exp_lt_exp.mpr hy
        linarith
    · rintro ⟨a, b⟩ hab
      have hlt : b < a := by
        obtain ⟨i, hi⟩ := List.mem_iff_getElem?.mp hab
        rw [List.getElem?_zip_eq_some] at hi
        obtain ⟨ha, hb⟩ := hi
        obtain ⟨hi, ha⟩ := List.getElem?_eq_some_iff.mp ha
        rw [List.getElem?_drop] at hb
        obtain ⟨hi', hb⟩ := List.getElem?_eq_some_iff.mp hb
        rw [List.getElem_dropLast, List.getElem_dropLast] at ha
        simp only [] at ha hb
        rw [← ha, ← hb]
        exact List.pairwise_iff_getElem.mp hs _ _ _ _ (by omega)
      have hpos : 0 < Real.exp a - Real.exp b := sub_pos.mpr (Real.exp_lt_exp.mpr hlt)
      simp only []
      rw [logSubtract_ok hlt]
      show Except.ok _ = _
      congr 1
      rw [Real.log_div (ne_of_gt hpos) (by norm_num)]

/-- `get_logw` once the positions are known. -/
theorem getLogw_of {R : Rng σ ℝ} {r : Run ℝ} {sim : Bool} {w w' : World σ} {logx : List ℝ}
    (h : getLogx R r.nlive sim w = (.ok logx, w')) (hl : r.logl.length = logx.length) (h0 : logx ≠ [])
    (hs : logx.Pairwise (· > ·)) (hn : ∀ x ∈ logx, x < 0) :
    getLogw R r sim w =
      (.ok (List.zipWith (fun v l => Real.log v + l) (shells (logx.map Real.exp)) r.logl), w') := by
  unfold getLogw
  rw [M.bind_ok h, if_neg (by simp [hl])]
  by_cases h2 : 2 ≤ logx.length
  · rw [volumes_ok h2 hs hn]
    simp only []
    rw [M.pure_apply, List.zipWith_map_left]
  · have h1 := List.length_pos_iff.mpr h0
    obtain ⟨x, rfl⟩ : ∃ x, logx = [x] := List.length_eq_one_iff.mp (by omega)
    obtain ⟨l, hl'⟩ : ∃ x, r.logl = [x] := List.length_eq_one_iff.mp (by simp [hl])
    rw [hl']
    have : volumes [x] = .error .index := rfl
    rw [this]
    simp [shells, edges]

end Nestcheck
