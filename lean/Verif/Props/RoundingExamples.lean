import Mathlib.Analysis.SpecialFunctions.Log.ENNRealLogExp
import Verif.Model.Estimators
import Verif.Props.Rounding

/-
C79: arithmetics that meet the assumptions, and the agreement with Model/Weights.lean if
nothing is rounded.
-/

namespace Nestcheck
noncomputable section

/-- The additions from the left. -/
def leftTree : Nat → SumTree
  | 0 => .leaf 0
  | n + 1 => .node (leftTree n) (.leaf (n + 1))

theorem leftTree_leaves (n : Nat) : (leftTree n).leaves = List.range (n + 1) := by
  induction n with
  | zero => rfl
  | succ n ih => rw [leftTree, SumTree.leaves, ih, List.range_succ (n := n + 1)]; rfl

/-- The logarithm, `⊥` for numbers that are not positive. -/
def erealLog (x : EReal) : EReal := ENNReal.log x.toENNReal

/-- The exponential. -/
def erealExp (x : EReal) : EReal := ((EReal.exp x : ENNReal) : EReal)

theorem erealExp_coe (x : ℝ) : erealExp x = (Real.exp x : ℝ) := by
  unfold erealExp
  rw [EReal.exp_coe, EReal.coe_ennreal_ofReal, max_eq_left (Real.exp_pos x).le]

theorem erealLog_coe {x : ℝ} (h : 0 < x) : erealLog x = (Real.log x : ℝ) := by
  unfold erealLog
  rw [EReal.toENNReal_of_ne_top (EReal.coe_ne_top x), EReal.toReal_coe, ENNReal.log_ofReal_of_pos h]

theorem erealLog_mono : Monotone erealLog := fun _ _ h =>
  ENNReal.log_monotone (EReal.toENNReal_le_toENNReal h)

/-- Arithmetic in which every result, also of `exp` and `log`, is the exact one rounded. -/
def FloatArith.ofRound (rnd : EReal → EReal) (maxInt : Nat) (maxFinite : ℝ) (hm : Monotone rnd)
    (hi : ∀ x, rnd (rnd x) = rnd x) (hn : ∀ x, rnd (-rnd x) = -rnd x)
    (hk : ∀ k : ℤ, |k| ≤ maxInt → rnd ((k : ℝ) : EReal) = ((k : ℝ) : EReal)) (h2 : 2 ≤ maxInt)
    (hf : ∀ x : ℝ, |x| ≤ maxFinite → rnd x ≠ ⊥ ∧ rnd x ≠ ⊤) (hb : rnd ⊥ = ⊥) : FloatArith :=
  have r0 : rnd 0 = 0 := by simpa using hk 0 (by simp)
  have r1 : rnd 1 = 1 := by simpa using hk 1 (by simp; omega)
  { rnd := rnd
    exp := fun x => rnd (erealExp x)
    log := fun x => rnd (erealLog x)
    tree := fun n => leftTree (n - 1)
    maxInt := maxInt
    maxFinite := maxFinite
    rnd_mono := hm
    rnd_idem := hi
    rnd_neg := hn
    rnd_int := hk
    two_le := h2
    rnd_finite := hf
    exp_nonneg := fun x => by
      rw [← r0]; exact hm (EReal.coe_ennreal_nonneg _)
    exp_le_one := fun x h => by
      rw [← r1]
      apply hm
      have : EReal.exp x ≤ 1 := EReal.exp_le_one_iff.mpr h
      simpa [erealExp] using (EReal.coe_ennreal_le_coe_ennreal_iff (y := 1)).mpr this
    exp_zero := by simp [erealExp, r1]
    exp_bot := by simp [erealExp, r0]
    log_mono := fun _ _ h => hm (erealLog_mono h)
    log_one := by
      have : erealLog 1 = 0 := by
        have h := erealLog_coe one_pos
        rw [Real.log_one] at h
        exact_mod_cast h
      rw [this, r0]
    log_zero := by simp [erealLog, hb]
    log_le := fun n h hn => by
      have h3 : ((((n : ℤ) - 1 : ℤ) : ℝ) : EReal) = (((n : ℝ) - 1 : ℝ) : EReal) := by push_cast; rfl
      rw [← h3, ← hk ((n : ℤ) - 1) (by rw [abs_of_nonneg] <;> omega), h3]
      apply hm
      rw [erealLog_coe (by exact_mod_cast h), EReal.coe_le_coe_iff]
      exact Real.log_le_sub_one_of_pos (by exact_mod_cast h)
    log_float := fun _ => hi _
    tree_perm := fun n h => by
      rw [leftTree_leaves, Nat.sub_add_cancel (Nat.one_le_iff_ne_zero.mpr h)] }

/-- No rounding. -/
def exactArith : FloatArith :=
  .ofRound id (2 ^ 53) (10 ^ 100) monotone_id (fun _ => rfl) (fun _ => rfl) (fun _ _ => rfl) (by norm_num)
    (fun x _ => ⟨EReal.coe_ne_bot x, EReal.coe_ne_top x⟩) rfl

/-- Rounding down to an integer, with overflow beyond 1000. -/
def floorRound (x : EReal) : EReal :=
  if x < ((-1000 : ℝ) : EReal) then ⊥ else if ((1000 : ℝ) : EReal) < x then ⊤ else ((⌊x.toReal⌋ : ℝ) : EReal)

theorem floorRound_real {x : ℝ} (h : |x| ≤ 1000) : floorRound x = ((⌊x⌋ : ℝ) : EReal) := by
  obtain ⟨h1, h2⟩ := abs_le.mp h
  unfold floorRound
  rw [if_neg (by rw [EReal.coe_lt_coe_iff]; linarith), if_neg (by rw [EReal.coe_lt_coe_iff]; linarith),
    EReal.toReal_coe]

theorem floorRound_cases (x : EReal) :
    (floorRound x = ⊥ ∧ x < ((-1000 : ℝ) : EReal)) ∨ (floorRound x = ⊤ ∧ ((1000 : ℝ) : EReal) < x) ∨
      ∃ y : ℝ, x = y ∧ |y| ≤ 1000 ∧ floorRound x = ((⌊y⌋ : ℝ) : EReal) := by
  by_cases h1 : x < ((-1000 : ℝ) : EReal)
  · exact .inl ⟨if_pos h1, h1⟩
  · by_cases h2 : ((1000 : ℝ) : EReal) < x
    · exact .inr (.inl ⟨by unfold floorRound; rw [if_neg h1, if_pos h2], h2⟩)
    · right; right
      induction x with
      | bot => exact absurd (EReal.bot_lt_coe _) h1
      | top => exact absurd (EReal.coe_lt_top _) h2
      | coe y =>
        rw [EReal.coe_lt_coe_iff, not_lt] at h1 h2
        exact ⟨y, rfl, abs_le.mpr ⟨h1, h2⟩, floorRound_real (abs_le.mpr ⟨h1, h2⟩)⟩

theorem floorRound_int {k : ℤ} (h : |k| ≤ 1000) : floorRound ((k : ℝ) : EReal) = ((k : ℝ) : EReal) := by
  rw [floorRound_real (by exact_mod_cast h), Int.floor_intCast]

theorem abs_floor_le {y : ℝ} (h : |y| ≤ 1000) : |⌊y⌋| ≤ 1000 := by
  obtain ⟨h1, h2⟩ := abs_le.mp h
  rw [abs_le]
  constructor
  · exact Int.le_floor.mpr (by push_cast; exact h1)
  · exact_mod_cast (Int.floor_le y).trans h2

theorem floorRound_bot : floorRound ⊥ = ⊥ := if_pos (EReal.bot_lt_coe _)

theorem floorRound_top : floorRound ⊤ = ⊤ := by
  unfold floorRound
  rw [if_neg (by simp), if_pos (EReal.coe_lt_top _)]

theorem floorRound_mono : Monotone floorRound := by
  intro x y hxy
  rcases floorRound_cases x with ⟨hx, -⟩ | ⟨hx, hx'⟩ | ⟨a, rfl, ha, hx⟩
  · rw [hx]; exact bot_le
  · rw [hx]
    rcases floorRound_cases y with ⟨-, hy'⟩ | ⟨hy, -⟩ | ⟨b, rfl, hb, -⟩
    · have := (hx'.trans_le hxy).trans hy'
      rw [EReal.coe_lt_coe_iff] at this; norm_num at this
    · rw [hy]
    · have := hx'.trans_le hxy
      rw [EReal.coe_lt_coe_iff] at this
      have := (abs_le.mp hb).2
      linarith
  · rw [hx]
    rcases floorRound_cases y with ⟨-, hy'⟩ | ⟨hy, -⟩ | ⟨b, rfl, hb, hy⟩
    · have := hxy.trans_lt hy'
      rw [EReal.coe_lt_coe_iff] at this
      have := (abs_le.mp ha).1
      linarith
    · rw [hy]; exact le_top
    · rw [hy, EReal.coe_le_coe_iff]
      exact_mod_cast Int.floor_mono (by exact_mod_cast hxy)

/-- Arithmetic of integers up to 1000. -/
def floorArith : FloatArith :=
  .ofRound floorRound 1000 1000 floorRound_mono
    (fun x => by
      rcases floorRound_cases x with ⟨hx, -⟩ | ⟨hx, -⟩ | ⟨a, -, ha, hx⟩ <;> rw [hx]
      · exact floorRound_bot
      · exact floorRound_top
      · exact floorRound_int (abs_floor_le ha))
    (fun x => by
      rcases floorRound_cases x with ⟨hx, -⟩ | ⟨hx, -⟩ | ⟨a, -, ha, hx⟩ <;> rw [hx]
      · simpa using floorRound_top
      · simpa using floorRound_bot
      · have := floorRound_int (k := -⌊a⌋) (by rw [abs_neg]; exact abs_floor_le ha)
        simpa using this)
    (fun k h => floorRound_int h) (by norm_num)
    (fun x h => by rw [floorRound_real h]; exact ⟨EReal.coe_ne_bot _, EReal.coe_ne_top _⟩) floorRound_bot

/-! ### No rounding -/

/-- The numbers of an array as extended reals. -/
def coes (xs : List ℝ) : List EReal := xs.map (fun x : ℝ => (x : EReal))

theorem exact_add (x y : ℝ) : flAdd exactArith x y = .ok ((x + y : ℝ) : EReal) := by
  rw [flAdd_ok' (EReal.coe_ne_top _) (EReal.coe_ne_top _)]
  rfl

theorem exact_sub (x y : ℝ) : flSub exactArith x y = .ok ((x - y : ℝ) : EReal) := by
  rw [flSub_ok (EReal.coe_ne_top _) (EReal.coe_ne_bot _)]
  rfl

theorem exact_exp (x : ℝ) : exactArith.exp x = (Real.exp x : ℝ) := erealExp_coe x

theorem exact_logTwo : exactArith.log 2 = (Real.log 2 : ℝ) := erealLog_coe (x := 2) two_pos

theorem exact_log {x y : ℝ} (h : npLog x = .ok y) : flLog exactArith x = .ok (y : EReal) := by
  unfold npLog at h
  split at h
  · rename_i hx
    cases h
    rw [flLog_ok (by exact_mod_cast hx.le)]
    exact congrArg _ (erealLog_coe hx)
  · cases h

theorem exact_div (x : ℝ) {n : Int} {y : ℝ} (h : npDiv x n = .ok y) : flDiv exactArith x n = (y : EReal) := by
  unfold npDiv at h
  split at h
  · cases h
  · cases h
    exact (EReal.coe_div _ _).symm

theorem Py.bind_eq_ok {α β : Type} {x : Py α} {f : α → Py β} {b : β} :
    (x >>= f) = .ok b ↔ ∃ a, x = .ok a ∧ f a = .ok b := by
  cases x with
  | error e => rw [Py.error_bind]; simp
  | ok a => rw [Py.ok_bind]; simp

theorem exact_pyMap {α β : Type} {f : α → Py ℝ} {g : β → Py EReal} {c : α → β}
    (h : ∀ x y, f x = .ok y → g (c x) = .ok (y : EReal)) :
    ∀ {xs : List α} {ys : List ℝ}, pyMap f xs = .ok ys → pyMap g (xs.map c) = .ok (coes ys)
  | [], ys, e => by cases e; rfl
  | x :: xs, ys, e => by
    rw [pyMap] at e
    obtain ⟨y, hy, e⟩ := Py.bind_eq_ok.mp e
    obtain ⟨zs, hz, e⟩ := Py.bind_eq_ok.mp e
    cases e
    rw [List.map_cons, pyMap, h x y hy, Py.ok_bind, exact_pyMap h hz]
    rfl

theorem exact_logSubtract {a b y : ℝ} (h : logSubtract a b = .ok y) :
    flLogSubtract exactArith a b = .ok (y : EReal) := by
  obtain ⟨l, hl, h⟩ := Py.bind_eq_ok.mp h
  cases h
  unfold flLogSubtract
  rw [exact_sub, Py.ok_bind, exact_exp]
  have : flSub exactArith 1 (Real.exp (b - a) : ℝ) = _ := exact_sub 1 (Real.exp (b - a))
  rw [this, Py.ok_bind, exact_log hl, Py.ok_bind, exact_add]

theorem exact_amax {xs : List ℝ} {m : ℝ} (h : amax xs = some m) : amax (coes xs) = some (m : EReal) := by
  obtain ⟨h1, h2⟩ := amax_eq_some.mp h
  refine amax_eq_some.mpr ⟨List.mem_map.mpr ⟨m, h1, rfl⟩, ?_⟩
  intro x hx
  obtain ⟨y, hy, rfl⟩ := List.mem_map.mp hx
  exact EReal.coe_le_coe_iff.mpr (h2 y hy)

theorem exact_sumTree {xs : List ℝ} : ∀ k, k < xs.length →
    flSumTree exactArith (coes xs) (leftTree k) = .ok (((xs.take (k + 1)).sum : ℝ) : EReal)
  | 0, h => by
    cases xs with
    | nil => simp at h
    | cons x xs => simp [leftTree, flSumTree, coes]
  | k + 1, h => by
    rw [leftTree, flSumTree, exact_sumTree k (by omega), Py.ok_bind, flSumTree, Py.ok_bind]
    have : (coes xs)[k + 1]?.getD 0 = (xs[k + 1] : EReal) := by
      simp [coes, List.getElem?_eq_getElem h]
    rw [this, exact_add, List.take_add_one (i := k + 1), List.getElem?_eq_getElem h,
      List.sum_append]
    simp

theorem exact_sum (xs : List ℝ) : flSum exactArith (coes xs) = .ok ((xs.sum : ℝ) : EReal) := by
  unfold flSum
  by_cases h : xs = []
  · subst h; simp [coes]
  · have hl := List.length_pos_iff.mpr h
    rw [if_neg (by simpa [coes] using h)]
    have ht : exactArith.tree (coes xs).length = leftTree (xs.length - 1) := by simp [coes]; rfl
    rw [ht, exact_sumTree _ (by omega), Nat.sub_add_cancel hl, List.take_length]

theorem exact_logsumexp {xs : List ℝ} {y : ℝ} (h : logsumexp xs = .ok y) :
    flLogsumexp exactArith (coes xs) = .ok (y : EReal) := by
  unfold logsumexp at h
  split at h
  · cases h
  · rename_i m hm
    obtain ⟨l, hl, h⟩ := Py.bind_eq_ok.mp h
    cases h
    unfold flLogsumexp
    rw [exact_amax hm]
    simp only [EReal.coe_ne_top, EReal.coe_ne_bot, or_self, if_false]
    have : pyMap (fun x => do
        let d ← flSub exactArith x (m : EReal)
        pure (exactArith.exp d)) (coes xs) = .ok (coes (xs.map (fun x => Real.exp (x - m)))) := by
      refine exact_pyMap (f := fun x => .ok (Real.exp (x - m))) ?_ (pyMap_ok (g := fun x => Real.exp (x - m)) (fun _ _ => rfl))
      intro x z hz
      cases hz
      rw [exact_sub, Py.ok_bind, exact_exp]
      rfl
    rw [this, Py.ok_bind, exact_sum, Py.ok_bind, exact_log hl, Py.ok_bind, exact_add]

theorem exact_cumsumFrom : ∀ (xs : List ℝ) (acc : ℝ),
    flCumsumFrom exactArith acc (coes xs) = .ok (coes (cumsumFrom acc xs))
  | [], _ => rfl
  | x :: xs, acc => by
    have ih := exact_cumsumFrom xs (acc + x)
    simp only [coes, List.map_cons, flCumsumFrom, cumsumFrom] at ih ⊢
    rw [exact_add, Py.ok_bind, ih]
    rfl

theorem exact_cumsum (xs : List ℝ) : flCumsum exactArith (coes xs) = .ok (coes (cumsum xs)) := by
  cases xs with
  | nil => rfl
  | cons x xs =>
    have := exact_cumsumFrom xs x
    simp only [coes, List.map_cons, flCumsum, cumsum, cumsumFrom, zero_add] at this ⊢
    rw [this]
    rfl

theorem exact_volumes {logx vs : List ℝ} (h : volumes logx = .ok vs) :
    flVolumes exactArith (coes logx) = .ok (coes vs) := by
  unfold volumes at h
  split at h
  · rename_i x0 x1 y1 y0 e0 e1 e2 e3
    obtain ⟨inner, hin, h⟩ := Py.bind_eq_ok.mp h
    obtain ⟨s, hs, h⟩ := Py.bind_eq_ok.mp h
    obtain ⟨first, hf, h⟩ := Py.bind_eq_ok.mp h
    obtain ⟨t, ht, h⟩ := Py.bind_eq_ok.mp h
    cases h
    have c0 : (coes logx)[0]? = some (x0 : EReal) := by simp [coes, e0]
    have c1 : (coes logx)[1]? = some (x1 : EReal) := by simp [coes, e1]
    have c2 : (coes logx)[(coes logx).length - 2]? = some (y1 : EReal) := by simp [coes, e2]
    have c3 : (coes logx).getLast? = some (y0 : EReal) := by simp [coes, e3]
    have hin' : flInner exactArith (coes logx) = .ok (coes inner) := by
      have := exact_pyMap (g := fun p : EReal × EReal => do
        let l ← flLogSubtract exactArith p.1 p.2
        flSub exactArith l (exactArith.log 2)) (c := fun p : ℝ × ℝ => ((p.1 : EReal), (p.2 : EReal))) ?_ hin
      · unfold flInner
        rw [← this]
        congr 1
        simp only [coes, ← List.map_dropLast, ← List.map_drop, List.zip_map]
        rfl
      · intro p y hy
        obtain ⟨l, hl, hy⟩ := Py.bind_eq_ok.mp hy
        cases hy
        simp only
        rw [exact_logSubtract hl, Py.ok_bind, exact_logTwo, exact_sub]
    have hs' : flLogsumexp exactArith [(x0 : EReal), x1] = .ok (s : EReal) := exact_logsumexp hs
    have ht' : flLogsumexp exactArith [(y1 : EReal), y0] = .ok (t : EReal) := exact_logsumexp ht
    have hf' : flLogSubtract exactArith 0 ((s - Real.log 2 : ℝ) : EReal) = .ok (first : EReal) :=
      exact_logSubtract (a := 0) hf
    unfold flVolumes
    rw [c0, c1, c2, c3]
    simp only
    rw [hin', Py.ok_bind, hs', Py.ok_bind, exact_logTwo, exact_sub, Py.ok_bind, hf', Py.ok_bind, ht', Py.ok_bind,
      exact_sub, Py.ok_bind]
    simp [coes]
    rfl
  · cases h

theorem exact_zipWith : ∀ (vs ls : List ℝ),
    pyMap (fun p : EReal × EReal => flAdd exactArith p.1 p.2) ((coes vs).zip (coes ls)) =
      .ok (coes (List.zipWith (· + ·) vs ls))
  | [], _ => by simp [coes, pyMap]
  | _ :: _, [] => by simp [coes, pyMap]
  | v :: vs, l :: ls => by
    have ih := exact_zipWith vs ls
    simp only [coes, List.map_cons, List.zip_cons_cons, pyMap, List.zipWith_cons_cons] at ih ⊢
    rw [exact_add, Py.ok_bind, ih]
    rfl

variable {σ : Type} {R : Rng σ ℝ}

/-- The draws of `get_logx`. -/
def Spec.drawn (R : Rng σ ℝ) (nlive : List Int) (sim : Bool) (w : World σ) : Option (List EReal) :=
  if sim then some (coes (R.uniform nlive.length w.rng).1) else none

theorem exact_logx {nlive : List Int} {sim : Bool} {w w' : World σ} {xs : List ℝ}
    (h : getLogx R nlive sim w = (.ok xs, w')) :
    flLogx exactArith nlive (Spec.drawn R nlive sim w) = .ok (coes xs) := by
  unfold getLogx at h
  unfold flLogx
  cases hm : amin nlive with
  | none => rw [hm] at h; cases h
  | some m =>
    rw [hm] at h
    simp only at h ⊢
    obtain ⟨⟨⟩, w1, h1, h⟩ := M.bind_eq_ok.mp h
    rw [M.assert_apply] at h1
    by_cases h0 : 0 < m
    · simp only [h0, decide_true, if_true, Prod.mk.injEq, true_and] at h1
      subst h1
      obtain ⟨steps, w2, h2, h⟩ := M.bind_eq_ok.mp h
      cases h
      simp only [h0, not_true_eq_false, if_false]
      cases sim with
      | false =>
        simp only [Bool.false_eq_true, if_false, M.lift_apply, Prod.mk.injEq] at h2
        obtain ⟨h2, rfl⟩ := h2
        have : nlive.map (flExpectedStep exactArith) = coes steps := by
          have e := exact_pyMap (g := fun n => .ok (flExpectedStep exactArith n)) (c := id) ?_ h2
          · rw [List.map_id, pyMap_ok (g := flExpectedStep exactArith) (fun _ _ => rfl)] at e
            exact Except.ok.inj e
          · intro n y hy
            obtain ⟨z, hz, hy⟩ := Py.bind_eq_ok.mp hy
            cases hy
            have : flDiv exactArith 1 n = (z : EReal) := exact_div 1 hz
            simp only [flExpectedStep, id, this]
            simp
        simp only [Spec.drawn, Bool.false_eq_true, if_false]
        rw [this, exact_cumsum]
      | true =>
        simp only [if_true] at h2
        obtain ⟨us, w3, h3, h2⟩ := M.bind_eq_ok.mp h2
        cases h3
        rw [M.lift_apply, Prod.mk.injEq] at h2
        have e := exact_pyMap (g := flSimulatedStep exactArith) (c := fun p : ℝ × Int => ((p.1 : EReal), p.2)) ?_ h2.1
        · simp only [Spec.drawn, if_true]
          have hz : (coes (R.uniform nlive.length w.rng).1).zip nlive =
              ((R.uniform nlive.length w.rng).1.zip nlive).map (fun p : ℝ × Int => ((p.1 : EReal), p.2)) := by
            rw [coes, List.zip_map_left]
            rfl
          rw [hz, e, Py.ok_bind, exact_cumsum]
        · rintro ⟨u, n⟩ y hy
          obtain ⟨l, hl, hy⟩ := Py.bind_eq_ok.mp hy
          simp only [flSimulatedStep]
          rw [exact_log hl, Py.ok_bind, exact_div l hy]
          rfl
    · simp [h0] at h1

/-- C79: without rounding the calculation of the log weights is the one of Model/Weights.lean, to which the
other theorems refer. -/
theorem C79_exact {r : Run ℝ} {sim : Bool} {w w' : World σ} {lw : List ℝ}
    (h : getLogw R r sim w = (.ok lw, w')) :
    flLogw exactArith (coes r.logl) r.nlive (Spec.drawn R r.nlive sim w) = .ok (coes lw) := by
  unfold getLogw at h
  obtain ⟨xs, w1, h1, h⟩ := M.bind_eq_ok.mp h
  unfold flLogw
  rw [exact_logx h1, Py.ok_bind]
  by_cases hl : r.logl.length = xs.length
  · simp only [hl, ne_eq, not_true_eq_false, if_false] at h
    have hl' : (coes r.logl).length = (coes xs).length := by simpa [coes] using hl
    simp only [hl', ne_eq, not_true_eq_false, if_false]
    cases hv : volumes xs with
    | ok vs =>
      rw [hv] at h
      cases h
      rw [exact_volumes hv]
      exact exact_zipWith _ _
    | error e =>
      rw [hv] at h
      by_cases he : e = .index
      · subst he
        simp only at h
        by_cases hx : xs.length = 1
        · rw [if_pos hx] at h
          cases h
          obtain ⟨x, rfl⟩ := List.length_eq_one_iff.mp hx
          obtain ⟨l, hl⟩ := List.length_eq_one_iff.mp hl
          rw [hl]
          rfl
        · rw [if_neg hx] at h
          cases h
      · cases e <;> first | exact absurd rfl he | cases h
  · simp [hl] at h

/-- C79: the same for `logz`. -/
theorem C79_exact_logz {r : Run ℝ} {sim : Bool} {w w' : World σ} {z : ℝ}
    (h : logz R r none sim w = (.ok z, w')) :
    flLogz exactArith (coes r.logl) r.nlive (Spec.drawn R r.nlive sim w) = .ok (z : EReal) := by
  unfold logz at h
  obtain ⟨lw, w1, h1, h⟩ := M.bind_eq_ok.mp h
  rw [M.lift_apply, Prod.mk.injEq] at h
  unfold flLogz
  rw [C79_exact h1, Py.ok_bind, exact_logsumexp h.1]

/-- C79: the same for `get_w_rel`. -/
theorem C79_exact_weights {r : Run ℝ} {sim : Bool} {w w' : World σ} {ws : List ℝ}
    (h : getWRel R r sim w = (.ok ws, w')) :
    flWRel exactArith (coes r.logl) r.nlive (Spec.drawn R r.nlive sim w) = .ok (coes ws) := by
  unfold getWRel at h
  obtain ⟨lw, w1, h1, h⟩ := M.bind_eq_ok.mp h
  rw [M.lift_apply, Prod.mk.injEq] at h
  unfold flWRel flRelWeights
  rw [C79_exact h1, Py.ok_bind]
  have h2 := h.1
  unfold relWeights at h2
  split at h2
  · cases h2
  · rename_i m hm
    cases h2
    rw [exact_amax hm]
    simp only
    refine exact_pyMap (f := fun x => .ok (Real.exp (x - m))) ?_ (pyMap_ok (g := fun x => Real.exp (x - m)) (fun _ _ => rfl))
    intro x z hz
    cases hz
    rw [exact_sub, Py.ok_bind, exact_exp]
    rfl

/-! ### Examples -/

/-- Log-likelihoods of which the exponentials overflow and one which is `-inf`, in integer arithmetic. -/
theorem exFloor : Spec.FloatRun floorArith [⊥, 950, 990] [2, 3, 1] none 1 where
  nonempty := by simp
  length := rfl
  pos := by simp
  one_le := le_rfl
  count := by show (4 : ℕ) ≤ 1000; norm_num
  draws := by simp
  floats := by
    intro l hl
    simp only [List.mem_cons, List.not_mem_nil, or_false] at hl
    rcases hl with rfl | rfl | rfl
    · exact floorArith.rnd_bot
    · exact floorRound_int (k := 950) (by norm_num)
    · exact floorRound_int (k := 990) (by norm_num)
  finite := by
    have e : floorArith.maxFinite = 1000 := rfl
    intro l hl hb
    simp only [List.mem_cons, List.not_mem_nil, or_false] at hl
    rcases hl with rfl | rfl | rfl
    · exact absurd rfl hb
    · exact ⟨950, rfl, by rw [e]; norm_num⟩
    · exact ⟨990, rfl, by rw [e]; norm_num⟩
  last := by
    intro l hl
    have : (990 : EReal) = l := by simpa using hl
    rw [← this]
    exact EReal.coe_ne_bot (990 : ℝ)

/-- With draws, without rounding. -/
example : Spec.FloatRun exactArith [-5, 1000, 10000] [2, 3, 1] (some [1, ((Real.exp (-1) : ℝ) : EReal), ((Real.exp (-2) : ℝ) : EReal)]) 2 where
  nonempty := by simp
  length := rfl
  pos := by simp
  one_le := by norm_num
  count := by show (7 : ℕ) ≤ 2 ^ 53; norm_num
  draws := by
    have key : ∀ x : ℝ, 0 ≤ x → x ≤ 2 → 0 ≤ ((Real.exp (-x) : ℝ) : EReal) ∧ ((Real.exp (-x) : ℝ) : EReal) ≤ 1 ∧
        ((-((2 : ℕ) : ℝ) : ℝ) : EReal) ≤ exactArith.log ((Real.exp (-x) : ℝ) : EReal) := by
      intro x h0 h2
      have : exactArith.log ((Real.exp (-x) : ℝ) : EReal) = ((-x : ℝ) : EReal) := by
        have := erealLog_coe (Real.exp_pos (-x))
        rwa [Real.log_exp] at this
      rw [this]
      refine ⟨by exact_mod_cast (Real.exp_pos _).le, by exact_mod_cast Real.exp_le_one_iff.mpr (by linarith), ?_⟩
      rw [EReal.coe_le_coe_iff]
      push_cast
      linarith
    intro u hu
    simp only [Option.mem_def, Option.some.injEq] at hu
    subst hu
    refine ⟨rfl, ?_⟩
    intro u hu
    simp only [List.mem_cons, List.not_mem_nil, or_false] at hu
    rcases hu with rfl | rfl | rfl
    · simpa using key 0 le_rfl (by norm_num)
    · exact key 1 (by norm_num) (by norm_num)
    · exact key 2 (by norm_num) le_rfl
  floats := fun _ _ => rfl
  finite := by
    have e : exactArith.maxFinite = 10 ^ 100 := rfl
    intro l hl _
    simp only [List.mem_cons, List.not_mem_nil, or_false] at hl
    rcases hl with rfl | rfl | rfl
    · exact ⟨-5, rfl, by rw [e]; norm_num⟩
    · exact ⟨1000, rfl, by rw [e]; norm_num⟩
    · exact ⟨10000, rfl, by rw [e]; norm_num⟩
  last := by
    intro l hl
    have : (10000 : EReal) = l := by simpa using hl
    rw [← this]
    exact EReal.coe_ne_bot (10000 : ℝ)

/-- Two points of log-likelihood `-inf`. -/
example : flLogz floorArith [⊥, ⊥] [2, 1] none = .ok ⊥ :=
  (C79_all_minus_inf (L := 1) ⟨by simp, rfl, by simp, le_rfl, by show (3 : ℕ) ≤ 1000; norm_num, by simp⟩ (by simp)).1

/-- A draw of 0 for the first point of three. -/
example : flLogw floorArith [1, 2, 3] [2, 2, 1] (some [0, 1, 1]) = .error .undefined :=
  C79_zero_draw rfl rfl (by simp) (by simp) (i := 0) (by simp) rfl

end
end Nestcheck
