import Verif.Props.ErrorAnalysis
import Verif.Proofs.Quantile

/-! Bootstrap credible intervals (C39). -/

namespace Nestcheck
open Spec

noncomputable section
variable {σ : Type} (A : Argsort ℝ) (R : Rng σ ℝ)

/-- `q` is the quantile at `c` of the values `ys`: with the `n` values in ascending order,
the value number `k` (from 0) is at (k + 1/2) / n; between these points the quantile is
linear, outside it is constant. -/
def Spec.IsQuantile (ys : List ℝ) (c q : ℝ) : Prop :=
  ∃ s : List ℝ, s.Perm ys ∧ s.Pairwise (· ≤ ·) ∧
    (∀ a, s[0]? = some a → c * s.length ≤ 1 / 2 → q = a) ∧
    (∀ (k : Nat) (a b : ℝ), s[k]? = some a → s[k + 1]? = some b → (k : ℝ) + 1 / 2 ≤ c * s.length →
      c * s.length ≤ (k : ℝ) + 3 / 2 → q = a + (b - a) * (c * s.length - ((k : ℝ) + 1 / 2))) ∧
    ∀ (k : Nat) (a : ℝ), s[k]? = some a → k + 1 = s.length → (k : ℝ) + 1 / 2 ≤ c * s.length → q = a

theorem cdfPoints_get {n k : Nat} (h : k < n) : (cdfPoints n)[k]? = some (((k : ℝ) + 1 / 2) / n) := by
  unfold cdfPoints
  rw [List.getElem?_map, List.getElem?_range h]
  norm_num

theorem length_cdfPoints (n : Nat) : (cdfPoints n).length = n := by simp [cdfPoints]

theorem cdf_pairwise {s : List ℝ} :
    ((cdfPoints s.length).zip s).Pairwise (fun p q => p.1 < q.1) := by
  rw [List.pairwise_iff_getElem]
  intro i j hi hj hij
  rw [List.length_zip, length_cdfPoints, min_self] at hi hj
  rw [List.getElem_zip, List.getElem_zip]
  have h1 := cdfPoints_get hi
  have h2 := cdfPoints_get hj
  rw [List.getElem?_eq_getElem (by rw [length_cdfPoints]; exact hi), Option.some.injEq] at h1
  rw [List.getElem?_eq_getElem (by rw [length_cdfPoints]; exact hj), Option.some.injEq] at h2
  dsimp only
  rw [h1, h2]
  have : (0 : ℝ) < s.length := by exact_mod_cast (by omega : 0 < s.length)
  have : (i : ℝ) < j := by exact_mod_cast hij
  gcongr

theorem zip_get {s : List ℝ} {k : Nat} {a : ℝ} (h : s[k]? = some a) :
    ((cdfPoints s.length).zip s)[k]? = some (((k : ℝ) + 1 / 2) / s.length, a) := by
  have hk := (List.getElem?_eq_some_iff.mp h).1
  rw [List.getElem?_zip_eq_some]
  exact ⟨cdfPoints_get hk, h⟩

theorem split_two {α : Type} {l : List α} {k : Nat} {a b : α} (ha : l[k]? = some a) (hb : l[k + 1]? = some b) :
    l = l.take k ++ a :: b :: l.drop (k + 2) := by
  obtain ⟨h1, h1'⟩ := List.getElem?_eq_some_iff.mp ha
  obtain ⟨h2, h2'⟩ := List.getElem?_eq_some_iff.mp hb
  conv_lhs => rw [← List.take_append_drop k l]
  rw [List.drop_eq_getElem_cons h1, List.drop_eq_getElem_cons h2, h1', h2']

theorem interp_quantile {ys : List ℝ} (hne : ys ≠ []) (c : ℝ) :
    ∃ q, interp c (cdfPoints ys.length) (ys.insertionSort (· ≤ ·)) = .ok q ∧ IsQuantile ys c q := by
  have hp : (ys.insertionSort (· ≤ ·)).Perm ys := List.perm_insertionSort _ _
  have hs : (ys.insertionSort (· ≤ ·)).Pairwise (· ≤ ·) := List.pairwise_insertionSort _ _
  rw [← hp.length_eq]
  generalize hS : ys.insertionSort (· ≤ ·) = s at *
  have hsne : s ≠ [] := by
    rintro rfl
    exact hne hp.nil_eq.symm
  have hpos : (0 : ℝ) < s.length := by exact_mod_cast List.length_pos_of_ne_nil hsne
  have hinc := cdf_pairwise (s := s)
  have hget := fun {k : Nat} {a : ℝ} (h : s[k]? = some a) => zip_get h
  unfold interp
  rw [if_neg (by rw [length_cdfPoints]; simp)]
  have hzl : ((cdfPoints s.length).zip s).length = s.length := by
    rw [List.length_zip, length_cdfPoints, min_self]
  generalize (cdfPoints s.length).zip s = z at *
  cases z with
  | nil => exact absurd (List.length_eq_zero_iff.mp hzl.symm) hsne
  | cons p ps =>
    have conv : ∀ x : ℝ, x / s.length ≤ c ↔ x ≤ c * s.length := fun x => div_le_iff₀ hpos
    have conv' : ∀ x : ℝ, c ≤ x / s.length ↔ c * s.length ≤ x := fun x => le_div_iff₀ hpos
    have hp0 : ∀ a, s[0]? = some a → p = ((1 / 2 : ℝ) / (s.length : ℝ), a) := by
      intro a ha
      have := hget ha
      simp only [List.getElem?_cons_zero, Option.some.injEq] at this
      rw [this]
      norm_num
    have hfirst : ∀ (k : Nat) (a : ℝ), s[k]? = some a → (k : ℝ) + 1 / 2 ≤ c * s.length → ¬ c < p.1 := by
      intro k a ha hk
      have h0 := List.getElem?_eq_getElem (l := s) (i := 0) (List.length_pos_of_ne_nil hsne)
      rw [hp0 _ h0, not_lt, conv]
      have : (0 : ℝ) ≤ k := Nat.cast_nonneg k
      linarith
    refine ⟨_, rfl, s, hp, hs, ?_, ?_, ?_⟩
    · intro a ha hc
      have hpa := hp0 a ha
      by_cases hlt : c < p.1
      · rw [if_pos hlt, hpa]
      · rw [if_neg hlt]
        have hle : c ≤ p.1 := by rw [hpa, conv']; exact hc
        have heq : c = p.1 := le_antisymm hle (not_lt.mp hlt)
        cases ps with
        | nil => rw [interpFrom, hpa]
        | cons q qs =>
          rw [interpFrom, if_pos, if_pos heq, hpa]
          rw [heq]
          exact (List.pairwise_cons.mp hinc).1 q (by simp)
    · intro k a b ha hb h1 h2
      rw [if_neg (hfirst k a ha h1)]
      have hb' := hget hb
      push_cast at hb'
      rw [interpFrom_between (split_two (hget ha) hb') hinc ((conv _).mpr h1)
        ((conv' _).mpr (by linarith))]
      dsimp only
      congr 2
      field_simp
      ring
    · intro k a ha hk h1
      rw [if_neg (hfirst k a ha h1)]
      cases k with
      | zero =>
        have : ps = [] := List.length_eq_zero_iff.mp (by rw [List.length_cons] at hzl; omega)
        rw [this, interpFrom, hp0 a ha]
      | succ k =>
        have hg := hget ha
        have hl : (p :: ps)[k + 1]? = (p :: ps).getLast? := by
          rw [List.getLast?_eq_getElem?, hzl, ← hk]; rfl
        rw [hl] at hg
        obtain ⟨l, hl'⟩ := List.getLast?_eq_some_iff.mp hg
        cases l with
        | nil => rw [hl'] at hzl; simp at hzl; omega
        | cons p' l =>
          rw [List.cons_append, List.cons.injEq] at hl'
          rw [hl'.2]
          rw [hl'.2] at hinc
          rw [interpFrom_last hinc ((conv _).mpr h1)]

/-- Reflecting the values reflects the quantiles. -/
theorem IsQuantile_reflect {ys : List ℝ} {m c q : ℝ} (h : IsQuantile (ys.map (fun y => m - y)) (1 - c) q) :
    IsQuantile ys c (m - q) := by
  obtain ⟨s, hp, hs, h1, h2, h3⟩ := h
  have hget : ∀ (k : Nat) (a : ℝ), (s.map (fun y => m - y)).reverse[k]? = some a →
      k < s.length ∧ s[s.length - 1 - k]? = some (m - a) := by
    intro k a ha
    have hk : k < s.length := by
      have := (List.getElem?_eq_some_iff.mp ha).1
      simpa using this
    refine ⟨hk, ?_⟩
    rw [List.getElem?_reverse (by simpa using hk), List.length_map, List.getElem?_map,
      Option.map_eq_some_iff] at ha
    obtain ⟨x, hx, hxa⟩ := ha
    rw [hx, ← hxa]
    congr 1; ring
  have hl : (s.map (fun y => m - y)).reverse.length = s.length := by simp
  refine ⟨(s.map (fun y => m - y)).reverse, ?_, ?_, ?_, ?_, ?_⟩
  · refine (List.reverse_perm _).trans ?_
    have := hp.map (fun y => m - y)
    rw [List.map_map] at this
    refine this.trans (List.Perm.of_eq ?_)
    conv_rhs => rw [← List.map_id ys]
    refine List.map_congr_left fun y _ => ?_
    show m - (m - y) = y
    ring
  · rw [List.pairwise_reverse, List.pairwise_map]
    exact hs.imp fun hab => by linarith
  · rw [hl]
    intro a ha hc
    obtain ⟨hk, hx⟩ := hget 0 a ha
    have := h3 (s.length - 1 - 0) (m - a) hx (by omega) (by
      rw [Nat.sub_zero, Nat.cast_sub (by omega)]
      push_cast
      linarith)
    rw [this]; ring
  · rw [hl]
    intro k a b ha hb hc1 hc2
    obtain ⟨-, hx⟩ := hget k a ha
    obtain ⟨hk, hy⟩ := hget (k + 1) b hb
    have e : s.length - 1 - k = s.length - 1 - (k + 1) + 1 := by omega
    have hcast : ((s.length - 1 - (k + 1) : Nat) : ℝ) = s.length - 2 - k := by
      rw [Nat.cast_sub (by omega), Nat.cast_sub (by omega)]
      push_cast; ring
    rw [e] at hx
    have := h2 _ _ _ hy hx (by rw [hcast]; linarith) (by rw [hcast]; linarith)
    rw [this, hcast]
    ring
  · rw [hl]
    intro k a ha hk hc
    obtain ⟨-, hx⟩ := hget k a ha
    have hk0 : s.length - 1 - k = 0 := by omega
    rw [hk0] at hx
    have hkr : (k : ℝ) + 1 = s.length := by exact_mod_cast hk
    have := h1 (m - a) hx (by linarith)
    rw [this]; ring

/-- C39.  The bound of `run_ci_bootstrap` in terms of the bootstrap values (as returned
without `flip_skew`) and the estimate: without `flip_skew` it is twice the estimate less
the quantile at `1 - cred_int`; with `flip_skew` (the default) it is the quantile at
`cred_int` moved by twice the difference of estimate and mean. -/
theorem C39_formula {r : Run ℝ} {settings : Option Settings} {fs : List (EstFunc σ)} {c : ℝ} {n : Nat}
    {sep : Bool} {seeds : Option (List Seed)} {w w1 w2 : World σ} {vals : List (List (Option ℝ))}
    {ests : List (Option ℝ)} (hn : 0 < n)
    (hv : runBootstrapValues A R r settings fs n sep false seeds w = (.ok vals, w1))
    (he : runEstimators R r fs false w1 = (.ok ests, w2)) (flip : Bool) :
    ∃ out, runCiBootstrap A R r settings fs c n sep flip seeds w = (.ok out, w2) ∧ out.length = fs.length ∧
      ∀ (i : Nat) (t : ℝ) (ys : List ℝ), ests[i]? = some (some t) → vals[i]? = some (ys.map some) →
        ∃ q, (flip = false → IsQuantile ys (1 - c) q ∧ out[i]? = some (some (2 * t - q))) ∧
          (flip = true → IsQuantile ys c q ∧ out[i]? = some (some (2 * (t - average ys) + q))) := by
  obtain ⟨-, -, -, -, -, hvl, hrl, -⟩ := C61_values A R hv
  have hel := runEstimators_length R he
  have hval : runBootstrapValues A R r settings fs n sep flip seeds w =
      (.ok (if flip then vals.map flipRow else vals), w1) := by
    cases flip with
    | false => exact hv
    | true =>
      have key : runBootstrapValues A R r settings fs n sep true seeds =
          (runBootstrapValues A R r settings fs n sep false seeds >>= fun vals => pure (vals.map flipRow)) := by
        simp [runBootstrapValues]
      rw [key, M.bind_ok hv]
      rfl
  have hrows : ∀ row ∈ (if flip then vals.map flipRow else vals), row.length = n := by
    cases flip with
    | false => exact hrl
    | true =>
      intro row hr
      obtain ⟨row', hr', rfl⟩ := List.mem_map.mp hr
      simp [flipRow, hrl row' hr']
  have hlen : (if flip then vals.map flipRow else vals).length = ests.length := by
    cases flip <;> simp [hvl, hel]
  have hci : ∀ (e : Option ℝ) (row : List (Option ℝ)), row.length = n → ∃ v, ciValue c e row = .ok v := by
    intro e row hr
    unfold ciValue
    cases hno : noNan row with
    | none => exact ⟨none, rfl⟩
    | some ys =>
      have hys : ys ≠ [] := by
        rintro rfl
        rw [noNan_eq_some.mp hno] at hr
        simp at hr; omega
      obtain ⟨q, hq, -⟩ := interp_quantile hys (1 - c)
      exact ⟨e.map (fun e => e * 2 - q), by dsimp only; rw [hq]; rfl⟩
  have hmap : ∀ ps : List (Option ℝ × List (Option ℝ)), (∀ p ∈ ps, p.2.length = n) →
      ∃ out, pyMap (fun p : Option ℝ × List (Option ℝ) => ciValue c p.1 p.2) ps = .ok out ∧
        List.Forall₂ (fun p v => ciValue c p.1 p.2 = .ok v) ps out := by
    intro ps
    induction ps with
    | nil => exact fun _ => ⟨[], rfl, .nil⟩
    | cons p ps ih =>
      intro hps
      obtain ⟨v, hv⟩ := hci p.1 p.2 (hps p (by simp))
      obtain ⟨out, h1, h2⟩ := ih fun q hq => hps q (by simp [hq])
      refine ⟨v :: out, ?_, .cons hv h2⟩
      rw [pyMap, hv, Py.ok_bind, h1]
      rfl
  obtain ⟨out, h1, h2⟩ := hmap (ests.zip (if flip then vals.map flipRow else vals)) (by
    intro p hp
    exact hrows _ (List.of_mem_zip hp).2)
  have hol : out.length = ests.length := by
    rw [← h2.length_eq, List.length_zip, hlen, min_self]
  refine ⟨out, ?_, by rw [hol, hel], ?_⟩
  · unfold runCiBootstrap
    rw [M.bind_ok hval, M.bind_ok he, M.lift_apply, h1]
  · intro i t ys ht hy
    have hi : i < ests.length := (List.getElem?_eq_some_iff.mp ht).1
    have hys : ys ≠ [] := by
      rintro rfl
      have := hrl _ (List.mem_of_getElem? hy)
      simp at this; omega
    have hval : ∀ row, (if flip then vals.map flipRow else vals)[i]? = some row →
        ∃ v, out[i]? = some v ∧ ciValue c (some t) row = .ok v := by
      intro row hrow
      have hz : (ests.zip (if flip then vals.map flipRow else vals))[i]? = some (some t, row) := by
        rw [List.getElem?_zip_eq_some]
        exact ⟨ht, hrow⟩
      obtain ⟨hzi, hzg⟩ := List.getElem?_eq_some_iff.mp hz
      have := (List.forall₂_iff_get.mp h2).2 i hzi (by omega)
      refine ⟨out[i], List.getElem?_eq_getElem (by omega), ?_⟩
      rw [List.get_eq_getElem, hzg] at this
      exact this
    have hcv : ∀ zs : List ℝ, zs ≠ [] → ∃ q, IsQuantile zs (1 - c) q ∧
        ciValue c (some t) (zs.map some) = .ok (some (2 * t - q)) := by
      intro zs hzs
      obtain ⟨q, hq1, hq2⟩ := interp_quantile hzs (1 - c)
      refine ⟨q, hq2, ?_⟩
      unfold ciValue
      rw [noNan_map_some]
      dsimp only
      rw [hq1]
      show Except.ok (some (t * 2 - q)) = _
      rw [mul_comm]
    cases flip with
    | false =>
      obtain ⟨v, hv1, hv2⟩ := hval _ hy
      obtain ⟨q, hq1, hq2⟩ := hcv ys hys
      refine ⟨q, fun _ => ⟨hq1, ?_⟩, by simp⟩
      rw [hq2] at hv2
      rw [hv1]
      cases hv2; rfl
    | true =>
      obtain ⟨v, hv1, hv2⟩ := hval ((ys.map (fun y => 2 * average ys - y)).map some) (by
        rw [if_pos rfl, List.getElem?_map, hy, Option.map_some, flipRow_some hys])
      obtain ⟨q, hq1, hq2⟩ := hcv (ys.map (fun y => 2 * average ys - y)) (by simpa using hys)
      refine ⟨2 * average ys - q, by simp, fun _ => ⟨IsQuantile_reflect hq1, ?_⟩⟩
      rw [hq2] at hv2
      rw [hv1]
      cases hv2
      congr 2; ring

theorem interp_mono {s : List ℝ} (hs : s.Pairwise (· ≤ ·)) {x y a : ℝ} (hxy : x ≤ y)
    (h : interp x (cdfPoints s.length) s = .ok a) :
    ∃ b, interp y (cdfPoints s.length) s = .ok b ∧ a ≤ b := by
  unfold interp at h ⊢
  rw [if_neg (by rw [length_cdfPoints]; simp)] at h ⊢
  have h1 := cdf_pairwise (s := s)
  have h2 : ((cdfPoints s.length).zip s).Pairwise (fun p q => p.2 ≤ q.2) := by
    rw [List.pairwise_iff_getElem] at hs ⊢
    intro i j hi hj hij
    rw [List.getElem_zip, List.getElem_zip]
    exact hs _ _ _ _ hij
  generalize (cdfPoints s.length).zip s = z at *
  cases z with
  | nil => cases h
  | cons p ps =>
    dsimp only at h ⊢
    have hasc : Ascending (p :: ps) := (h1.and h2).imp fun hab => ⟨hab.1.le, hab.2⟩
    refine ⟨_, rfl, ?_⟩
    cases h
    by_cases hy : y < p.1
    · rw [if_pos hy, if_pos (hxy.trans_lt hy)]
    · rw [if_neg hy]
      by_cases hx : x < p.1
      · rw [if_pos hx]
        exact (interpFrom_bounds hasc (not_lt.mp hy)).1
      · rw [if_neg hx]
        exact interpFrom_mono hasc (not_lt.mp hx) hxy

theorem ciValue_mono {c c' : ℝ} (h : c ≤ c') {e : Option ℝ} {row : List (Option ℝ)} {v : Option ℝ}
    (hv : ciValue c e row = .ok v) : ∃ v', ciValue c' e row = .ok v' ∧
      (v = none ∧ v' = none ∨ ∃ x y, v = some x ∧ v' = some y ∧ x ≤ y) := by
  unfold ciValue at hv ⊢
  cases hno : noNan row with
  | none =>
    rw [hno] at hv
    cases hv
    exact ⟨none, rfl, .inl ⟨rfl, rfl⟩⟩
  | some ys =>
    rw [hno] at hv
    dsimp only at hv ⊢
    have hl : (ys.insertionSort (· ≤ ·)).length = ys.length := (List.perm_insertionSort _ _).length_eq
    rw [← hl] at hv ⊢
    have hys : ys ≠ [] := by
      rintro rfl
      simp [interp, cdfPoints] at hv
    obtain ⟨q', hq', -⟩ := interp_quantile hys (1 - c')
    rw [← hl] at hq'
    obtain ⟨q, hq, hle⟩ := interp_mono (List.pairwise_insertionSort (· ≤ ·) ys) (sub_le_sub_left h 1) hq'
    rw [hq, Py.ok_bind] at hv
    rw [hq', Py.ok_bind]
    cases hv
    refine ⟨_, rfl, ?_⟩
    cases e with
    | none => exact .inl ⟨rfl, rfl⟩
    | some t => exact .inr ⟨_, _, rfl, rfl, by linarith⟩

/-- C39.  `run_ci_bootstrap` is nondecreasing in `cred_int`: a call with a larger one also
returns, with the same effects, and no bound is lower (nan stays nan). -/
theorem C39_monotone {r : Run ℝ} {settings : Option Settings} {fs : List (EstFunc σ)} {c c' : ℝ} {n : Nat}
    {sep flip : Bool} {seeds : Option (List Seed)} {w w' : World σ} {out : List (Option ℝ)} (h : c ≤ c')
    (hc : runCiBootstrap A R r settings fs c n sep flip seeds w = (.ok out, w')) :
    ∃ out', runCiBootstrap A R r settings fs c' n sep flip seeds w = (.ok out', w') ∧
      List.Forall₂ (fun v v' => v = none ∧ v' = none ∨ ∃ x y, v = some x ∧ v' = some y ∧ x ≤ y) out out' := by
  unfold runCiBootstrap at hc ⊢
  obtain ⟨vals, w1, h1, hc⟩ := M.bind_eq_ok.mp hc
  obtain ⟨ests, w2, h2, hc⟩ := M.bind_eq_ok.mp hc
  rw [M.lift_apply] at hc
  have hmap : ∀ (ps : List (Option ℝ × List (Option ℝ))) (out : List (Option ℝ)),
      pyMap (fun p : Option ℝ × List (Option ℝ) => ciValue c p.1 p.2) ps = .ok out →
      ∃ out', pyMap (fun p : Option ℝ × List (Option ℝ) => ciValue c' p.1 p.2) ps = .ok out' ∧
        List.Forall₂ (fun v v' => v = none ∧ v' = none ∨ ∃ x y, v = some x ∧ v' = some y ∧ x ≤ y) out out' := by
    intro ps
    induction ps with
    | nil =>
      intro out h
      cases h
      exact ⟨[], rfl, .nil⟩
    | cons p ps ih =>
      intro out h
      rw [pyMap] at h
      cases hv : ciValue c p.1 p.2 with
      | error e => rw [hv, Py.error_bind] at h; cases h
      | ok v =>
        rw [hv, Py.ok_bind] at h
        cases hvs : pyMap (fun p : Option ℝ × List (Option ℝ) => ciValue c p.1 p.2) ps with
        | error e => rw [hvs, Py.error_bind] at h; cases h
        | ok vs =>
          rw [hvs, Py.ok_bind] at h
          cases h
          obtain ⟨v', hv1, hv2⟩ := ciValue_mono ‹c ≤ c'› hv
          obtain ⟨vs', hvs1, hvs2⟩ := ih vs hvs
          refine ⟨v' :: vs', ?_, .cons hv2 hvs2⟩
          rw [pyMap, hv1, Py.ok_bind, hvs1]
          rfl
  obtain ⟨out', e1, e2⟩ := hmap _ out (congrArg Prod.fst hc)
  refine ⟨out', ?_, e2⟩
  rw [M.bind_ok h1, M.bind_ok h2, M.lift_apply, e1, ← show w2 = w' from congrArg Prod.snd hc]

/-- The quantile of 4, 1, 3 at 1/2 is 3, and at 1/3 it is 2. -/
example : IsQuantile [4, 1, 3] (1 / 2) 3 ∧ IsQuantile [4, 1, 3] (1 / 3) 2 ∧ ¬ IsQuantile [4, 1, 3] (1 / 2) 4 := by
  have hp : [(1 : ℝ), 3, 4].Perm [4, 1, 3] := by
    refine List.Perm.symm ((List.Perm.swap 1 4 [3]).trans (.cons 1 (List.Perm.swap 3 4 [])))
  have hs : [(1 : ℝ), 3, 4].Pairwise (· ≤ ·) := by norm_num
  refine ⟨⟨[1, 3, 4], hp, hs, ?_, ?_, ?_⟩, ⟨[1, 3, 4], hp, hs, ?_, ?_, ?_⟩, ?_⟩
  · norm_num
  · intro k a b ha hb h1 h2
    have hk : k + 1 < 3 := (List.getElem?_eq_some_iff.mp hb).1
    have hk2 : k < 2 := by omega
    interval_cases k
    · norm_num at h1 h2
      simp only [List.getElem?_cons_zero, List.getElem?_cons_succ, Option.some.injEq, zero_add] at ha hb
      rw [← ha, ← hb]; norm_num
    · norm_num at h1 h2
      simp only [List.getElem?_cons_zero, List.getElem?_cons_succ, Option.some.injEq, zero_add] at ha hb
      rw [← ha, ← hb]; norm_num
  · intro k a ha hk h1
    have : k = 2 := by simpa using hk
    rw [this] at h1
    norm_num at h1
  · norm_num
  · intro k a b ha hb h1 h2
    have hk : k + 1 < 3 := (List.getElem?_eq_some_iff.mp hb).1
    have hk2 : k < 2 := by omega
    interval_cases k
    · simp only [List.getElem?_cons_zero, List.getElem?_cons_succ, Option.some.injEq] at ha hb
      rw [← ha, ← hb]; norm_num
    · norm_num at h1
  · intro k a ha hk h1
    have : k = 2 := by simpa using hk
    rw [this] at h1
    norm_num at h1
  · rintro ⟨s, hp', hs', -, h2, -⟩
    have : s = [1, 3, 4] := (hp'.trans hp.symm).eq_of_pairwise (fun a b _ _ => le_antisymm) hs' hs
    rw [this] at h2
    have := h2 1 3 4 rfl rfl (by norm_num) (by norm_num)
    norm_num at this

end
end Nestcheck
