import Verif.Proofs.Births
import Verif.Props.Kde

/-! Data handed to fgivenx (C51) and the relative posterior mass (C52). -/

namespace Nestcheck
open Spec

noncomputable section
variable {σ : Type}

/-! ### Rows of samples (C51) -/

/-- Two lists of the same length in alternation. -/
def Spec.interleave {α : Type} : List α → List α → List α
  | a :: f, b :: w => a :: b :: interleave f w
  | _, _ => []

theorem assignAt_shift {α : Type} (a b : α) (l : List α) (inds : List Nat) (vals : List α) :
    assignAt (a :: b :: l) (inds.map (· + 2)) vals = a :: b :: assignAt l inds vals := by
  unfold assignAt
  induction inds generalizing l vals with
  | nil => rfl
  | cons i inds ih =>
    cases vals with
    | nil => rfl
    | cons v vals =>
      simp only [List.map_cons, List.zip_cons_cons, List.foldl_cons, List.set_cons_succ]
      exact ih _ _

theorem assignAt_cons {α : Type} (xs : List α) (i : Nat) (inds : List Nat) (v : α) (vals : List α) :
    assignAt xs (i :: inds) (v :: vals) = assignAt (xs.set i v) inds vals := rfl

theorem packRow_eq {len : Nat} {f w : List Cell} (h : f.length = w.length) (hlen : 2 * f.length ≤ len) :
    packRow len f w = interleave f w ++ List.replicate (len - 2 * f.length) none := by
  unfold packRow
  induction f generalizing w len with
  | nil =>
    have hw : w = [] := List.length_eq_zero_iff.mp h.symm
    subst hw
    simp [interleave, assignAt]
  | cons a f ih =>
    obtain ⟨b, w, rfl⟩ : ∃ b w', w = b :: w' := by
      cases w with
      | nil => simp at h
      | cons b w => exact ⟨b, w, rfl⟩
    have hl : f.length = w.length := by simpa using h
    obtain ⟨len, rfl⟩ : ∃ n, len = n + 2 := ⟨len - 2, by simp only [List.length_cons] at hlen; omega⟩
    have ih' := ih (len := len) hl (by simp only [List.length_cons] at hlen; omega)
    rw [List.length_cons, List.length_cons, List.range_succ_eq_map, List.map_cons, List.map_map, List.replicate_succ,
      List.replicate_succ, assignAt_cons, List.range_succ_eq_map, List.map_cons, List.map_map, assignAt_cons]
    rw [show ((fun x : Nat => 2 * x) ∘ Nat.succ) = (· + 2) ∘ (fun x => 2 * x) from funext fun n => by
        simp only [Function.comp_apply]; omega,
      show ((fun i : Nat => 2 * i + 1) ∘ Nat.succ) = (· + 2) ∘ (fun i => 2 * i + 1) from funext fun n => by
        simp only [Function.comp_apply]; omega, ← List.map_map, ← List.map_map]
    simp only [Nat.mul_zero, List.set_cons_zero, assignAt_shift, Nat.zero_add, List.set_cons_succ]
    rw [ih']
    simp only [interleave, List.cons_append]
    rw [show len + 2 - 2 * (f.length + 1) = len - 2 * f.length by omega]

theorem everySecond_cons {α : Type} (b : α) (l : List α) : everySecond (b :: l) = b :: everySecond (l.drop 1) := by
  cases l <;> rfl

theorem everySecond_interleave {α : Type} {f w : List α} (h : f.length = w.length) :
    everySecond (interleave f w) = f ∧ everySecond ((interleave f w).drop 1) = w := by
  induction f generalizing w with
  | nil =>
    have hw : w = [] := List.length_eq_zero_iff.mp h.symm
    subst hw
    exact ⟨rfl, rfl⟩
  | cons a f ih =>
    cases w with
    | nil => simp at h
    | cons b w =>
      obtain ⟨h1, h2⟩ := ih (w := w) (by simpa using h)
      constructor
      · rw [interleave, everySecond, h1]
      · rw [interleave, List.drop_one, List.tail_cons, everySecond_cons, h2]

theorem filterMap_interleave {f w : List ℝ} : (interleave (f.map some) (w.map some)).filterMap (fun c => c) = interleave f w := by
  induction f generalizing w with
  | nil => rfl
  | cons a f ih =>
    cases w with
    | nil => rfl
    | cons b w => simp only [List.map_cons, interleave, List.filterMap_cons, ih]

/-- C51: unpacking a padded row of values and weights gives back the two arrays, whatever the function they are
handed to, provided that no value is nan. -/
theorem C51_lossless {α β : Type} (func : α → List ℝ → List ℝ → β) (x : α) {f w : List ℝ}
    (h : f.length = w.length) {len : Nat} (hlen : 2 * f.length ≤ len) :
    alternateHelper func x (packRow len (f.map some) (w.map some)) = func x f w := by
  simp only [alternateHelper]
  rw [packRow_eq (by simpa using h) (by simpa using hlen), List.filterMap_append, filterMap_interleave]
  rw [show (List.replicate (len - 2 * (f.map some).length) (none : Option ℝ)).filterMap (fun c => c) = [] from by simp,
    List.append_nil, (everySecond_interleave h).1, (everySecond_interleave h).2]

theorem length_everySecond {α : Type} (l : List α) :
    (everySecond l).length = (l.length + 1) / 2 ∧ (everySecond (l.drop 1)).length = l.length / 2 := by
  induction l with
  | nil => simp [everySecond]
  | cons a l ih =>
    rw [everySecond_cons, List.length_cons, List.length_cons, ih.2, List.drop_one, List.tail_cons, ih.1]
    omega

theorem length_filterMap_interleave {f : List Cell} {w : List ℝ} (h : f.length = w.length) :
    ((interleave f (w.map some)).filterMap (fun c => c)).length + f.count none = 2 * f.length := by
  induction f generalizing w with
  | nil => rfl
  | cons a f ih =>
    cases w with
    | nil => simp at h
    | cons b w =>
      have := ih (w := w) (by simpa using h)
      cases a with
      | none => simp [interleave]; omega
      | some a => simp [interleave]; omega

/-- C51 fails with nan values: if their number is odd the kde is called with arrays of different lengths and
raises `AssertionError`. -/
theorem C51_nan {f : List Cell} {w : List ℝ} (h : f.length = w.length) {len : Nat} (hlen : 2 * f.length ≤ len)
    (hodd : f.count none % 2 = 1) (x : List ℝ) :
    alternateHelper weightedKde x (packRow len f (w.map some)) = .error .assertion := by
  simp only [alternateHelper]
  rw [packRow_eq (by simpa using h) (by simpa using hlen), List.filterMap_append]
  rw [show (List.replicate (len - 2 * f.length) (none : Option ℝ)).filterMap (fun c => c) = [] from by simp, List.append_nil]
  apply C50_lengths
  obtain ⟨h1, h2⟩ := length_everySecond ((interleave f (w.map some)).filterMap (fun c => c))
  have h3 := length_filterMap_interleave h
  rw [h1, h2]
  omega

/-- C51 fails with nan values: if their number is even, weights can be taken for values. -/
theorem C51_nan_even : alternateHelper (fun _ a b => (a, b)) () (packRow 4 [none, none] [some 1, some 2]) =
    (([1], [2]) : List ℝ × List ℝ) := rfl

theorem bsRow_ok {f : FTheta} {len : Nat} {b : List (List ℝ) × List ℝ} {row : List Cell} (h : bsRow f len b = .ok row) :
    ∃ v, f b.1 = .ok v ∧ v.length = b.1.length ∧ b.2.length = b.1.length ∧ row = packRow len v (b.2.map some) := by
  unfold bsRow fthetaValues at h
  cases hv : f b.1 with
  | error e => rw [hv] at h; simp [Py.error_bind] at h
  | ok v =>
    rw [hv, Py.ok_bind] at h
    by_cases h1 : v.length ≠ b.1.length
    · rw [if_pos h1, Py.error_bind] at h; cases h
    · rw [if_neg h1] at h
      change (if b.2.length ≠ b.1.length then (.error .value : Py (List Cell)) else _) = _ at h
      by_cases h2 : b.2.length ≠ b.1.length
      · rw [if_pos h2] at h; cases h
      · rw [if_neg h2] at h
        cases h
        exact ⟨v, rfl, not_not.mp h1, not_not.mp h2, rfl⟩

/-- C51: in the array of the bootstrap replications for a function without nan values, unpacking the row of a
replication gives the values of the function at its samples, and their weights, although the
replications have different numbers of samples. -/
theorem C51_rows {bs : List (List (List ℝ) × List ℝ)} {f : FTheta} {rows : List (List Cell)}
    (h : bsArray bs f = .ok rows) (hnan : ∀ b ∈ bs, ∀ v, f b.1 = .ok v → none ∉ v) :
    List.Forall₂ (fun b row => ∃ v : List ℝ, f b.1 = .ok (v.map some) ∧
      ∀ (α β : Type) (func : α → List ℝ → List ℝ → β) (x : α), alternateHelper func x row = func x v b.2) bs rows := by
  unfold bsArray at h
  cases hm : amax (bs.map (fun b => b.1.length)) with
  | none => rw [hm] at h; cases h
  | some m =>
    rw [hm] at h
    have hF := pyMap_forall₂ h
    have hmax : ∀ b ∈ bs, b.1.length ≤ m := fun b hb => (amax_eq_some.mp hm).2 _ (List.mem_map_of_mem (f := fun b => b.1.length) hb)
    clear h hm
    induction hF with
    | nil => exact .nil
    | @cons b row bs rows hb _ ih =>
      refine .cons ?_ (ih (fun c hc => hnan c (by simp [hc])) (fun c hc => hmax c (by simp [hc])))
      obtain ⟨v, hv, h1, h2, rfl⟩ := bsRow_ok hb
      have hno := hnan b (by simp) v hv
      obtain ⟨u, rfl⟩ : ∃ u : List ℝ, v = u.map some := by
        refine ⟨v.filterMap (fun c => c), ?_⟩
        clear hv h1 hb
        induction v with
        | nil => rfl
        | cons c v ihv =>
          cases c with
          | none => simp at hno
          | some c =>
            simp only [List.mem_cons, not_or] at hno
            rw [List.filterMap_cons]
            simp only [List.map_cons]
            rw [← ihv hno.2]
      refine ⟨u, hv, ?_⟩
      intro α β func x
      rw [List.length_map] at h1
      have := hmax b (by simp)
      exact C51_lossless func x (by omega) (by omega)

/-- Two replications, with one and with two samples. -/
example : bsArray [([[7]], [1]), ([[8], [9]], [2, 3])] (fun t => .ok (t.map List.head?)) =
    .ok [[some 7, some 1, none, none], [some 8, some 2, some 9, some 3]] := by
  simp [bsArray, amax, pyMap, bsRow, fthetaValues, packRow, assignAt, bind, Except.bind, pure, Except.pure,
    List.range_succ, List.replicate]

example : alternateHelper weightedKde [0] (packRow 6 [some 1, none, some 3] [some 1, some 1, some 1]) = .error .assertion :=
  C51_nan (w := [1, 1, 1]) rfl (by decide) (by simp) [0]

/-! ### The relative posterior mass (C52) -/

/-- The area under a line through points given by their coordinates, by the trapezium rule: negative for points
going from right to left. -/
def Spec.trapezium : List (ℝ × ℝ) → ℝ
  | p :: q :: ps => (q.1 - p.1) * (p.2 + q.2) / 2 + trapezium (q :: ps)
  | _ => 0

theorem trapz_eq {y x : List ℝ} (h : y.length = x.length) : trapz y x = trapezium (x.zip y) := by
  induction x generalizing y with
  | nil =>
    have : y = [] := List.length_eq_zero_iff.mp h
    subst this
    simp [trapz, diff, trapezium]
  | cons a x ih =>
    cases y with
    | nil => simp at h
    | cons b y =>
      cases x with
      | nil =>
        have : y = [] := List.length_eq_zero_iff.mp (by simpa using h)
        subst this
        simp [trapz, diff, trapezium]
      | cons a' x =>
        cases y with
        | nil => simp at h
        | cons b' y =>
          have := ih (y := b' :: y) (by simpa using h)
          simp only [List.zip_cons_cons, trapezium] at this ⊢
          rw [← this]
          simp only [trapz, diff, List.tail_cons, List.zipWith_cons_cons, List.drop_one, List.dropLast_cons_cons,
            List.sum_cons]
          ring

theorem trapezium_scale (c : ℝ) (ps : List (ℝ × ℝ)) :
    trapezium (ps.map (fun p => (p.1, c * p.2))) = c * trapezium ps := by
  induction ps with
  | nil => simp [trapezium]
  | cons p ps ih =>
    cases ps with
    | nil => simp [trapezium]
    | cons q ps =>
      simp only [List.map_cons, trapezium] at ih ⊢
      rw [ih]
      ring

theorem trapezium_neg (ps : List (ℝ × ℝ)) : trapezium (ps.map (fun p => (-p.1, p.2))) = -trapezium ps := by
  induction ps with
  | nil => simp [trapezium]
  | cons p ps ih =>
    cases ps with
    | nil => simp [trapezium]
    | cons q ps =>
      simp only [List.map_cons, trapezium] at ih ⊢
      rw [ih]
      ring

theorem trapezium_nonneg {ps : List (ℝ × ℝ)} (hs : ps.Pairwise (fun p q => p.1 ≤ q.1)) (hp : ∀ p ∈ ps, 0 ≤ p.2) :
    0 ≤ trapezium ps := by
  induction ps with
  | nil => simp [trapezium]
  | cons p ps ih =>
    cases ps with
    | nil => simp [trapezium]
    | cons q ps =>
      rw [trapezium]
      have h1 : p.1 ≤ q.1 := (List.pairwise_cons.mp hs).1 q (by simp)
      have h2 := ih (List.pairwise_cons.mp hs).2 (fun r hr => hp r (by simp [hr]))
      have := hp p (by simp)
      have := hp q (by simp)
      have : 0 ≤ (q.1 - p.1) * (p.2 + q.2) := mul_nonneg (by linarith) (by linarith)
      linarith

theorem trapezium_pos {ps : List (ℝ × ℝ)} (hs : ps.Pairwise (fun p q => p.1 ≤ q.1)) (hp : ∀ p ∈ ps, 0 < p.2)
    (hd : ∃ p ∈ ps, ∃ q ∈ ps, p.1 ≠ q.1) : 0 < trapezium ps := by
  induction ps with
  | nil => simp at hd
  | cons p ps ih =>
    cases ps with
    | nil =>
      obtain ⟨a, ha, b, hb, hab⟩ := hd
      simp only [List.mem_singleton] at ha hb
      exact absurd (by rw [ha, hb]) hab
    | cons q ps =>
      rw [trapezium]
      have h1 : p.1 ≤ q.1 := (List.pairwise_cons.mp hs).1 q (by simp)
      have hp1 := hp p (by simp)
      have hq1 := hp q (by simp)
      have h2 := trapezium_nonneg (List.pairwise_cons.mp hs).2 (fun r hr => (hp r (by simp [hr])).le)
      rcases h1.lt_or_eq with h1 | h1
      · have : 0 < (q.1 - p.1) * (p.2 + q.2) := mul_pos (by linarith) (by linarith)
        linarith
      · have := ih (List.pairwise_cons.mp hs).2 (fun r hr => hp r (by simp [hr])) (by
          obtain ⟨a, ha, b, hb, hab⟩ := hd
          rcases List.mem_cons.mp ha with ha' | ha'
          · rcases List.mem_cons.mp hb with hb' | hb'
            · exact absurd (by rw [ha', hb']) hab
            · exact ⟨q, by simp, b, hb', by rw [← h1, ← ha']; exact hab⟩
          · rcases List.mem_cons.mp hb with hb' | hb'
            · exact ⟨a, ha', q, by simp, by rw [← h1, ← hb']; exact hab⟩
            · exact ⟨a, ha', b, hb', hab⟩)
        rw [h1]
        simpa using this

theorem zip_map_pair {α β γ : Type} (l : List α) (f : α → β) (g : α → γ) :
    (l.map f).zip (l.map g) = l.map (fun a => (f a, g a)) := by
  rw [List.zip_map']

/-- The posterior mass per unit of logx at points of given logx and logl, without normalisation. -/
def Spec.massCurve (ps : List (ℝ × ℝ)) : List (ℝ × ℝ) := ps.map (fun p => (p.1, Real.exp (p.1 + p.2)))

theorem zip_unzip' {x l : List ℝ} (h : x.length = l.length) :
    (x.zip l).map Prod.fst = x ∧ (x.zip l).map Prod.snd = l :=
  ⟨List.map_fst_zip (by omega), List.map_snd_zip (by omega)⟩

/-- C52: for a line through different places, the result is the mass curve divided by its absolute area. -/
theorem C52_formula {logx logl : List ℝ} (hl : logx.length = logl.length)
    (ht : trapezium (massCurve (logx.zip logl)) ≠ 0) :
    relPosteriorMass logx logl =
      .ok ((logx.zip logl).map (fun p => Real.exp (p.1 + p.2) / |trapezium (massCurve (logx.zip logl))|)) := by
  have hne : logx.zip logl ≠ [] := by
    intro e
    rw [e] at ht
    simp [massCurve, trapezium] at ht
  unfold relPosteriorMass
  rw [if_neg (by simpa using hl), zipWith_zip]
  obtain ⟨m, -, -, hw⟩ := relWeights_ok (logw := (logx.zip logl).map (fun p => p.1 + p.2)) (by simpa using hne)
  rw [hw, Py.ok_bind, List.map_map]
  have harea : trapz ((logx.zip logl).map ((fun x => Real.exp (x - m)) ∘ fun p => p.1 + p.2)) logx =
      Real.exp (-m) * trapezium (massCurve (logx.zip logl)) := by
    rw [trapz_eq (by simp [hl])]
    conv_lhs => rw [← (zip_unzip' hl).1]
    rw [(zip_unzip' hl).1]
    rw [show logx.zip ((logx.zip logl).map ((fun x => Real.exp (x - m)) ∘ fun p => p.1 + p.2)) =
      (massCurve (logx.zip logl)).map (fun p => (p.1, Real.exp (-m) * p.2)) from ?_, trapezium_scale]
    conv_lhs => lhs; rw [← (zip_unzip' hl).1]
    rw [zip_map_pair, massCurve, List.map_map]
    apply List.map_congr_left
    intro p _
    simp only [Function.comp_apply]
    rw [← Real.exp_add]
    ring_nf
  rw [harea, pyMap_npDiv (by rw [abs_mul]; exact mul_ne_zero (by positivity) (by positivity)), List.map_map]
  congr 1
  apply List.map_congr_left
  intro p _
  simp only [Function.comp_apply]
  rw [abs_mul, abs_of_pos (Real.exp_pos _), sub_eq_add_neg, Real.exp_add, mul_comm (Real.exp (p.1 + p.2)),
    mul_div_mul_left _ _ (Real.exp_ne_zero _)]

theorem massCurve_area {logx logl : List ℝ} (hl : logx.length = logl.length)
    (hd : ∃ a ∈ logx, ∃ b ∈ logx, a ≠ b) :
    (logx.Pairwise (· ≤ ·) → 0 < trapezium (massCurve (logx.zip logl))) ∧
    (logx.Pairwise (· ≥ ·) → trapezium (massCurve (logx.zip logl)) < 0) := by
  have hfst : (massCurve (logx.zip logl)).map Prod.fst = logx := by
    unfold massCurve
    rw [List.map_map]
    exact (zip_unzip' hl).1
  have hpos : ∀ p ∈ massCurve (logx.zip logl), 0 < p.2 := by
    intro p hp
    obtain ⟨q, -, rfl⟩ := List.mem_map.mp hp
    exact Real.exp_pos _
  have hd' : ∃ p ∈ massCurve (logx.zip logl), ∃ q ∈ massCurve (logx.zip logl), p.1 ≠ q.1 := by
    obtain ⟨a, ha, b, hb, hab⟩ := hd
    rw [← hfst] at ha hb
    obtain ⟨p, hp, rfl⟩ := List.mem_map.mp ha
    obtain ⟨q, hq, rfl⟩ := List.mem_map.mp hb
    exact ⟨p, hp, q, hq, hab⟩
  constructor
  · intro hs
    rw [← hfst, List.pairwise_map] at hs
    exact trapezium_pos hs hpos hd'
  · intro hs
    rw [← hfst, List.pairwise_map] at hs
    have := trapezium_pos (ps := (massCurve (logx.zip logl)).map (fun p => (-p.1, p.2)))
      (by rw [List.pairwise_map]; exact hs.imp (fun h => neg_le_neg h))
      (by
        intro p hp
        obtain ⟨q, hq, rfl⟩ := List.mem_map.mp hp
        exact hpos q hq)
      (by
        obtain ⟨p, hp, q, hq, hpq⟩ := hd'
        exact ⟨_, List.mem_map_of_mem hp, _, List.mem_map_of_mem hq, fun e => hpq (neg_injective e)⟩)
    rw [trapezium_neg] at this
    linarith

/-- C52: for sorted logx (in either direction) which are not all equal, the result has one positive value
for each point, proportional to the prior volume times the likelihood, and the area
under it is one (minus one for descending logx). -/
theorem C52 {logx logl : List ℝ} (hl : logx.length = logl.length)
    (hs : logx.Pairwise (· ≤ ·) ∨ logx.Pairwise (· ≥ ·)) (hd : ∃ a ∈ logx, ∃ b ∈ logx, a ≠ b) :
    ∃ w : List ℝ, relPosteriorMass logx logl = .ok w ∧ w.length = logx.length ∧
      (∃ c : ℝ, 0 < c ∧ w = List.zipWith (fun x l => c * (Real.exp x * Real.exp l)) logx logl) ∧
      (logx.Pairwise (· ≤ ·) → trapezium (logx.zip w) = 1) ∧
      (logx.Pairwise (· ≥ ·) → trapezium (logx.zip w) = -1) := by
  obtain ⟨h1, h2⟩ := massCurve_area hl hd
  have ht : trapezium (massCurve (logx.zip logl)) ≠ 0 := by
    rcases hs with hs | hs
    · exact (h1 hs).ne'
    · exact (h2 hs).ne
  have harea : trapezium (logx.zip ((logx.zip logl).map (fun p => Real.exp (p.1 + p.2) /
      |trapezium (massCurve (logx.zip logl))|))) =
      |trapezium (massCurve (logx.zip logl))|⁻¹ * trapezium (massCurve (logx.zip logl)) := by
    rw [← trapezium_scale]
    congr 1
    conv_lhs => lhs; rw [← (zip_unzip' hl).1]
    rw [zip_map_pair, massCurve, List.map_map]
    apply List.map_congr_left
    intro p _
    simp only [Function.comp_apply]
    rw [div_eq_inv_mul]
  refine ⟨_, C52_formula hl ht, by simp [hl], ⟨|trapezium (massCurve (logx.zip logl))|⁻¹, by positivity, ?_⟩, ?_, ?_⟩
  · rw [zipWith_zip]
    apply List.map_congr_left
    intro p _
    rw [Real.exp_add, div_eq_inv_mul]
  · intro hs
    have h0 := h1 hs
    rw [harea, abs_of_pos h0, inv_mul_cancel₀ h0.ne']
  · intro hs
    have h0 := h2 hs
    rw [harea, abs_of_neg h0, inv_neg, neg_mul, inv_mul_cancel₀ h0.ne]

/-- C52: adding a constant to the likelihoods changes nothing. -/
theorem C52_shift (logx logl : List ℝ) (c : ℝ) :
    relPosteriorMass logx (logl.map (· + c)) = relPosteriorMass logx logl := by
  unfold relPosteriorMass
  rw [List.length_map]
  rw [show List.zipWith (· + ·) logx (logl.map (· + c)) = (List.zipWith (· + ·) logx logl).map (· + c) from by
    rw [List.zipWith_map_right, List.map_zipWith]
    congr 1
    funext a b
    ring]
  rw [relWeights_shift]

theorem trapezium_const {ps : List (ℝ × ℝ)} {a : ℝ} (h : ∀ p ∈ ps, p.1 = a) : trapezium ps = 0 := by
  induction ps with
  | nil => simp [trapezium]
  | cons p ps ih =>
    cases ps with
    | nil => simp [trapezium]
    | cons q ps =>
      rw [trapezium, ih (fun r hr => h r (by simp [hr])), h p (by simp), h q (by simp)]
      ring

/-- C52: if all logx are equal the result is not defined; for empty arrays `ValueError` is raised. -/
theorem C52_constant {logx logl : List ℝ} (hl : logx.length = logl.length) {a : ℝ} (h : ∀ x ∈ logx, x = a) :
    relPosteriorMass logx logl = .error (if logx = [] then .value else .undefined) := by
  unfold relPosteriorMass
  rw [if_neg (by simpa using hl)]
  by_cases hx : logx = []
  · subst hx
    rw [if_pos rfl]
    rfl
  · rw [if_neg hx]
    have hne : List.zipWith (· + ·) logx logl ≠ [] := by
      intro e
      have := congrArg List.length e
      rw [List.length_zipWith, ← hl, min_self] at this
      exact hx (List.length_eq_zero_iff.mp this)
    obtain ⟨m, -, -, hw⟩ := relWeights_ok hne
    rw [hw, Py.ok_bind]
    have h0 : trapz ((List.zipWith (· + ·) logx logl).map (fun x => Real.exp (x - m))) logx = 0 := by
      rw [trapz_eq (by simp [hl])]
      apply trapezium_const (a := a)
      intro p hp
      exact h _ (List.of_mem_zip hp).1
    rw [h0, abs_zero]
    exact pyMap_first_error (by simpa using hne) (fun a _ => if_pos rfl)

example := C52 (logx := [-3, -1, 0]) (logl := [5, 2, 1]) rfl (.inl (by norm_num)) ⟨-3, by simp, 0, by simp, by norm_num⟩

end
end Nestcheck
