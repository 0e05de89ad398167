import Verif.Model.RoundingMean
import Verif.Props.RoundingExamples

/-
C100: `param_mean` in rounded arithmetic is nan, infinite or finite depending on the infinite values of the
parameter and on the weights that underflow.
-/

namespace Nestcheck
noncomputable section
variable {F : FloatArith}

theorem FloatArith.rnd_top : F.rnd ⊤ = ⊤ := by
  have := F.rnd_neg ⊥
  rwa [F.rnd_bot, EReal.neg_bot] at this

theorem FloatArith.rnd_within {T : ℕ} (hT : T ≤ F.maxInt) {x : EReal} (h1 : ((-(T : ℝ) : ℝ) : EReal) ≤ x)
    (h2 : x ≤ ((T : ℝ) : EReal)) : ∃ y : ℝ, F.rnd x = y ∧ |y| ≤ T := by
  have a := F.rnd_mono h1
  have b := F.rnd_mono h2
  rw [F.rnd_natNeg hT] at a
  rw [F.rnd_nat hT] at b
  generalize F.rnd x = z at a b
  induction z with
  | bot => exact absurd a (not_le.mpr (EReal.bot_lt_coe _))
  | top => exact absurd b (not_le.mpr (EReal.coe_lt_top _))
  | coe y => exact ⟨y, rfl, abs_le.mpr ⟨EReal.coe_le_coe_iff.mp a, EReal.coe_le_coe_iff.mp b⟩⟩

/-- The outcome of adding numbers, given whether `inf` (`A`) and `-inf` (`B`) are among them: nan if both are, otherwise the
infinite one, or if there is none a number of size at most `T`. -/
structure Spec.Adds (A B : Prop) (T : ℕ) (r : Py EReal) : Prop where
  both : A → B → r = .error .undefined
  top : A → ¬ B → r = .ok ⊤
  bot : ¬ A → B → r = .ok ⊥
  finite : ¬ A → ¬ B → ∃ s : ℝ, r = .ok (s : EReal) ∧ |s| ≤ T

open Spec

theorem Spec.Adds.add {A B A' B' : Prop} {T T' : ℕ} {r r' : Py EReal} (h : Adds A B T r) (h' : Adds A' B' T' r')
    (hT : T + T' ≤ F.maxInt) :
    Adds (A ∨ A') (B ∨ B') (T + T') (do let a ← r; let b ← r'; flAdd F a b : Py EReal) := by
  have e1 : ∀ s : ℝ, flAdd F ⊤ s = .ok ⊤ := fun s => by
    unfold flAdd; simp [F.rnd_top]
  have e2 : ∀ s : ℝ, flAdd F ⊥ s = .ok ⊥ := fun s => by
    unfold flAdd; simp [F.rnd_bot]
  have e3 : ∀ s : ℝ, flAdd F s ⊤ = .ok ⊤ := fun s => by
    unfold flAdd; simp [F.rnd_top]
  have e4 : ∀ s : ℝ, flAdd F s ⊥ = .ok ⊥ := fun s => by
    unfold flAdd; simp [F.rnd_bot]
  have e5 : flAdd F ⊤ ⊤ = .ok ⊤ := by unfold flAdd; simp [F.rnd_top]
  have e6 : flAdd F ⊥ ⊥ = .ok ⊥ := by unfold flAdd; simp [F.rnd_bot]
  have e7 : flAdd F ⊤ ⊥ = .error .undefined := by unfold flAdd; simp
  have e8 : flAdd F ⊥ ⊤ = .error .undefined := by unfold flAdd; simp
  have b1 : ∀ f : EReal → Py EReal, ((.error .undefined : Py EReal) >>= f) = .error .undefined := fun _ => rfl
  by_cases hA : A <;> by_cases hB : B
  · rw [h.both hA hB]
    refine ⟨fun _ _ => rfl, fun _ h => absurd (Or.inl hB) h, fun h => absurd (Or.inl hA) h, fun h => absurd (Or.inl hA) h⟩
  · rw [h.top hA hB, Py.ok_bind]
    refine ⟨fun _ hb => ?_, fun _ hb => ?_, fun h => absurd (Or.inl hA) h, fun h => absurd (Or.inl hA) h⟩
    · have hB' := hb.resolve_left hB
      by_cases hA' : A'
      · rw [h'.both hA' hB', b1]
      · rw [h'.bot hA' hB', Py.ok_bind, e7]
    · rw [not_or] at hb
      by_cases hA' : A'
      · rw [h'.top hA' hb.2, Py.ok_bind, e5]
      · obtain ⟨s, hs, -⟩ := h'.finite hA' hb.2
        rw [hs, Py.ok_bind, e1]
  · rw [h.bot hA hB, Py.ok_bind]
    refine ⟨fun ha _ => ?_, fun _ h => absurd (Or.inl hB) h, fun ha _ => ?_, fun _ h => absurd (Or.inl hB) h⟩
    · have hA' := ha.resolve_left hA
      by_cases hB' : B'
      · rw [h'.both hA' hB', b1]
      · rw [h'.top hA' hB', Py.ok_bind, e8]
    · rw [not_or] at ha
      by_cases hB' : B'
      · rw [h'.bot ha.2 hB', Py.ok_bind, e6]
      · obtain ⟨s, hs, -⟩ := h'.finite ha.2 hB'
        rw [hs, Py.ok_bind, e2]
  · obtain ⟨s, hs, hsT⟩ := h.finite hA hB
    rw [hs, Py.ok_bind]
    refine ⟨fun ha hb => ?_, fun ha hb => ?_, fun ha hb => ?_, fun ha hb => ?_⟩
    · rw [h'.both (ha.resolve_left hA) (hb.resolve_left hB), b1]
    · rw [not_or] at hb
      rw [h'.top (ha.resolve_left hA) hb.2, Py.ok_bind, e3]
    · rw [not_or] at ha
      rw [h'.bot ha.2 (hb.resolve_left hB), Py.ok_bind, e4]
    · rw [not_or] at ha hb
      obtain ⟨s', hs', hsT'⟩ := h'.finite ha.2 hb.2
      rw [hs', Py.ok_bind, flAdd_ok' (EReal.coe_ne_top _) (EReal.coe_ne_top _)]
      have k1 := abs_le.mp hsT
      have k2 := abs_le.mp hsT'
      obtain ⟨y, hy, hyT⟩ := F.rnd_within hT (x := (s : EReal) + s')
        (by rw [← EReal.coe_add, EReal.coe_le_coe_iff]; push_cast; linarith)
        (by rw [← EReal.coe_add, EReal.coe_le_coe_iff]; push_cast; linarith)
      exact ⟨y, by rw [hy], hyT⟩

theorem flSumTree_adds {T : ℕ} {ps : List EReal} (hp : ∀ p ∈ ps, p = ⊤ ∨ p = ⊥ ∨ ∃ y : ℝ, p = y ∧ |y| ≤ T) (t : SumTree)
    (hl : t.leaves.length * T ≤ F.maxInt) :
    Adds (∃ i ∈ t.leaves, ps[i]? = some ⊤) (∃ i ∈ t.leaves, ps[i]? = some ⊥) (t.leaves.length * T) (flSumTree F ps t) := by
  induction t with
  | leaf i =>
    simp only [SumTree.leaves, List.mem_singleton, exists_eq_left, flSumTree, List.length_singleton, one_mul]
    cases h : ps[i]? with
    | none => exact ⟨fun h => by simp at h, fun h => by simp at h, fun _ h => by simp at h, fun _ _ => ⟨0, by simp, by simp⟩⟩
    | some p =>
      simp only [Option.some.injEq, Option.getD_some]
      rcases hp p (List.mem_of_getElem? h) with rfl | rfl | ⟨y, rfl, hy⟩
      · exact ⟨fun _ h => by simp at h, fun _ _ => rfl, fun h => absurd rfl h, fun h => absurd rfl h⟩
      · exact ⟨fun h => by simp at h, fun h => by simp at h, fun _ _ => rfl, fun _ h => absurd rfl h⟩
      · exact ⟨fun h => by simp at h, fun h => by simp at h, fun _ h => by simp at h, fun _ _ => ⟨y, rfl, hy⟩⟩
  | node l r ihl ihr =>
    simp only [SumTree.leaves, List.length_append, Nat.add_mul] at hl
    have := (ihl (by omega)).add (F := F) (ihr (by omega)) hl
    simpa only [SumTree.leaves, List.length_append, List.mem_append, or_and_right, exists_or, Nat.add_mul, flSumTree] using this

theorem flSum_adds {T : ℕ} {ps : List EReal} (hp : ∀ p ∈ ps, p = ⊤ ∨ p = ⊥ ∨ ∃ y : ℝ, p = y ∧ |y| ≤ T)
    (hl : ps.length * T ≤ F.maxInt) : Adds (⊤ ∈ ps) (⊥ ∈ ps) (ps.length * T) (flSum F ps) := by
  unfold flSum
  split
  case isTrue h => subst h; exact ⟨fun h => by simp at h, fun h => by simp at h, fun _ h => by simp at h, fun _ _ => ⟨0, by simp, by simp⟩⟩
  case isFalse h =>
    have hperm := F.tree_perm ps.length (by simpa using h)
    have hlen : (F.tree ps.length).leaves.length = ps.length := by simpa using hperm.length_eq
    have e : ∀ x : EReal, (∃ i ∈ (F.tree ps.length).leaves, ps[i]? = some x) ↔ x ∈ ps := fun x => by
      rw [List.mem_iff_getElem?]
      constructor
      · rintro ⟨i, -, hi⟩; exact ⟨i, hi⟩
      · rintro ⟨i, hi⟩
        obtain ⟨hlt, -⟩ := List.getElem?_eq_some_iff.mp hi
        exact ⟨i, hperm.mem_iff.mpr (by simpa using hlt), hi⟩
    have := flSumTree_adds (F := F) hp (F.tree ps.length) (by rw [hlen]; exact hl)
    rwa [hlen, e, e] at this

/-- The product of a weight and a value. -/
theorem flMul_weight {T : ℕ} (hT : T ≤ F.maxInt) {w x : EReal} (h0 : 0 ≤ w) (h1 : w ≤ 1)
    (hx : x = ⊤ ∨ x = ⊥ ∨ ∃ y : ℝ, x = y ∧ |y| ≤ T) :
    (w = 0 ∧ (x = ⊤ ∨ x = ⊥) → flMul F w x = .error .undefined) ∧
    (¬ (w = 0 ∧ (x = ⊤ ∨ x = ⊥)) → ∃ p, flMul F w x = .ok p ∧ (p = ⊤ ↔ x = ⊤) ∧ (p = ⊥ ↔ x = ⊥) ∧
      (p = ⊤ ∨ p = ⊥ ∨ ∃ y : ℝ, p = y ∧ |y| ≤ T)) := by
  have wt : w ≠ ⊤ := ne_top_of_le_ne_top (EReal.coe_ne_top 1) h1
  have wb : w ≠ ⊥ := ne_bot_of_coe_le (c := 0) (by simpa using h0)
  constructor
  · rintro h
    unfold flMul
    rw [if_pos (Or.inl h)]
  · intro h
    have hc : ¬ ((w = 0 ∧ (x = ⊤ ∨ x = ⊥)) ∨ ((w = ⊤ ∨ w = ⊥) ∧ x = 0)) := by
      rintro (h' | ⟨h' | h', -⟩)
      · exact h h'
      · exact wt h'
      · exact wb h'
    unfold flMul
    rw [if_neg hc]
    rcases hx with rfl | rfl | ⟨y, rfl, hy⟩
    · have hpos : 0 < w := lt_of_le_of_ne h0 (fun e => h ⟨e.symm, Or.inl rfl⟩)
      exact ⟨⊤, by rw [EReal.mul_top_of_pos hpos, F.rnd_top], by simp, by simp, Or.inl rfl⟩
    · have hpos : 0 < w := lt_of_le_of_ne h0 (fun e => h ⟨e.symm, Or.inr rfl⟩)
      exact ⟨⊥, by rw [EReal.mul_bot_of_pos hpos, F.rnd_bot], by simp, by simp, Or.inr (Or.inl rfl)⟩
    · lift w to ℝ using ⟨wt, wb⟩
      have a0 : 0 ≤ w := by exact_mod_cast h0
      have a1 : w ≤ 1 := by exact_mod_cast h1
      have hwy : |w * y| ≤ T := by
        rw [abs_mul, abs_of_nonneg a0]
        calc w * |y| ≤ 1 * |y| := mul_le_mul_of_nonneg_right a1 (abs_nonneg y)
          _ ≤ T := by rw [one_mul]; exact hy
      have k := abs_le.mp hwy
      obtain ⟨z, hz, hzT⟩ := F.rnd_within hT (x := (w : EReal) * y)
        (by rw [← EReal.coe_mul, EReal.coe_le_coe_iff]; exact k.1)
        (by rw [← EReal.coe_mul, EReal.coe_le_coe_iff]; exact k.2)
      exact ⟨z, by rw [hz], by simp, by simp, Or.inr (Or.inr ⟨z, rfl, hzT⟩)⟩

theorem products_ok {T : ℕ} (hT : T ≤ F.maxInt) : ∀ {ws xs : List EReal}, ws.length = xs.length → (∀ w ∈ ws, 0 ≤ w ∧ w ≤ 1) →
    (∀ x ∈ xs, x = ⊤ ∨ x = ⊥ ∨ ∃ y : ℝ, x = y ∧ |y| ≤ T) →
    (¬ ∃ a ∈ ws.zip xs, a.1 = 0 ∧ (a.2 = ⊤ ∨ a.2 = ⊥)) →
    ∃ ps, pyMap (fun a : EReal × EReal => flMul F a.1 a.2) (ws.zip xs) = .ok ps ∧ ps.length = xs.length ∧
      (⊤ ∈ ps ↔ ⊤ ∈ xs) ∧ (⊥ ∈ ps ↔ ⊥ ∈ xs) ∧ (∀ p ∈ ps, p = ⊤ ∨ p = ⊥ ∨ ∃ y : ℝ, p = y ∧ |y| ≤ T)
  | [], [], _, _, _, _ => ⟨[], rfl, rfl, by simp, by simp, by simp⟩
  | w :: ws, x :: xs, hl, hw, hx, hn => by
    have h01 := hw w (by simp)
    obtain ⟨p, hp, pt, pb, pr⟩ := (flMul_weight (F := F) hT h01.1 h01.2 (hx x (by simp))).2
      (fun h => hn ⟨(w, x), by simp, h⟩)
    obtain ⟨ps, hps, hpl, hpt, hpb, hpr⟩ := products_ok hT (by simpa using hl) (fun w h => hw w (by simp [h]))
      (fun x h => hx x (by simp [h])) (by rintro ⟨a, ha, h⟩; exact hn ⟨a, by simp [ha], h⟩)
    refine ⟨p :: ps, ?_, by simp [hpl], ?_, ?_, ?_⟩
    · rw [List.zip_cons_cons, pyMap]
      simp only [hp, hps]
      rfl
    · rw [List.mem_cons, List.mem_cons, hpt, eq_comm, pt, eq_comm (a := x)]
    · rw [List.mem_cons, List.mem_cons, hpb, eq_comm, pb, eq_comm (a := x)]
    · intro q hq
      rcases List.mem_cons.mp hq with rfl | hq
      · exact pr
      · exact hpr q hq

/-- C100: whether `param_mean` is nan, infinite or finite. -/
theorem C100_param_mean {logl : List EReal} {nlive : List Int} {us : Option (List EReal)} {L : Nat}
    (h : Spec.FloatRun F logl nlive us L) {xs : List EReal} (hl : xs.length = logl.length) {T : ℕ}
    (hx : ∀ x ∈ xs, x = ⊤ ∨ x = ⊥ ∨ ∃ y : ℝ, x = y ∧ |y| ≤ T) (hT : logl.length * T ≤ F.maxInt) :
    ∃ ws, flWRel F logl nlive us = .ok ws ∧
      ((∃ i : Nat, ws[i]? = some 0 ∧ (xs[i]? = some ⊤ ∨ xs[i]? = some ⊥)) →
        flParamMean F logl nlive us xs = .error .undefined) ∧
      ((¬ ∃ i : Nat, ws[i]? = some 0 ∧ (xs[i]? = some ⊤ ∨ xs[i]? = some ⊥)) →
        Adds (⊤ ∈ xs) (⊥ ∈ xs) (logl.length * T) (flParamMean F logl nlive us xs)) := by
  obtain ⟨ws, hws, hwl, hw01, hw1⟩ := C79_weights h
  have hc := h.count
  have hLn := Nat.le_mul_of_pos_left nlive.length h.one_le
  have hpos : 1 ≤ logl.length := by rw [h.length]; exact List.length_pos_iff.mpr h.nonempty
  have hn : ws.length ≤ F.maxInt := by rw [hwl, h.length]; omega
  have hTm : T ≤ F.maxInt := (Nat.le_mul_of_pos_left T hpos).trans hT
  have hlen : ws.length = xs.length := hwl.trans hl.symm
  have hmean : flParamMean F logl nlive us xs = flWeightedMean F ws xs := by
    unfold flWRel at hws
    obtain ⟨lw, hlw⟩ : ∃ lw, flLogw F logl nlive us = .ok lw := by
      cases e : flLogw F logl nlive us with
      | ok lw => exact ⟨lw, rfl⟩
      | error e' => rw [e] at hws; cases hws
    rw [hlw, Py.ok_bind] at hws
    unfold flParamMean
    rw [hlw, Py.ok_bind, hws, Py.ok_bind]
  have hwm : flWeightedMean F ws xs = (do
      let p ← pyMap (fun a : EReal × EReal => flMul F a.1 a.2) (ws.zip xs)
      let s ← flSum F p
      let t ← flSum F ws
      flQuot F s t : Py EReal) := by
    unfold flWeightedMean
    rw [if_neg (by simpa using hlen)]
  have hidx : (∃ i : Nat, ws[i]? = some 0 ∧ (xs[i]? = some ⊤ ∨ xs[i]? = some ⊥)) ↔
      ∃ a ∈ ws.zip xs, a.1 = 0 ∧ (a.2 = ⊤ ∨ a.2 = ⊥) := by
    constructor
    · rintro ⟨i, hi, hxi⟩
      rcases hxi with hxi | hxi
      · exact ⟨(0, ⊤), List.mem_iff_getElem?.mpr ⟨i, List.getElem?_zip_eq_some.mpr ⟨hi, hxi⟩⟩, rfl, Or.inl rfl⟩
      · exact ⟨(0, ⊥), List.mem_iff_getElem?.mpr ⟨i, List.getElem?_zip_eq_some.mpr ⟨hi, hxi⟩⟩, rfl, Or.inr rfl⟩
    · rintro ⟨⟨a, b⟩, ha, h0, hb⟩
      obtain ⟨i, hi⟩ := List.mem_iff_getElem?.mp ha
      obtain ⟨h1, h2⟩ := List.getElem?_zip_eq_some.mp hi
      simp only at h0 hb h1 h2
      rw [h0] at h1
      refine ⟨i, h1, ?_⟩
      rcases hb with rfl | rfl
      · exact Or.inl h2
      · exact Or.inr h2
  refine ⟨ws, hws, fun hz => ?_, fun hz => ?_⟩
  · rw [hmean, hwm]
    rw [hidx] at hz
    have : pyMap (fun a : EReal × EReal => flMul F a.1 a.2) (ws.zip xs) = .error .undefined := by
      apply pyMap_undefined
      · intro a _
        unfold flMul
        split
        · exact Or.inr rfl
        · exact Or.inl ⟨_, rfl⟩
      · obtain ⟨a, ha, h0⟩ := hz
        have := List.of_mem_zip (show (a.1, a.2) ∈ ws.zip xs from ha)
        exact ⟨a, ha, (flMul_weight hTm (hw01 _ this.1).1 (hw01 _ this.1).2 (hx _ this.2)).1 h0⟩
    rw [this]
    rfl
  · rw [hidx] at hz
    obtain ⟨ps, hps, hpl, hpt, hpb, hpr⟩ := products_ok hTm hlen hw01 hx hz
    rw [hmean, hwm, hps, Py.ok_bind]
    have ha := flSum_adds (F := F) hpr (by rw [hpl, hl]; exact hT)
    rw [hpt, hpb, hpl, hl] at ha
    obtain ⟨t, ht, t1, t2⟩ := flSum_ok (F := F) hw01 hw1 hn
    have tt : t ≠ ⊤ := ne_top_of_le_ne_top (EReal.coe_ne_top _) t2
    have tb : t ≠ ⊥ := ne_bot_of_coe_le (c := 1) (by simpa using t1)
    lift t to ℝ using ⟨tt, tb⟩
    have r1 : (1 : ℝ) ≤ t := by exact_mod_cast t1
    have tpos : (0 : EReal) < (t : EReal) := by exact_mod_cast (by linarith : (0 : ℝ) < t)
    have t0 : (t : EReal) ≠ 0 := tpos.ne'
    have q1 : flQuot F ⊤ t = .ok ⊤ := by
      unfold flQuot
      simp [t0, EReal.top_div_of_pos_ne_top tpos (EReal.coe_ne_top _), F.rnd_top]
    have q2 : flQuot F ⊥ t = .ok ⊥ := by
      unfold flQuot
      simp [t0, EReal.bot_div_of_pos_ne_top tpos (EReal.coe_ne_top _), F.rnd_bot]
    refine ⟨fun a b => ?_, fun a b => ?_, fun a b => ?_, fun a b => ?_⟩
    · rw [ha.both a b]; rfl
    · rw [ha.top a b, Py.ok_bind, ht, Py.ok_bind, q1]
    · rw [ha.bot a b, Py.ok_bind, ht, Py.ok_bind, q2]
    · obtain ⟨s, hs, hsT⟩ := ha.finite a b
      rw [hs, Py.ok_bind, ht, Py.ok_bind]
      unfold flQuot
      have hd : (s : EReal) / (t : EReal) = ((s / t : ℝ) : EReal) := (EReal.coe_div s t).symm
      have hst : |s / t| ≤ ((logl.length * T : ℕ) : ℝ) := by
        rw [abs_div, abs_of_pos (by linarith : (0 : ℝ) < t)]
        exact (div_le_self (abs_nonneg s) r1).trans hsT
      have k := abs_le.mp hst
      obtain ⟨y, hy, hyT⟩ := F.rnd_within hT (x := ((s / t : ℝ) : EReal))
        (EReal.coe_le_coe_iff.mpr k.1) (EReal.coe_le_coe_iff.mpr k.2)
      refine ⟨y, ?_, hyT⟩
      rw [if_neg (by simp [t0]), if_neg t0, hd, hy]

/-- C100: an infinite value of the parameter in a sample of log-likelihood `-inf` makes the mean nan, although the sample
has no weight. -/
theorem C100_minus_inf {logl : List EReal} {nlive : List Int} {us : Option (List EReal)} {L : Nat}
    (h : Spec.FloatRun F logl nlive us L) {xs : List EReal} (hl : xs.length = logl.length) {T : ℕ}
    (hx : ∀ x ∈ xs, x = ⊤ ∨ x = ⊥ ∨ ∃ y : ℝ, x = y ∧ |y| ≤ T) (hT : logl.length * T ≤ F.maxInt)
    {i : Nat} (hi : logl[i]? = some ⊥) (hi' : xs[i]? = some ⊤ ∨ xs[i]? = some ⊥) :
    flParamMean F logl nlive us xs = .error .undefined := by
  obtain ⟨ws, hws, h1, -⟩ := C100_param_mean h hl hx hT
  exact h1 ⟨i, C79_minus_inf h hws hi, hi'⟩

/-- C100.  An array of values which is not as long as the array of loglikelihoods, neither of length one, is an error. -/
theorem C100_length {logl : List EReal} {nlive : List Int} {us : Option (List EReal)} {L : Nat}
    (h : Spec.FloatRun F logl nlive us L) {xs : List EReal} (hl : xs.length ≠ logl.length) (_ : xs.length ≠ 1) (_ : logl.length ≠ 1) :
    flParamMean F logl nlive us xs = .error .value := by
  obtain ⟨ws, hws, hwl, -, -⟩ := C79_weights h
  have e : flParamMean F logl nlive us xs = (flWRel F logl nlive us).bind (fun w => flWeightedMean F w xs) := by
    unfold flParamMean flWRel
    cases flLogw F logl nlive us <;> rfl
  rw [e, hws]
  change flWeightedMean F ws xs = _
  unfold flWeightedMean
  rw [if_pos (by rw [hwl]; exact hl.symm)]

/-- The first sample has log-likelihood `-inf`: with finite values the mean is finite, with an infinite value of this sample nan. -/
example : (∃ y : ℝ, flParamMean floorArith [⊥, 950, 990] [2, 3, 1] none [3, -4, 5] = .ok (y : EReal) ∧ |y| ≤ (15 : ℕ)) ∧
    flParamMean floorArith [⊥, 950, 990] [2, 3, 1] none [⊤, -4, 5] = .error .undefined := by
  have key : ∀ a : EReal, a = ⊤ ∨ a = 3 → ∀ x ∈ [a, -4, 5], x = ⊤ ∨ x = ⊥ ∨ ∃ y : ℝ, x = y ∧ |y| ≤ (5 : ℕ) := by
    intro a ha x hx
    simp only [List.mem_cons, List.not_mem_nil, or_false] at hx
    rcases hx with rfl | rfl | rfl
    · rcases ha with rfl | rfl
      · exact Or.inl rfl
      · exact Or.inr (Or.inr ⟨3, rfl, by norm_num⟩)
    · exact Or.inr (Or.inr ⟨-4, (EReal.coe_neg 4).symm, by norm_num⟩)
    · exact Or.inr (Or.inr ⟨5, rfl, by norm_num⟩)
  have hT : [(⊥ : EReal), 950, 990].length * 5 ≤ floorArith.maxInt := by show (15 : ℕ) ≤ 1000; norm_num
  refine ⟨?_, C100_minus_inf exFloor rfl (key ⊤ (Or.inl rfl)) hT (i := 0) rfl (Or.inl rfl)⟩
  obtain ⟨ws, -, -, h⟩ := C100_param_mean (xs := [3, -4, 5]) exFloor rfl (key 3 (Or.inr rfl)) hT
  have fin : ∀ a : EReal, a = ⊤ ∨ a = ⊥ → a ∉ [(3 : EReal), -4, 5] := by
    intro a ha hm
    simp only [List.mem_cons, List.not_mem_nil, or_false] at hm
    rcases hm with rfl | rfl | rfl
    · exact ha.elim (EReal.coe_ne_top 3) (EReal.coe_ne_bot 3)
    · exact ha.elim (by rw [EReal.neg_eq_top_iff]; exact EReal.coe_ne_bot 4) (by rw [EReal.neg_eq_bot_iff]; exact EReal.coe_ne_top 4)
    · exact ha.elim (EReal.coe_ne_top 5) (EReal.coe_ne_bot 5)
  refine (h ?_).finite (fin ⊤ (Or.inl rfl)) (fin ⊥ (Or.inr rfl))
  rintro ⟨i, -, hi | hi⟩
  · exact fin ⊤ (Or.inl rfl) (List.mem_of_getElem? hi)
  · exact fin ⊥ (Or.inr rfl) (List.mem_of_getElem? hi)

end
end Nestcheck
