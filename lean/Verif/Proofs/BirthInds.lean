import Verif.Proofs.Births

/-
birth_inds_given_contours: outcome of a whole call.
-/

set_option linter.unusedSectionVars false

namespace Nestcheck
variable {σ K : Type} [CommRing K] [LinearOrder K] (R : Rng σ K)

theorem zip_range_mem {α : Type} {xs : List α} {p : Nat × α}
    (h : p ∈ (List.range xs.length).zip xs) : xs[p.1]? = some p.2 := by
  obtain ⟨k, hk⟩ := List.mem_iff_getElem?.mp h
  rw [List.getElem?_zip_eq_some] at hk
  obtain ⟨h1, h2⟩ := hk
  have := (List.getElem?_eq_some_iff.mp h1).2
  simp at this
  rw [← this]; exact h2

theorem zip_all_le {births logls : List K} :
    (births.zip logls).all (fun p => decide (p.1 ≤ p.2)) = true ↔
      ∀ (i : Nat) (x y : K), births[i]? = some x → logls[i]? = some y → x ≤ y := by
  rw [List.all_eq_true]
  constructor
  · intro h i x y hx hy
    have := h (x, y) (List.mem_of_getElem? (i := i) (List.getElem?_zip_eq_some.mpr ⟨hx, hy⟩))
    simpa using this
  · intro h p hp
    obtain ⟨k, hk⟩ := List.mem_iff_getElem?.mp hp
    obtain ⟨h1, h2⟩ := List.getElem?_zip_eq_some.mp hk
    simpa using h k _ _ h1 h2

/-- The initial array satisfies the invariant. -/
theorem birthInv_init (births logls : List K) (init : K) :
    BirthInv births logls init (births.map (fun b => if b = init then some (-1 : Int) else none)) := by
  have hg : ∀ (i : Nat) (bl : K), births[i]? = some bl →
      (births.map (fun b => if b = init then some (-1 : Int) else none))[i]? =
        some (if bl = init then some (-1) else none) := by
    intro i bl h; rw [List.getElem?_map, h]; rfl
  refine ⟨by simp, ?_, ?_, ?_, ?_⟩
  · intro i h; rw [hg i _ h]; simp
  · intro i bl v h hne hv; rw [hg i _ h] at hv; simp [hne] at hv
  · intro i j bl h1 h2 hne _ _; rw [hg j _ h2]; simp [hne]
  · intro i j bl v _ h1 _ hne _ hv; rw [hg i _ h1] at hv; simp [hne] at hv

/-- What the returned array of birth indexes satisfies if no warning was issued. -/
structure BirthIndsSpec (births logls : List K) (init : K) (b : List Int) : Prop where
  init_val : ∀ i : Nat, births[i]? = some init → b[i]? = some (-1)
  val : ∀ (i : Nat) (bl : K) (v : Int), births[i]? = some bl → bl ≠ init → b[i]? = some v →
    ∃ d : Nat, v = d ∧ logls[d]? = some bl ∧ (d < i ∨ (d = i ∧ deathsOn logls bl = [d]))
  inj : ∀ (i j : Nat) (bl : K) (v : Int), i ≠ j → births[i]? = some bl → births[j]? = some bl →
    bl ≠ init → 1 < (deathsOn logls bl).length → b[i]? = some v → b[j]? ≠ some v

theorem getD_map_getElem? {L : List (Option Int)} (h : L.all Option.isSome = true) (i : Nat) (k : Int) :
    (L.map (·.getD 0))[i]? = some k ↔ L[i]? = some (some k) := by
  rw [List.getElem?_map]
  rw [List.all_eq_true] at h
  cases hi : L[i]? with
  | none => simp
  | some x =>
    have := h x (List.mem_of_getElem? hi)
    cases x with
    | none => simp at this
    | some v => simp

theorem BirthInv.toSpec {births logls : List K} {init : K} {acc : List (Option Int)}
    (h : BirthInv births logls init acc) (hall : acc.all Option.isSome = true) :
    BirthIndsSpec births logls init (acc.map (·.getD 0)) := by
  refine ⟨?_, ?_, ?_⟩
  · intro i hi; rw [getD_map_getElem? hall]; exact h.init_val i hi
  · intro i bl v hi hne hv; rw [getD_map_getElem? hall] at hv; exact h.val i bl v hi hne hv
  · intro i j bl v hij hi hj hne hc hv
    rw [getD_map_getElem? hall] at hv
    rw [Ne, getD_map_getElem? hall]
    exact h.inj i j bl v hij hi hj hne hc hv

open scoped Classical in
/-- The part of `birth_inds_given_contours` after the check of the logls. -/
theorem birthInds_eq (A : Argsort K) (births logls : List K) (da dw : Bool) (w : World σ) :
    birthInds A R births logls da dw w =
      if ¬ logls.Pairwise (· ≤ ·) then (.error .assertion, w)
      else if da = true ∧ ¬ logls.Pairwise (· < ·) then (.error .assertion, w)
      else
        let ws := if ¬ logls.Pairwise (· < ·) ∧ dw = true then w.warns ++ [.dupLogl] else w.warns
        match births with
        | [] => (.error .index, ⟨(R.seed 0), ws⟩)
        | init :: _ =>
          if births.length ≠ logls.length then (.error .value, ⟨(R.seed 0), ws⟩)
          else if ¬ (∀ (i : Nat) (x y : K), births[i]? = some x → logls[i]? = some y → x ≤ y) then
            (.error .assertion, ⟨(R.seed 0), ws⟩)
          else match birthLoop R births logls ((List.range births.length).zip births)
              (births.map (fun b => if b = init then some (-1 : Int) else none)) ⟨R.seed 0, ws⟩ with
            | (.error e, w') => (.error e, w')
            | (.ok acc, w') => if acc.all Option.isSome then
                (.ok (acc.map (·.getD 0)), ⟨w.rng, w'.warns⟩) else (.error .assertion, w') := by
  unfold birthInds
  rw [M.bind_apply, checkLogls_apply]
  by_cases h1 : logls.Pairwise (· ≤ ·)
  swap
  · rw [if_pos h1, if_pos h1]
  rw [if_neg (not_not.mpr h1), if_neg (not_not.mpr h1)]
  have key : ∀ ws : List Warn, ((do
      let state ← M.getState
      npSeed R 0
      match births with
      | [] => M.raise .index
      | init :: _ => do
        (if births.length ≠ logls.length then M.raise .value else pure () : M σ Unit)
        M.assert ((births.zip logls).all (fun p => decide (p.1 ≤ p.2)))
        let acc := births.map (fun b => if b = init then some (-1 : Int) else none)
        let acc ← birthLoop R births logls ((List.range births.length).zip births) acc
        M.assert (acc.all Option.isSome)
        M.setState state
        pure (acc.map (·.getD 0))) : M σ (List Int)) { w with warns := ws } =
      match births with
        | [] => (.error .index, ⟨(R.seed 0), ws⟩)
        | init :: _ =>
          if births.length ≠ logls.length then (.error .value, ⟨(R.seed 0), ws⟩)
          else if ¬ (∀ (i : Nat) (x y : K), births[i]? = some x → logls[i]? = some y → x ≤ y) then
            (.error .assertion, ⟨(R.seed 0), ws⟩)
          else match birthLoop R births logls ((List.range births.length).zip births)
              (births.map (fun b => if b = init then some (-1 : Int) else none)) ⟨R.seed 0, ws⟩ with
            | (.error e, w') => (.error e, w')
            | (.ok acc, w') => if acc.all Option.isSome then
                (.ok (acc.map (·.getD 0)), ⟨w.rng, w'.warns⟩) else (.error .assertion, w') := by
    intro ws
    rw [M.bind_ok (M.getState_apply _)]
    rw [M.bind_ok (a := ()) (w' := ⟨R.seed 0, ws⟩) (by rfl)]
    cases hb : births with
    | nil => rfl
    | cons init rest =>
      dsimp only
      rw [← hb]
      by_cases hlen : births.length ≠ logls.length
      · rw [if_pos hlen, if_pos hlen]; rfl
      rw [if_neg hlen, if_neg hlen]
      push Not at hlen
      rw [M.bind_ok (M.pure_apply _ _), M.bind_apply, M.assert_apply]
      by_cases hle : ∀ (i : Nat) (x y : K), births[i]? = some x → logls[i]? = some y → x ≤ y
      swap
      · rw [if_pos hle]
        rw [Bool.eq_false_iff.mpr (mt zip_all_le.mp hle)]; rfl
      rw [if_neg (not_not.mpr hle), zip_all_le.mpr hle]
      simp only [if_true]
      rw [M.bind_apply]
      rcases birthLoop R births logls ((List.range births.length).zip births)
        (births.map (fun b => if b = init then some (-1 : Int) else none)) ⟨R.seed 0, ws⟩ with
        ⟨e | acc, w'⟩
      · rfl
      · simp only [M.bind_apply, M.assert_apply]
        by_cases ha : acc.all Option.isSome = true
        · simp only [ha, if_true]; rfl
        · simp only [ha]; rfl
  by_cases h2 : logls.Pairwise (· < ·)
  · rw [if_pos h2, if_neg (show ¬ (da = true ∧ ¬ logls.Pairwise (· < ·)) by tauto),
      if_neg (show ¬ (¬ logls.Pairwise (· < ·) ∧ dw = true) by tauto)]
    exact key w.warns
  · rw [if_neg h2]
    cases da with
    | true => rw [if_pos (show true = true from rfl),
        if_pos (show true = true ∧ ¬ logls.Pairwise (· < ·) from ⟨rfl, h2⟩)]
    | false =>
      rw [if_neg (show ¬ (false = true) by simp),
        if_neg (show ¬ (false = true ∧ ¬ logls.Pairwise (· < ·)) by simp)]
      cases dw with
      | true =>
        rw [if_pos (show true = true from rfl),
          if_pos (show ¬ logls.Pairwise (· < ·) ∧ true = true from ⟨h2, rfl⟩)]
        exact key _
      | false =>
        rw [if_neg (show ¬ (false = true) by simp),
          if_neg (show ¬ (¬ logls.Pairwise (· < ·) ∧ false = true) by simp)]
        exact key w.warns

theorem birthInds_ok {A : Argsort K} {births logls : List K} {da dw : Bool} {w w' : World σ}
    {b : List Int} (h : birthInds A R births logls da dw w = (.ok b, w')) :
    w'.rng = w.rng ∧ logls.Pairwise (· ≤ ·) ∧ (da = true → logls.Pairwise (· < ·)) ∧
    births.length = logls.length ∧
    (∀ (i : Nat) (x y : K), births[i]? = some x → logls[i]? = some y → x ≤ y) ∧
    (∀ x ∈ w.warns, x ∈ w'.warns) ∧
    ∃ init, births[0]? = some init ∧
      (.moreBirths ∉ w'.warns → b.length = births.length ∧ BirthIndsSpec births logls init b ∧
        (w'.warns = w.warns ∨ (w'.warns = w.warns ++ [.dupLogl] ∧ ¬ logls.Pairwise (· < ·)))) := by
  classical
  rw [birthInds_eq] at h
  by_cases h1 : ¬ logls.Pairwise (· ≤ ·)
  · rw [if_pos h1] at h; simp at h
  rw [if_neg h1] at h
  by_cases h2 : da = true ∧ ¬ logls.Pairwise (· < ·)
  · rw [if_pos h2] at h; simp at h
  rw [if_neg h2] at h
  set ws := if ¬ logls.Pairwise (· < ·) ∧ dw = true then w.warns ++ [.dupLogl] else w.warns with hws
  have hsub : ∀ x ∈ w.warns, x ∈ ws := by
    intro x hx; rw [hws]; split_ifs <;> simp [hx]
  have hws' : ws = w.warns ∨ (ws = w.warns ++ [.dupLogl] ∧ ¬ logls.Pairwise (· < ·)) := by
    rw [hws]; split_ifs with h
    · exact .inr ⟨rfl, h.1⟩
    · exact .inl rfl
  cases hb : births with
  | nil => rw [hb] at h; simp at h
  | cons init rest =>
    rw [hb] at h
    dsimp only at h
    rw [← hb] at h ⊢
    by_cases h3 : births.length ≠ logls.length
    · rw [if_pos h3] at h; simp at h
    rw [if_neg h3] at h
    by_cases h4 : ¬ ∀ (i : Nat) (x y : K), births[i]? = some x → logls[i]? = some y → x ≤ y
    · rw [if_pos h4] at h; simp at h
    rw [if_neg h4] at h
    push Not at h1 h3 h4
    rcases birthLoop_spec R h1 h4 h3 _ (fun p hp => zip_range_mem hp)
      (birthInv_init births logls init) ⟨R.seed 0, ws⟩ with ⟨e, w1, -, he, -⟩ | ⟨acc, w1, he, hor, hsub'⟩
    · rw [he] at h; simp at h
    · rw [he] at h
      simp only at h
      by_cases hall : acc.all Option.isSome = true
      swap
      · rw [if_neg hall] at h; simp at h
      rw [if_pos hall] at h
      simp only [Prod.mk.injEq, Except.ok.injEq] at h
      obtain ⟨rfl, rfl⟩ := h
      refine ⟨rfl, h1, ?_, h3, h4, fun x hx => hsub' x (hsub x hx), init, by rw [hb]; rfl, ?_⟩
      · intro hda
        by_contra hc
        exact h2 ⟨hda, hc⟩
      · intro hnm
        rcases hor with ⟨ha, hinv⟩ | hc
        · refine ⟨by simpa using hinv.len, hinv.toSpec hall, ?_⟩
          simp only at ha ⊢
          rw [ha]; exact hws'
        · exact absurd hc hnm

/-! ### Distinct loglikelihoods -/

theorem deathsOn_strict {logls : List K} (hs : logls.Pairwise (· < ·)) (v : K) :
    (deathsOn logls v = [] ∧ v ∉ logls) ∨ ∃ d, deathsOn logls v = [d] ∧ logls[d]? = some v := by
  have hone : ∀ d d', d ∈ deathsOn logls v → d' ∈ deathsOn logls v → d = d' := by
    intro d d' h h'
    have h1 := mem_deathsOn.mp h
    have h2 := mem_deathsOn.mp h'
    rcases Nat.lt_trichotomy d d' with hlt | rfl | hlt
    · exact absurd (pairwise_iff_getElem?.mp hs _ _ _ _ hlt h1 h2) (lt_irrefl _)
    · rfl
    · exact absurd (pairwise_iff_getElem?.mp hs _ _ _ _ hlt h2 h1) (lt_irrefl _)
  rcases hd : deathsOn logls v with _ | ⟨a, _ | ⟨a', as⟩⟩
  · left
    refine ⟨rfl, ?_⟩
    intro hm
    obtain ⟨i, hi⟩ := List.mem_iff_getElem?.mp hm
    have := mem_deathsOn.mpr hi
    rw [hd] at this; simp at this
  · right
    exact ⟨a, rfl, mem_deathsOn.mp (by rw [hd]; simp)⟩
  · exfalso
    have h1 := hone a a' (by rw [hd]; simp) (by rw [hd]; simp)
    have h2 : (deathsOn logls v).Nodup := whereIdx_nodup
    rw [hd] at h2
    simp [h1] at h2

theorem birthLoop_strict {births logls : List K} (hs : logls.Pairwise (· < ·))
    (pairs : List (Nat × K)) (hpairs : ∀ p ∈ pairs, births[p.1]? = some p.2)
    (acc : List (Option Int)) (w : World σ) :
    (∃ acc', birthLoop R births logls pairs acc w = (.ok acc', w) ∧
      (∀ p ∈ pairs, acc[p.1]? = some none → p.2 ∈ logls) ∧
      ∀ i, (acc[i]? ≠ some none → acc'[i]? = acc[i]?) ∧
        (i ∈ pairs.map Prod.fst → acc'[i]? ≠ some none)) ∨
    (birthLoop R births logls pairs acc w = (.error .assertion, w) ∧
      ∃ p ∈ pairs, acc[p.1]? = some none ∧ p.2 ∉ logls) := by
  induction pairs generalizing acc with
  | nil => exact .inl ⟨acc, rfl, by simp, by simp⟩
  | cons p rest ih =>
    obtain ⟨i, bl⟩ := p
    have hi : births[i]? = some bl := hpairs (i, bl) (by simp)
    replace ih := ih (fun p hp => hpairs p (by simp [hp]))
    rw [birthLoop_cons]
    by_cases hn : acc[i]? = some none
    swap
    · rw [if_pos hn]
      rcases ih acc with ⟨acc', h1, h2, h3⟩ | ⟨h1, p, hp, h2⟩
      · refine .inl ⟨acc', h1, ?_, ?_⟩
        · intro p hp
          rcases List.mem_cons.mp hp with rfl | hp
          · intro h; exact absurd h hn
          · exact h2 p hp
        · intro j
          refine ⟨(h3 j).1, ?_⟩
          intro hj
          rw [List.map_cons, List.mem_cons] at hj
          rcases hj with rfl | hj
          · rw [(h3 _).1 hn]; exact hn
          · exact (h3 j).2 hj
      · exact .inr ⟨h1, p, by simp [hp], h2⟩
    rw [if_neg (by simpa using hn)]
    rcases deathsOn_strict hs bl with ⟨hd, hmem⟩ | ⟨d, hd, hdl⟩
    · right
      rw [hd, if_neg (by simp)]
      refine ⟨?_, (i, bl), by simp, hn, hmem⟩
      rw [M.bind_error (e := .assertion) (w' := w)]
      simp [dupBirthInds, M.bind_apply]
    · rw [hd, if_pos (by simp)]
      simp only [List.headD_cons]
      have hlt : i < acc.length := (List.getElem?_eq_some_iff.mp hn).1
      have hset : (acc.set i (some (d : Int)))[i]? = some (some (d : Int)) := by
        simp [hlt]
      have hne : ∀ j, j ≠ i → (acc.set i (some (d : Int)))[j]? = acc[j]? := by
        intro j hj; rw [List.getElem?_set_ne (Ne.symm hj)]
      rcases ih (acc.set i (some (d : Int))) with ⟨acc', h1, h2, h3⟩ | ⟨h1, p, hp, h2, h2'⟩
      · refine .inl ⟨acc', h1, ?_, ?_⟩
        · intro p hp hpn
          by_cases hpi : p.1 = i
          · rcases List.mem_cons.mp hp with rfl | hp
            · exact List.mem_of_getElem? hdl
            · have h5 := hpairs p (by simp [hp])
              rw [hpi, hi] at h5
              obtain rfl : bl = p.2 := by simpa using h5
              exact List.mem_of_getElem? hdl
          · rcases List.mem_cons.mp hp with rfl | hp
            · exact absurd rfl hpi
            · exact h2 p hp (by rw [hne _ hpi]; exact hpn)
        · intro j
          by_cases hj : j = i
          · subst hj
            have := (h3 j).1 (by rw [hset]; simp)
            rw [this, hset]
            exact ⟨fun h => absurd hn h, fun _ => by simp⟩
          · refine ⟨fun h => ?_, fun hm => ?_⟩
            · rw [(h3 j).1 (by rw [hne _ hj]; exact h), hne _ hj]
            · rw [List.map_cons, List.mem_cons] at hm
              rcases hm with rfl | hm
              · exact absurd rfl hj
              · exact (h3 j).2 hm
      · refine .inr ⟨h1, p, by simp [hp], ?_, h2'⟩
        by_cases hpi : p.1 = i
        · rw [hpi, hset] at h2; simp at h2
        · rwa [hne _ hpi] at h2

theorem birthLoop_length {births logls : List K} {pairs : List (Nat × K)} {acc acc' : List (Option Int)}
    {w w' : World σ} (h : birthLoop R births logls pairs acc w = (.ok acc', w')) :
    acc'.length = acc.length := by
  induction pairs generalizing acc w with
  | nil => simp [birthLoop] at h; rw [h.1]
  | cons p rest ih =>
    obtain ⟨i, bl⟩ := p
    rw [birthLoop_cons] at h
    split_ifs at h with h1 h2
    · exact ih h
    · rw [ih h]; simp
    · obtain ⟨a, w1, -, h4⟩ := M.bind_eq_ok.mp h
      rw [ih h4, length_assignAt]

theorem birthLoop_strict_indep {births logls : List K} (hs : logls.Pairwise (· < ·))
    (pairs : List (Nat × K)) {acc acc1 acc2 : List (Option Int)} {w1 w2 w1' w2' : World σ}
    (h1 : birthLoop R births logls pairs acc w1 = (.ok acc1, w1'))
    (h2 : birthLoop R births logls pairs acc w2 = (.ok acc2, w2')) : acc2 = acc1 := by
  induction pairs generalizing acc with
  | nil => simp [birthLoop] at h1 h2; rw [← h1.1, ← h2.1]
  | cons p rest ih =>
    obtain ⟨i, bl⟩ := p
    rw [birthLoop_cons] at h1 h2
    split_ifs at h1 h2 with h3 h4
    · exact ih h1 h2
    · exact ih h1 h2
    · exfalso
      rcases deathsOn_strict hs bl with ⟨hd, -⟩ | ⟨d, hd, -⟩
      · rw [hd] at h1
        rw [M.bind_error (e := .assertion) (w' := w1) (by simp [dupBirthInds, M.bind_apply])] at h1
        simp at h1
      · exact h4 (by rw [hd]; rfl)

/-- For distinct loglikelihoods the call succeeds exactly if the births are
consistent, without warnings and without a trace in the random state; otherwise an
`AssertionError` is raised (with the random state left at seed 0). -/
theorem birthInds_strict (A : Argsort K) {births logls : List K} {init : K} (da dw : Bool)
    (hs : logls.Pairwise (· < ·)) (h0 : births[0]? = some init) (hl : births.length = logls.length) :
    ((∀ (i : Nat) (x y : K), births[i]? = some x → logls[i]? = some y → x ≤ y) ∧
      (∀ x ∈ births, x = init ∨ x ∈ logls) ∧
      ∃ b, ∀ w : World σ, birthInds A R births logls da dw w = (.ok b, w)) ∨
    (¬ ((∀ (i : Nat) (x y : K), births[i]? = some x → logls[i]? = some y → x ≤ y) ∧
      (∀ x ∈ births, x = init ∨ x ∈ logls)) ∧
      ∀ w : World σ, birthInds A R births logls da dw w = (.error .assertion, ⟨R.seed 0, w.warns⟩)) := by
  classical
  cases hb : births with
  | nil => rw [hb] at h0; simp at h0
  | cons init' rest =>
    rw [hb] at h0
    obtain rfl : init' = init := by simpa using h0
    rw [← hb]
    have hle : logls.Pairwise (· ≤ ·) := hs.imp le_of_lt
    have heq : ∀ w : World σ, birthInds A R births logls da dw w =
        if ¬ (∀ (i : Nat) (x y : K), births[i]? = some x → logls[i]? = some y → x ≤ y) then
            (.error .assertion, ⟨(R.seed 0), w.warns⟩)
          else match birthLoop R births logls ((List.range births.length).zip births)
              (births.map (fun b => if b = init' then some (-1 : Int) else none)) ⟨R.seed 0, w.warns⟩ with
            | (.error e, w') => (.error e, w')
            | (.ok acc, w') => if acc.all Option.isSome then
                (.ok (acc.map (·.getD 0)), ⟨w.rng, w'.warns⟩) else (.error .assertion, w') := by
      intro w
      rw [birthInds_eq, if_neg (not_not.mpr hle),
        if_neg (show ¬ (da = true ∧ ¬ logls.Pairwise (· < ·)) by tauto)]
      rw [if_neg (show ¬ (¬ logls.Pairwise (· < ·) ∧ dw = true) by tauto)]
      rw [hb] at hl ⊢
      dsimp only
      rw [if_neg (not_not.mpr hl)]
    by_cases hord : ∀ (i : Nat) (x y : K), births[i]? = some x → logls[i]? = some y → x ≤ y
    swap
    · right
      refine ⟨fun h => hord h.1, fun w => ?_⟩
      rw [heq, if_pos hord]
    have hacc : ∀ (i : Nat) (bl : K), births[i]? = some bl →
        (births.map (fun b => if b = init' then some (-1 : Int) else none))[i]? =
          some (if bl = init' then some (-1) else none) := by
      intro i bl h; rw [List.getElem?_map, h]; rfl
    have hloop := fun w : World σ => birthLoop_strict R hs ((List.range births.length).zip births)
      (fun p hp => zip_range_mem hp)
      (births.map (fun b => if b = init' then some (-1 : Int) else none)) w
    by_cases hmem : ∀ x ∈ births, x = init' ∨ x ∈ logls
    · left
      refine ⟨hord, hmem, ?_⟩
      have hok : ∀ w : World σ, ∃ acc', birthLoop R births logls ((List.range births.length).zip births)
          (births.map (fun b => if b = init' then some (-1 : Int) else none)) w = (.ok acc', w) ∧
          acc'.all Option.isSome = true := by
        intro w
        rcases hloop w with ⟨acc', h1, h2, h3⟩ | ⟨h1, p, hp, h2, h3⟩
        · refine ⟨acc', h1, ?_⟩
          rw [List.all_eq_true]
          intro x hx
          obtain ⟨i, hi⟩ := List.mem_iff_getElem?.mp hx
          cases x with
          | some v => rfl
          | none =>
            exfalso
            have hlen : acc'.length = births.length := by
              have := birthLoop_length R h1
              simpa using this
            have hil : i < births.length := by rw [← hlen]; exact (List.getElem?_eq_some_iff.mp hi).1
            refine (h3 i).2 ?_ hi
            rw [List.map_fst_zip (by simp)]
            exact List.mem_range.mpr hil
        · exfalso
          have hb' := zip_range_mem hp
          rw [hacc _ _ hb'] at h2
          split_ifs at h2 with hc
          · simp at h2
          · rcases hmem p.2 (List.mem_of_getElem? hb') with h | h
            · exact hc h
            · exact h3 h
      -- the result does not depend on the world
      obtain ⟨acc, he, hall⟩ := hok ⟨R.seed 0, []⟩
      have hsame : ∀ w : World σ, birthLoop R births logls ((List.range births.length).zip births)
          (births.map (fun b => if b = init' then some (-1 : Int) else none)) w = (.ok acc, w) := by
        intro w
        obtain ⟨acc', he', -⟩ := hok w
        rw [he']
        have := birthLoop_strict_indep R hs _ he he'
        rw [this]
      refine ⟨acc.map (·.getD 0), fun w => ?_⟩
      rw [heq, if_neg (not_not.mpr hord), hsame]
      simp only [hall, if_true]
    · right
      refine ⟨fun h => hmem h.2, fun w => ?_⟩
      rw [heq, if_neg (not_not.mpr hord)]
      rcases hloop ⟨R.seed 0, w.warns⟩ with ⟨acc', h1, h2, h3⟩ | ⟨h1, -⟩
      · exfalso
        apply hmem
        intro x hx
        obtain ⟨i, hi⟩ := List.mem_iff_getElem?.mp hx
        by_cases hc : x = init'
        · exact .inl hc
        · right
          have hil := (List.getElem?_eq_some_iff.mp hi).1
          refine h2 (i, x) ?_ (by simp only; rw [hacc i x hi]; simp [hc])
          refine List.mem_of_getElem? (i := i) (List.getElem?_zip_eq_some.mpr ⟨?_, hi⟩)
          simp [hil]
      · rw [h1]

end Nestcheck
