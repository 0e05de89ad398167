import Verif.Proofs.CheckRun
import Verif.Proofs.SampleLess
import Verif.Proofs.Threads

/-
birth_inds_given_contours.
-/

set_option linter.unusedSectionVars false

namespace Nestcheck
variable {σ K : Type} [CommRing K] [LinearOrder K] (R : Rng σ K)

/-- The points dying on contour `v`. -/
def deathsOn (logls : List K) (v : K) : List Nat := whereIdx (fun x => decide (x = v)) logls

theorem mem_deathsOn {logls : List K} {v : K} {d : Nat} : d ∈ deathsOn logls v ↔ logls[d]? = some v :=
  mem_whereIdx_eq

/-- The outcomes of assigning birth indexes on a contour with several deaths. -/
theorem dupBirthInds_spec (births : List K) (bl : K) (dd db : List Nat)
    (hdd : dd.Nodup) (hdb : db.Pairwise (· < ·)) (w : World σ) :
    (dd.length ≤ 1 ∧ dupBirthInds R births bl dd db w = (.error .assertion, w)) ∨
    (∃ s, dupBirthInds R births bl dd db w = (.error .value, { w with rng := s })) ∨
    (∃ inds s, 1 < dd.length ∧ dupBirthInds R births bl dd db w = (.ok inds, { w with rng := s }) ∧
      inds.length = db.length ∧ inds.Nodup ∧ (∀ d ∈ inds, d ∈ dd) ∧
      (((∀ d ∈ dd, births[d]? ≠ some bl) → ∀ d ∈ dd, ∀ i ∈ db, d < i) →
        ∀ (p d i : Nat), inds[p]? = some d → db[p]? = some i → d < i)) ∨
    (∃ inds s, 1 < dd.length ∧ dupBirthInds R births bl dd db w =
        (.ok inds, { rng := s, warns := w.warns ++ [.moreBirths] }) ∧
      dd.length < db.length ∧ inds.length = db.length ∧ (∀ d ∈ inds, d ∈ dd)) := by
  unfold dupBirthInds
  by_cases hlen : 1 < dd.length
  swap
  · left
    refine ⟨by omega, ?_⟩
    simp [M.bind_apply, hlen]
  right
  -- the candidate indexes
  have hinds : (∃ s, (if dd.all (fun d => decide (births[d]? ≠ some bl)) then npShuffle R dd
        else sampleLess R dd db : M σ (List Nat)) w = (.error .value, { w with rng := s })) ∨
      (∃ inds s, (if dd.all (fun d => decide (births[d]? ≠ some bl)) then npShuffle R dd
        else sampleLess R dd db : M σ (List Nat)) w = (.ok inds, { w with rng := s }) ∧
        inds.Nodup ∧ (∀ d ∈ inds, d ∈ dd) ∧ inds ≠ [] ∧ min db.length dd.length ≤ inds.length ∧
        inds.length ≤ dd.length ∧
        (((∀ d ∈ dd, births[d]? ≠ some bl) → ∀ d ∈ dd, ∀ i ∈ db, d < i) →
          ∀ (p d i : Nat), inds[p]? = some d → db[p]? = some i → d < i)) ∨ db = [] := by
    by_cases hall : dd.all (fun d => decide (births[d]? ≠ some bl)) = true
    · right; left
      rw [if_pos hall]
      obtain ⟨ys, hp, he⟩ := npShuffle_spec R dd w
      refine ⟨ys, _, he, hp.nodup_iff.mpr hdd, fun d hd => hp.mem_iff.mp hd, ?_, ?_, ?_, ?_⟩
      · rintro rfl; simp [← hp.length_eq] at hlen
      · rw [hp.length_eq]; omega
      · rw [hp.length_eq]
      · intro hfree p d i hd hi
        refine hfree ?_ d (hp.mem_iff.mp (List.mem_of_getElem? hd)) i (List.mem_of_getElem? hi)
        intro d' hd'
        simpa using List.all_eq_true.mp hall d' hd'
    · rw [if_neg hall]
      by_cases hdb0 : db = []
      · right; right; exact hdb0
      have hl : 0 < db.length := List.length_pos_iff.mpr hdb0
      unfold sampleLess
      rcases sampleLessLoop_spec R (db.take (min db.length dd.length)) dd
        ((hdb.imp Nat.le_of_lt).sublist (List.take_sublist _ _)) w with
        ⟨out, s, h1, h2, h3⟩ | ⟨s, h1, -⟩
      · right; left
        have hlo : out.length = min db.length dd.length := by
          rw [h2.length_eq, List.length_take]; omega
        refine ⟨out, s, h1, ?_, fun d hd => h3.subset hd, ?_, by omega, by omega, ?_⟩
        · exact List.nodup_iff_count_le_one.mpr (fun a =>
            le_trans (h3.count_le a) (List.nodup_iff_count_le_one.mp hdd a))
        · rintro rfl; simp at hlo; omega
        · intro _ p d i hd hi
          rw [List.forall₂_iff_get] at h2
          obtain ⟨hp, rfl⟩ := List.getElem?_eq_some_iff.mp hd
          obtain ⟨hp', rfl⟩ := List.getElem?_eq_some_iff.mp hi
          have := h2.2 p hp (by rw [← h2.1]; exact hp)
          simpa using this
      · left; exact ⟨s, h1⟩
  rw [M.bind_ok (a := ()) (w' := w) (by rw [M.assert_apply]; simp [hlen])]
  rcases hinds with ⟨s, h⟩ | ⟨inds, s, h, hn, hm, hne, hmin, hmax, hlt⟩ | hdb0
  · left
    exact ⟨s, by rw [M.bind_error h]⟩
  · right
    rw [M.bind_ok h]
    by_cases hle : db.length ≤ inds.length
    · left
      rw [if_pos hle]
      refine ⟨inds.take db.length, s, hlen, rfl, ?_, hn.sublist (List.take_sublist _ _),
        fun d hd => hm d (List.mem_of_mem_take hd), ?_⟩
      · rw [List.length_take]; omega
      · intro hfree p d i hd hi
        refine hlt hfree p d i ?_ hi
        rw [List.getElem?_take] at hd
        split_ifs at hd with hp
        exact hd
    · right
      rw [if_neg hle]
      rw [M.bind_ok (M.warn_apply _ _)]
      obtain ⟨ex, hexl, hexm, hex⟩ := npChoiceN_spec R hne (db.length - inds.length)
        { rng := s, warns := w.warns ++ [.moreBirths] }
      rw [M.bind_ok hex]
      obtain ⟨ys, hp, he⟩ := npShuffle_spec R (inds ++ ex)
        { rng := (R.randint 0 inds.length (db.length - inds.length) s).2,
          warns := w.warns ++ [.moreBirths] }
      rw [M.bind_ok he]
      refine ⟨ys.take db.length, _, hlen, rfl, by omega, ?_, ?_⟩
      · rw [List.length_take, hp.length_eq, List.length_append, hexl]; omega
      · intro d hd
        have := hp.mem_iff.mp (List.mem_of_mem_take hd)
        rcases List.mem_append.mp this with h | h
        · exact hm d h
        · exact hm d (hexm d h)
  · subst hdb0
    by_cases hall : dd.all (fun d => decide (births[d]? ≠ some bl)) = true
    · right; left
      rw [if_pos hall]
      obtain ⟨ys, hp, he⟩ := npShuffle_spec R dd w
      rw [M.bind_ok he]
      exact ⟨[], _, hlen, rfl, rfl, List.nodup_nil, by simp, by simp⟩
    · right; left
      rw [if_neg hall]
      have : sampleLess R dd [] w = (.ok [], w) := by simp [sampleLess, sampleLessLoop]
      rw [M.bind_ok this]
      exact ⟨[], w.rng, hlen, rfl, rfl, List.nodup_nil, by simp, by simp⟩

theorem length_assignAt {α : Type} (xs : List α) (inds : List Nat) (vals : List α) :
    (assignAt xs inds vals).length = xs.length := by
  unfold assignAt
  generalize inds.zip vals = l
  induction l generalizing xs with
  | nil => rfl
  | cons a as ih => simp only [List.foldl_cons]; rw [ih]; simp

theorem getElem?_assignAt_of_not_mem {α : Type} {xs : List α} {inds : List Nat} {vals : List α}
    {i : Nat} (h : i ∉ inds) : (assignAt xs inds vals)[i]? = xs[i]? := by
  unfold assignAt
  induction inds generalizing xs vals with
  | nil => simp
  | cons a as ih =>
    cases vals with
    | nil => simp
    | cons v vs =>
      simp only [List.zip_cons_cons, List.foldl_cons]
      simp only [List.mem_cons, not_or] at h
      rw [ih h.2, List.getElem?_set_ne (Ne.symm h.1)]

theorem getElem?_assignAt {α : Type} {xs : List α} {inds : List Nat} {vals : List α} {p i : Nat}
    {v : α} (hn : inds.Nodup) (hi : inds[p]? = some i) (hv : vals[p]? = some v)
    (hlt : i < xs.length) : (assignAt xs inds vals)[i]? = some v := by
  induction inds generalizing xs vals p with
  | nil => simp at hi
  | cons a as ih =>
    cases vals with
    | nil => simp at hv
    | cons u us =>
      obtain ⟨h1, h2⟩ := List.nodup_cons.mp hn
      have hrec : assignAt xs (a :: as) (u :: us) = assignAt (xs.set a u) as us := rfl
      rw [hrec]
      cases p with
      | zero =>
        simp at hi hv; subst hi; subst hv
        rw [getElem?_assignAt_of_not_mem h1, List.getElem?_set_self hlt]
      | succ p =>
        exact ih (p := p) h2 (by simpa using hi) (by simpa using hv) (by simpa using hlt)

/-- What has been established about the array `birth_inds`. -/
structure BirthInv (births logls : List K) (init : K) (acc : List (Option Int)) : Prop where
  len : acc.length = births.length
  init_val : ∀ i : Nat, births[i]? = some init → acc[i]? = some (some (-1))
  val : ∀ (i : Nat) (bl : K) (v : Int), births[i]? = some bl → bl ≠ init → acc[i]? = some (some v) →
    ∃ d : Nat, v = d ∧ logls[d]? = some bl ∧ (d < i ∨ (d = i ∧ deathsOn logls bl = [d]))
  same : ∀ (i j : Nat) (bl : K), births[i]? = some bl → births[j]? = some bl → bl ≠ init →
    1 < (deathsOn logls bl).length → acc[i]? = some none → acc[j]? = some none
  inj : ∀ (i j : Nat) (bl : K) (v : Int), i ≠ j → births[i]? = some bl → births[j]? = some bl →
    bl ≠ init → 1 < (deathsOn logls bl).length →
    acc[i]? = some (some v) → acc[j]? ≠ some (some v)

theorem lt_of_logl_lt {logls : List K} (hs : logls.Pairwise (· ≤ ·)) {i j : Nat} {x y : K}
    (hi : logls[i]? = some x) (hj : logls[j]? = some y) (h : x < y) : i < j := by
  rcases Nat.lt_trichotomy i j with hlt | rfl | hgt
  · exact hlt
  · rw [hi] at hj; simp at hj; exact absurd h (by rw [hj]; exact lt_irrefl _)
  · have := pairwise_iff_getElem?.mp hs j i y x hgt hj hi
    exact absurd h (not_lt.mpr this)

section loop
variable {births logls : List K} {init : K}

theorem birthInv_set (hs : logls.Pairwise (· ≤ ·))
    (hle : ∀ (i : Nat) (x y : K), births[i]? = some x → logls[i]? = some y → x ≤ y)
    (hl : births.length = logls.length) {acc : List (Option Int)}
    (h : BirthInv births logls init acc) {i d : Nat} {bl : K} (hi : births[i]? = some bl)
    (hn : acc[i]? = some none) (hd : deathsOn logls bl = [d]) :
    BirthInv births logls init (acc.set i (some (d : Int))) := by
  have hne : bl ≠ init := by
    rintro rfl; have := h.init_val i hi; rw [hn] at this; simp at this
  have hlt : i < acc.length := (List.getElem?_eq_some_iff.mp hn).1
  have hget : ∀ j : Nat, (acc.set i (some (d : Int)))[j]? = if j = i then some (some (d : Int)) else acc[j]? := by
    intro j
    by_cases hji : j = i
    · subst hji; simp [hlt]
    · rw [List.getElem?_set_ne (Ne.symm hji), if_neg hji]
  have hdm : logls[d]? = some bl := mem_deathsOn.mp (by rw [hd]; simp)
  have hdi : d < i ∨ (d = i ∧ deathsOn logls bl = [d]) := by
    have hil : i < logls.length := by rw [← hl, ← h.len]; exact hlt
    have h1 := hle i _ _ hi (List.getElem?_eq_getElem hil)
    rcases lt_or_eq_of_le h1 with h2 | h2
    · exact .inl (lt_of_logl_lt hs hdm (List.getElem?_eq_getElem hil) h2)
    · have : i ∈ deathsOn logls bl := mem_deathsOn.mpr (by rw [List.getElem?_eq_getElem hil, h2])
      rw [hd] at this; simp at this
      exact .inr ⟨this.symm, hd⟩
  refine ⟨by simpa using h.len, ?_, ?_, ?_, ?_⟩
  · intro j hj
    rw [hget]
    have : j ≠ i := by rintro rfl; rw [hi] at hj; simp at hj; exact hne hj
    rw [if_neg this]; exact h.init_val j hj
  · intro j bl' v hj hne' hv
    rw [hget] at hv
    split_ifs at hv with hji
    · subst hji
      rw [hi] at hj; simp at hj; subst hj
      simp at hv
      exact ⟨d, hv.symm, hdm, hdi⟩
    · exact h.val j bl' v hj hne' hv
  · intro j j' bl' hj hj' hne' hc hv
    rw [hget] at hv ⊢
    have hbl : ∀ {x : Nat}, births[x]? = some bl' → x ≠ i := by
      rintro x hx rfl
      rw [hi] at hx; simp at hx; subst hx
      rw [hd] at hc; simp at hc
    rw [if_neg (hbl hj)] at hv
    rw [if_neg (hbl hj')]
    exact h.same j j' bl' hj hj' hne' hc hv
  · intro j j' bl' v hjj hj hj' hne' hc hv
    rw [hget] at hv ⊢
    have hbl : ∀ {x : Nat}, births[x]? = some bl' → x ≠ i := by
      rintro x hx rfl
      rw [hi] at hx; simp at hx; subst hx
      rw [hd] at hc; simp at hc
    rw [if_neg (hbl hj)] at hv
    rw [if_neg (hbl hj')]
    exact h.inj j j' bl' v hjj hj hj' hne' hc hv

theorem birthInv_assign {acc : List (Option Int)}
    (h : BirthInv births logls init acc) {bl : K} (hne : bl ≠ init) {inds : List Nat}
    (hlen : inds.length = (whereIdx (fun x => decide (x = bl)) births).length) (hnd : inds.Nodup)
    (hm : ∀ d ∈ inds, d ∈ deathsOn logls bl)
    (hlt : ∀ (p d i : Nat), inds[p]? = some d →
      (whereIdx (fun x => decide (x = bl)) births)[p]? = some i → d < i) :
    BirthInv births logls init (assignAt acc (whereIdx (fun x => decide (x = bl)) births)
      (inds.map (fun k : Nat => some (k : Int)))) := by
  set db := whereIdx (fun x => decide (x = bl)) births with hdb
  have hout : ∀ j : Nat, births[j]? ≠ some bl →
      (assignAt acc db (inds.map (fun k : Nat => some (k : Int))))[j]? = acc[j]? := by
    intro j hj
    apply getElem?_assignAt_of_not_mem
    intro hmem; exact hj (mem_whereIdx_eq.mp hmem)
  have hin : ∀ j : Nat, births[j]? = some bl → ∃ p d : Nat, db[p]? = some j ∧ inds[p]? = some d ∧
      (assignAt acc db (inds.map (fun k : Nat => some (k : Int))))[j]? = some (some (d : Int)) := by
    intro j hj
    have : j ∈ db := mem_whereIdx_eq.mpr hj
    obtain ⟨p, hp⟩ := List.mem_iff_getElem?.mp this
    have hpl : p < inds.length := by rw [hlen]; exact (List.getElem?_eq_some_iff.mp hp).1
    refine ⟨p, inds[p], hp, List.getElem?_eq_getElem hpl, ?_⟩
    refine getElem?_assignAt (whereIdx_nodup) hp ?_ ?_
    · rw [List.getElem?_map, List.getElem?_eq_getElem hpl]; rfl
    · rw [h.len]; exact (List.getElem?_eq_some_iff.mp hj).1
  refine ⟨by rw [length_assignAt]; exact h.len, ?_, ?_, ?_, ?_⟩
  · intro j hj
    rw [hout j (by rw [hj]; simp; exact fun e => hne e.symm)]
    exact h.init_val j hj
  · intro j bl' v hj hne' hv
    by_cases hb : bl' = bl
    · subst hb
      obtain ⟨p, d, hp, hd, hval⟩ := hin j hj
      rw [hval] at hv; simp at hv
      exact ⟨d, hv.symm, mem_deathsOn.mp (hm d (List.mem_of_getElem? hd)), .inl (hlt p d j hd hp)⟩
    · rw [hout j (by rw [hj]; simpa using hb)] at hv
      exact h.val j bl' v hj hne' hv
  · intro j j' bl' hj hj' hne' hc hv
    by_cases hb : bl' = bl
    · subst hb
      obtain ⟨p, d, hp, hd, hval⟩ := hin j hj
      rw [hval] at hv; simp at hv
    · rw [hout j (by rw [hj]; simpa using hb)] at hv
      rw [hout j' (by rw [hj']; simpa using hb)]
      exact h.same j j' bl' hj hj' hne' hc hv
  · intro j j' bl' v hjj hj hj' hne' hc hv
    by_cases hb : bl' = bl
    · subst hb
      obtain ⟨p, d, hp, hd, hval⟩ := hin j hj
      obtain ⟨p', d', hp', hd', hval'⟩ := hin j' hj'
      rw [hval] at hv; simp at hv
      rw [hval']
      intro hv'; simp at hv'
      have hdd : d = d' := by omega
      subst hdd
      have hpp : p = p' := by
        obtain ⟨a1, a2⟩ := List.getElem?_eq_some_iff.mp hd
        obtain ⟨a3, a4⟩ := List.getElem?_eq_some_iff.mp hd'
        exact (List.Nodup.getElem_inj_iff hnd).mp (by rw [a2, a4])
      subst hpp
      rw [hp] at hp'; simp at hp'; exact hjj hp'
    · rw [hout j (by rw [hj]; simpa using hb)] at hv
      rw [hout j' (by rw [hj']; simpa using hb)]
      exact h.inj j j' bl' v hjj hj hj' hne' hc hv

/-- One step of the loop, with the array access resolved. -/
theorem birthLoop_cons (i : Nat) (bl : K) (rest : List (Nat × K)) (acc : List (Option Int)) :
    (birthLoop R births logls ((i, bl) :: rest) acc : M σ (List (Option Int))) =
      if acc[i]? ≠ some none then birthLoop R births logls rest acc
      else if (deathsOn logls bl).length = 1 then
        birthLoop R births logls rest (acc.set i (some ((deathsOn logls bl).headD 0 : Int)))
      else (dupBirthInds R births bl (deathsOn logls bl)
          (whereIdx (fun x => decide (x = bl)) births)) >>= fun inds =>
        birthLoop R births logls rest (assignAt acc (whereIdx (fun x => decide (x = bl)) births)
          (inds.map (fun k : Nat => some (k : Int)))) := by
  simp only [birthLoop]
  unfold deathsOn
  split_ifs with h1 h2
  · rfl
  · rcases hd : whereIdx (fun x => decide (x = bl)) logls with _ | ⟨a, _ | ⟨a', as⟩⟩
    · rw [hd] at h2; simp at h2
    · simp
    · rw [hd] at h2; simp at h2
  · rcases hd : whereIdx (fun x => decide (x = bl)) logls with _ | ⟨a, _ | ⟨a', as⟩⟩
    · simp
    · rw [hd] at h2; simp at h2
    · simp

theorem dupBirthInds_any (births : List K) (bl : K) (dd db : List Nat)
    (hdd : dd.Nodup) (hdb : db.Pairwise (· < ·)) (w : World σ) :
    (∃ e w', (e = .assertion ∨ e = .value) ∧ dupBirthInds R births bl dd db w = (.error e, w') ∧
      ∀ x ∈ w.warns, x ∈ w'.warns) ∨
    (∃ inds w', dupBirthInds R births bl dd db w = (.ok inds, w') ∧ ∀ x ∈ w.warns, x ∈ w'.warns) := by
  rcases dupBirthInds_spec R births bl dd db hdd hdb w with
      ⟨-, he⟩ | ⟨s, he⟩ | ⟨inds, s, -, he, -⟩ | ⟨inds, s, -, he, -⟩
  · exact .inl ⟨_, _, .inl rfl, he, fun x hx => hx⟩
  · exact .inl ⟨_, _, .inr rfl, he, fun x hx => hx⟩
  · exact .inr ⟨_, _, he, fun x hx => hx⟩
  · exact .inr ⟨_, _, he, fun x hx => by simp [hx]⟩

/-- Whatever happens, the loop raises only `AssertionError` or `ValueError`, and
warnings are never withdrawn. -/
theorem birthLoop_any (pairs : List (Nat × K)) (acc : List (Option Int)) (w : World σ) :
    (∃ e w', (e = .assertion ∨ e = .value) ∧ birthLoop R births logls pairs acc w = (.error e, w') ∧
      ∀ x ∈ w.warns, x ∈ w'.warns) ∨
    (∃ acc' w', birthLoop R births logls pairs acc w = (.ok acc', w') ∧
      ∀ x ∈ w.warns, x ∈ w'.warns) := by
  induction pairs generalizing acc w with
  | nil => exact .inr ⟨acc, w, rfl, fun x hx => hx⟩
  | cons p rest ih =>
    obtain ⟨i, bl⟩ := p
    rw [birthLoop_cons]
    split_ifs with h1 h2
    · exact ih _ _
    · exact ih _ _
    · rcases dupBirthInds_any R births bl (deathsOn logls bl)
        (whereIdx (fun x => decide (x = bl)) births) whereIdx_nodup whereIdx_pairwise w with
        ⟨e, w', he, h3, h4⟩ | ⟨inds, w', h3, h4⟩
      · rw [M.bind_error h3]; exact .inl ⟨e, w', he, rfl, h4⟩
      · rw [M.bind_ok h3]
        rcases ih (assignAt acc (whereIdx (fun x => decide (x = bl)) births)
          (inds.map (fun k : Nat => some (k : Int)))) w' with ⟨e, w'', he, h5, h6⟩ | ⟨a, w'', h5, h6⟩
        · exact .inl ⟨e, w'', he, h5, fun x hx => h6 x (h4 x hx)⟩
        · exact .inr ⟨a, w'', h5, fun x hx => h6 x (h4 x hx)⟩

theorem birthLoop_spec (hs : logls.Pairwise (· ≤ ·))
    (hle : ∀ (i : Nat) (x y : K), births[i]? = some x → logls[i]? = some y → x ≤ y)
    (hl : births.length = logls.length) (pairs : List (Nat × K))
    (hpairs : ∀ p ∈ pairs, births[p.1]? = some p.2) {acc : List (Option Int)}
    (h : BirthInv births logls init acc) (w : World σ) :
    (∃ e w', (e = .assertion ∨ e = .value) ∧ birthLoop R births logls pairs acc w = (.error e, w') ∧
      ∀ x ∈ w.warns, x ∈ w'.warns) ∨
    (∃ acc' w', birthLoop R births logls pairs acc w = (.ok acc', w') ∧
      ((w'.warns = w.warns ∧ BirthInv births logls init acc') ∨ Warn.moreBirths ∈ w'.warns) ∧
      ∀ x ∈ w.warns, x ∈ w'.warns) := by
  induction pairs generalizing acc w with
  | nil => exact .inr ⟨acc, w, rfl, .inl ⟨rfl, h⟩, fun x hx => hx⟩
  | cons p rest ih =>
    obtain ⟨i, bl⟩ := p
    have hi : births[i]? = some bl := hpairs (i, bl) (by simp)
    have ih' := fun {acc} h w => ih (fun p hp => hpairs p (by simp [hp])) (acc := acc) h w
    rw [birthLoop_cons]
    by_cases hn : acc[i]? = some none
    swap
    · rw [if_pos hn]; exact ih' h w
    rw [if_neg (by simpa using hn)]
    have hne : bl ≠ init := by
      rintro rfl; have := h.init_val i hi; rw [hn] at this; simp at this
    by_cases h1 : (deathsOn logls bl).length = 1
    · rw [if_pos h1]
      obtain ⟨d, hd⟩ := List.length_eq_one_iff.mp h1
      rw [hd]
      exact ih' (birthInv_set hs hle hl h hi hn hd) w
    rw [if_neg h1]
    have hfree : (∀ d ∈ deathsOn logls bl, births[d]? ≠ some bl) →
        ∀ d ∈ deathsOn logls bl, ∀ j ∈ whereIdx (fun x => decide (x = bl)) births, d < j := by
      intro hf d hd j hj
      have hjb := mem_whereIdx_eq.mp hj
      have hjl : j < logls.length := by rw [← hl]; exact (List.getElem?_eq_some_iff.mp hjb).1
      have h2 := hle j _ _ hjb (List.getElem?_eq_getElem hjl)
      rcases lt_or_eq_of_le h2 with h3 | h3
      · exact lt_of_logl_lt hs (mem_deathsOn.mp hd) (List.getElem?_eq_getElem hjl) h3
      · exact absurd hjb (hf j (mem_deathsOn.mpr (by rw [List.getElem?_eq_getElem hjl, h3])))
    rcases dupBirthInds_spec R births bl (deathsOn logls bl)
        (whereIdx (fun x => decide (x = bl)) births) whereIdx_nodup whereIdx_pairwise w with
      ⟨-, he⟩ | ⟨s, he⟩ | ⟨inds, s, hlen, he, a1, a2, a3, a4⟩ | ⟨inds, s, hlen, he, a1, a2, a3⟩
    · rw [M.bind_error he]
      exact .inl ⟨_, _, .inl rfl, rfl, fun x hx => hx⟩
    · rw [M.bind_error he]
      exact .inl ⟨_, _, .inr rfl, rfl, fun x hx => hx⟩
    · rw [M.bind_ok he]
      exact ih' (birthInv_assign h hne a1 a2 a3 (a4 hfree)) { w with rng := s }
    · rw [M.bind_ok he]
      have hany := birthLoop_any R rest (assignAt acc (whereIdx (fun x => decide (x = bl)) births)
          (inds.map (fun k : Nat => some (k : Int)))) { rng := s, warns := w.warns ++ [.moreBirths] }
          (births := births) (logls := logls)
      rcases hany with ⟨e, w', b1, b2, b3⟩ | ⟨acc', w', b1, b2⟩
      · exact .inl ⟨e, w', b1, b2, fun x hx => b3 x (by simp [hx])⟩
      · exact .inr ⟨acc', w', b1, .inr (b2 _ (by simp)), fun x hx => b2 x (by simp [hx])⟩

end loop
end Nestcheck
