import Verif.Model.Multi
import Verif.Props.Summary

/-! C107: `summary_df_from_multi` with any levels. -/

namespace Nestcheck
open Spec

noncomputable section

/-- What a key says about the level with the name `n`. -/
def Spec.valueAt (levels key : List String) (n : String) : String := key.getD (levels.idxOf n) ""

/-- A frame whose cells are numbers. -/
def Spec.realFrame (levels : List String) (m : Nat) (rs : List (List String × List ℝ)) : MultiFrame :=
  ⟨levels, m, rs.map (fun r => (r.1, r.2.map some))⟩

/-- The rows which agree with `g` at the levels `kept`. -/
def Spec.rowsWith (levels kept : List String) (rs : List (List String × List ℝ)) (g : List String) : List (List ℝ) :=
  (rs.filter (fun r => kept.map (valueAt levels r.1) = g)).map Prod.snd

/-- The levels of the summary: those which are kept without the calculation type, and then those of `summary_df`. -/
def Spec.summaryLevels (kept : List String) : List String :=
  kept.filter (· ≠ "calculation type") ++ ["calculation type", "result type"]

/-- The calculation type in the summary of a group: that of the group, if it has one, is put in front. -/
def Spec.jointType (kept g : List String) (c : Calc) : String :=
  if "calculation type" ∈ kept then valueAt kept g "calculation type" ++ " " ++ c.name else c.name

/-- The index of a row of the summary. -/
def Spec.summaryKey (kept g : List String) (c : Calc) (res : Res) : List String :=
  (kept.filter (· ≠ "calculation type")).map (valueAt kept g) ++ [jointType kept g c, res.name]

/-- The rows of the summary for the groups `gs`. -/
def Spec.multiRows (levels kept : List String) (m : Nat) (rs : List (List String × List ℝ)) (tv : List ℝ) (incTrue incRmse : Bool)
    (gs : List (List String)) : List (List String × List Cell) :=
  gs.flatMap (fun g => (summaryTable m (rowsWith levels kept rs g) tv false incRmse).map (fun s => (summaryKey kept g s.1.1 s.1.2, s.2))) ++
  if incTrue then [((kept.filter (· ≠ "calculation type")).map (fun _ => "") ++ ["true values", "value"], tv.map some)] else []

/-- Ascending order of the groups: by the first level in which they differ. -/
def Spec.earlier : List String → List String → Prop
  | [], _ => True
  | _ :: _, [] => False
  | a :: as, b :: bs => a < b ∨ a = b ∧ earlier as bs

theorem levelNumber_ok {levels : List String} (h : levels.Nodup) {n : String} (hn : n ∈ levels) : levelNumber levels n = .ok (levels.idxOf n) := by
  unfold levelNumber
  rw [List.count_eq_one_of_mem h hn]
  simp

theorem levelNumbers_ok {levels : List String} (h : levels.Nodup) {ns : List String} (hn : ∀ n ∈ ns, n ∈ levels) :
    levelNumbers levels ns = .ok (ns.map (levels.idxOf ·)) := by
  induction ns with
  | nil => rfl
  | cons n ns ih =>
    rw [levelNumbers, levelNumber_ok h (hn n (by simp)), ih fun k hk => hn k (by simp [hk])]
    rfl

theorem keyAt_levels {levels key ns : List String} : keyAt key (ns.map (levels.idxOf ·)) = ns.map (valueAt levels key) := by
  unfold keyAt valueAt
  rw [List.map_map]
  rfl

/-- Looking up a level in a list made from the names. -/
theorem valueAt_map {A B C : List String} {v : String → String} {n : String} (hn : n ∈ A) : valueAt (A ++ B) (A.map v ++ C) n = v n := by
  unfold valueAt
  have hlt := List.idxOf_lt_length_of_mem hn
  rw [List.idxOf_append_of_mem hn, List.getD_eq_getElem?_getD, List.getElem?_append_left (by simpa using hlt), List.getElem?_map,
    List.getElem?_eq_getElem hlt, List.getElem_idxOf]
  rfl

theorem valueAt_self {A : List String} {v : String → String} {n : String} (hn : n ∈ A) : valueAt A (A.map v) n = v n := by
  simpa using valueAt_map (A := A) (B := []) (C := []) (v := v) hn

theorem valueAt_skip {A B C D : List String} {n : String} (hn : n ∉ A) (hl : A.length = C.length) :
    valueAt (A ++ B) (C ++ D) n = valueAt B D n := by
  unfold valueAt
  rw [List.idxOf_append_of_notMem hn, List.getD_eq_getElem?_getD, List.getElem?_append_right (by omega), ← List.getD_eq_getElem?_getD, hl,
    Nat.add_sub_cancel_left]

theorem keyLE_order : (∀ a b : List String, keyLE a b ∨ keyLE b a) ∧ (∀ a b c : List String, keyLE a b → keyLE b c → keyLE a c) :=
  ⟨fun a b => List.le_total _ _, fun a b c => List.le_trans⟩

theorem earlier_of_keyLE {a b : List String} (h : keyLE a b) : earlier a b := by
  induction a generalizing b with
  | nil => trivial
  | cons x a ih =>
    cases b with
    | nil =>
      refine absurd h ?_
      unfold keyLE
      simp
    | cons y b =>
      unfold keyLE at h
      rw [List.map_cons, List.map_cons, List.cons_le_cons_iff] at h
      rcases h with h | ⟨h, h'⟩
      · exact .inl (String.lt_iff.mpr h)
      · exact .inr ⟨String.toList_inj.mp h, ih h'⟩

theorem multiKeys_sorted (f : MultiFrame) (places : List Nat) : (multiKeys f places).Pairwise earlier ∧ (multiKeys f places).Nodup ∧
    ∀ g, g ∈ multiKeys f places ↔ ∃ r ∈ f.rows, keyAt r.1 places = g := by
  classical
  have : Std.Total keyLE := ⟨keyLE_order.1⟩
  have : IsTrans (List String) keyLE := ⟨keyLE_order.2⟩
  unfold multiKeys
  refine ⟨(List.pairwise_insertionSort _ _).imp earlier_of_keyLE, (List.perm_insertionSort _ _).nodup_iff.mpr (List.nodup_dedup _), fun g => ?_⟩
  rw [(List.perm_insertionSort _ _).mem_iff, List.mem_dedup, List.mem_map]

/-- The result of `groupby(...).apply(summary_df, ...)`. -/
theorem groupApply_ok {levels kept : List String} {m : Nat} {rs : List (List String × List ℝ)} (hlev : levels.Nodup)
    (h0 : kept ≠ []) (hnd : kept.Nodup) (hsub : ∀ n ∈ kept, n ∈ levels) (hcell : ∀ r ∈ rs, r.2.length = m) (hrs : rs ≠ [])
    (h2 : ∀ g, rowsWith levels kept rs g ≠ [] → 2 ≤ (rowsWith levels kept rs g).length)
    {tv : Option (List ℝ)} (ht : ∀ v, tv = some v → v.length = m) {incRmse : Bool} (hs : incRmse = true → tv.isSome) :
    ∃ gs : List (List String), gs.Pairwise earlier ∧ gs.Nodup ∧ (∀ g, g ∈ gs ↔ ∃ r ∈ rs, kept.map (valueAt levels r.1) = g) ∧
      groupApply (realFrame levels m rs) kept tv incRmse = .ok ⟨kept ++ ["calculation type", "result type"], m,
        gs.flatMap (fun g => (summaryTable m (rowsWith levels kept rs g) (tv.getD []) false incRmse).map
          (fun s => (g ++ [s.1.1.name, s.1.2.name], s.2)))⟩ := by
  set f := realFrame levels m rs with hf
  set places := kept.map (levels.idxOf ·) with hp
  obtain ⟨k1, k2, k3⟩ := multiKeys_sorted f places
  have hmem : ∀ g, g ∈ multiKeys f places ↔ ∃ r ∈ rs, kept.map (valueAt levels r.1) = g := by
    intro g
    rw [k3, hf]
    simp only [realFrame, List.mem_map, exists_exists_and_eq_and, hp, keyAt_levels]
  refine ⟨multiKeys f places, k1, k2, hmem, ?_⟩
  have hsum : ∀ gs : List (List String), (∀ g ∈ gs, g ∈ multiKeys f places) → multiSummaries f places tv incRmse gs =
      .ok (gs.flatMap (fun g => (summaryTable m (rowsWith levels kept rs g) (tv.getD []) false incRmse).map
        (fun s => (g ++ [s.1.1.name, s.1.2.name], s.2)))) := by
    intro gs
    induction gs with
    | nil => intro _; rfl
    | cons g gs ih =>
      intro hg
      have hgroup : multiGroup f places g = realArr m (rowsWith levels kept rs g) := by
        unfold multiGroup realArr rowsWith
        rw [hf]
        simp only [realFrame, List.filter_map, List.map_map, hp]
        congr 1
        simp only [Function.comp_def, keyAt_levels]
      have hne : rowsWith levels kept rs g ≠ [] := by
        obtain ⟨r, hr, hrg⟩ := (hmem g).mp (hg g (by simp))
        intro h
        have : r.2 ∈ rowsWith levels kept rs g := List.mem_map.mpr ⟨r, List.mem_filter.mpr ⟨hr, by simpa using hrg⟩, rfl⟩
        rw [h] at this
        cases this
      have hlen : ∀ row ∈ rowsWith levels kept rs g, row.length = m := by
        intro row hrow
        obtain ⟨r, hr, rfl⟩ := List.mem_map.mp hrow
        exact hcell r (List.mem_filter.mp hr).1
      rw [multiSummaries, hgroup, C48 hlen (h2 g hne) ht (by intro h; exact hs (by simpa using h)), ih fun k hk => hg k (by simp [hk])]
      rfl
  unfold groupApply
  have e1 : levelNumbers f.levels kept = .ok places := levelNumbers_ok (by simpa [hf, realFrame] using hlev) (by simpa [hf, realFrame] using hsub)
  have e2 : ¬ (¬ kept.Nodup ∨ f.rows = []) := by
    simp only [hf, realFrame, List.map_eq_nil_iff]
    tauto
  rw [e1]
  simp only [if_neg h0, if_neg e2]
  change (multiSummaries f places tv incRmse (multiKeys f places) >>= _) = _
  rw [hsum _ (fun _ h => h)]
  rfl

theorem renameLevel_ne {n : String} (h : n ≠ "calculation type") : renameLevel n = n := by simp [renameLevel, h]

theorem renameLevel_inj {levels : List String} (h : "calculation type temp" ∉ levels) :
    ∀ a ∈ levels, ∀ b ∈ levels, renameLevel a = renameLevel b → a = b := by
  intro a ha b hb hab
  by_cases h1 : a = "calculation type" <;> by_cases h2 : b = "calculation type"
  · rw [h1, h2]
  · rw [h1, renameLevel_ne h2] at hab
    simp only [renameLevel, ne_eq, not_true_eq_false, if_false] at hab
    rw [← hab] at hb
    exact absurd hb h
  · rw [h2, renameLevel_ne h1] at hab
    simp only [renameLevel, ne_eq, not_true_eq_false, if_false] at hab
    rw [hab] at ha
    exact absurd ha h
  · rwa [renameLevel_ne h1, renameLevel_ne h2] at hab

theorem valueAt_rename {levels key : List String} (h : "calculation type temp" ∉ levels) {n : String} (hn : n ∈ levels) :
    valueAt (levels.map renameLevel) key (renameLevel n) = valueAt levels key n := by
  have : (levels.map renameLevel).idxOf (renameLevel n) = levels.idxOf n := by
    have key : ∀ l : List String, (∀ a ∈ l, a ∈ levels) → (l.map renameLevel).idxOf (renameLevel n) = l.idxOf n := by
      intro l
      induction l with
      | nil => intro _; rfl
      | cons a l ih =>
        intro hl
        rw [List.map_cons, List.idxOf_cons, List.idxOf_cons, ih fun x hx => hl x (by simp [hx])]
        by_cases hc : a = n
        · simp [hc]
        · have : renameLevel a ≠ renameLevel n := fun h' => hc (renameLevel_inj h _ (hl a (by simp)) _ hn h')
          simp [beq_false_of_ne hc, beq_false_of_ne this]
    exact key levels fun _ h => h
  unfold valueAt
  rw [this]

/-- Joining the two calculation types. -/
theorem joinTypes_ok {kept : List String} (hnd : kept.Nodup) (hct : "calculation type" ∈ kept) (htemp : "calculation type temp" ∉ kept)
    (hrt : "result type" ∉ kept) {m : Nat} {gs : List (List String)} (hg : ∀ g ∈ gs, ∃ v : String → String, g = kept.map v)
    {T : List String → Table} :
    joinTypes ⟨kept.map renameLevel ++ ["calculation type", "result type"], m,
      gs.flatMap (fun g => (T g).map (fun s => (g ++ [s.1.1.name, s.1.2.name], s.2)))⟩ =
    .ok ⟨summaryLevels kept, m, gs.flatMap (fun g => (T g).map (fun s => (summaryKey kept g s.1.1 s.1.2, s.2)))⟩ := by
  set A := kept.filter (· ≠ "calculation type") with hA
  have hAmem : ∀ n ∈ A, n ∈ kept ∧ n ≠ "calculation type" := fun n hn => by simpa [hA] using hn
  set L := kept.map renameLevel ++ ["calculation type", "result type"] with hL
  have hinj := renameLevel_inj htemp
  have hm1 : "calculation type" ∉ kept.map renameLevel := by
    intro h
    obtain ⟨a, ha, e⟩ := List.mem_map.mp h
    by_cases h1 : a = "calculation type"
    · rw [h1] at e; exact absurd e (by decide)
    · rw [renameLevel_ne h1] at e; exact h1 e
  have hm2 : "result type" ∉ kept.map renameLevel := by
    intro h
    obtain ⟨a, ha, e⟩ := List.mem_map.mp h
    by_cases h1 : a = "calculation type"
    · rw [h1] at e; exact absurd e (by decide)
    · rw [renameLevel_ne h1] at e; rw [e] at ha; exact hrt ha
  have hLnd : L.Nodup := by
    rw [hL, List.nodup_append]
    refine ⟨List.Nodup.map_on hinj hnd, by decide, ?_⟩
    intro a ha b hb
    simp only [List.mem_cons, List.not_mem_nil, or_false] at hb
    rcases hb with rfl | rfl
    · rintro rfl; exact hm1 ha
    · rintro rfl; exact hm2 ha
  have htm : "calculation type temp" ∈ kept.map renameLevel := List.mem_map.mpr ⟨_, hct, by simp [renameLevel]⟩
  have hfilter : ∀ p : String → Bool, (∀ n, n ≠ "calculation type" → n ≠ "calculation type temp" → p n = true) → p "calculation type temp" = false →
      (kept.map renameLevel).filter p = A := by
    intro p h1 h2
    rw [List.filter_map, hA]
    have e1 : kept.filter (p ∘ renameLevel) = kept.filter (fun n => decide (n ≠ "calculation type")) := by
      apply List.filter_congr
      intro n hn
      by_cases hc : n = "calculation type"
      · simp [hc, renameLevel, h2]
      · simp only [Function.comp, renameLevel_ne hc, hc, ne_eq, not_false_eq_true, decide_true]
        exact h1 n hc (fun h => htemp (h ▸ hn))
    rw [e1]
    conv_rhs => rw [← List.map_id (kept.filter _)]
    apply List.map_congr_left
    intro n hn
    exact renameLevel_ne (by simpa using (List.mem_filter.mp hn).2)
  have horder : L.erase "calculation type temp" = summaryLevels kept := by
    rw [hL, List.erase_append_left _ htm, (List.Nodup.map_on hinj hnd).erase_eq_filter]
    unfold summaryLevels
    congr 1
    exact hfilter _ (fun n _ h => by simpa using h) (by simp)
  have hlev : L.filter (fun n => decide (n ∉ ["calculation type", "calculation type temp"])) ++ ["calculation type"] =
      A ++ ["result type", "calculation type"] := by
    rw [hL, List.filter_append, hfilter _ (fun n h1 h2 => by simp [h1, h2]) (by simp)]
    simp
  have hAnd : (A ++ ["result type", "calculation type"]).Nodup := by
    rw [List.nodup_append]
    refine ⟨hnd.filter _, by decide, ?_⟩
    intro a ha b hb
    simp only [List.mem_cons, List.not_mem_nil, or_false] at hb
    rcases hb with rfl | rfl
    · rintro rfl; exact hrt (hAmem _ ha).1
    · rintro rfl; exact (hAmem _ ha).2 rfl
  have hplaces : levelNumbers (A ++ ["result type", "calculation type"]) (summaryLevels kept) =
      .ok ((summaryLevels kept).map ((A ++ ["result type", "calculation type"]).idxOf ·)) := by
    refine levelNumbers_ok hAnd fun n hn => ?_
    simp only [summaryLevels, List.mem_append, List.mem_cons, List.not_mem_nil, or_false] at hn ⊢
    tauto
  unfold joinTypes
  dsimp only
  rw [levelNumber_ok hLnd (by rw [hL]; simp only [List.mem_append]; exact .inl htm), levelNumber_ok hLnd (by rw [hL]; simp)]
  change (levelNumbers (L.filter (fun n => decide (n ∉ ["calculation type", "calculation type temp"])) ++ ["calculation type"])
    (L.erase "calculation type temp") >>= _) = _
  rw [hlev, horder, hplaces]
  change Except.ok _ = Except.ok _
  congr 1
  rw [MultiFrame.mk.injEq]
  refine ⟨rfl, rfl, ?_⟩
  rw [List.map_map, List.map_flatMap]
  rw [List.flatMap_def, List.flatMap_def]
  congr 1
  apply List.map_congr_left
  intro g hgm
  obtain ⟨v, hv⟩ := hg g hgm
  rw [List.map_map]
  apply List.map_congr_left
  intro s _
  simp only [Function.comp, Prod.mk.injEq, and_true]
  rw [keyAt_levels]
  set joined := (g ++ [s.1.1.name, s.1.2.name]).getD (L.idxOf "calculation type temp") "" ++ " " ++
    (g ++ [s.1.1.name, s.1.2.name]).getD (L.idxOf "calculation type") "" with hj
  have hdrop : dropLevels L ["calculation type", "calculation type temp"] (g ++ [s.1.1.name, s.1.2.name]) = A.map v ++ [s.1.2.name] := by
    unfold dropLevels
    rw [hL, hv, List.zip_append (by simp), List.filter_append, List.map_append]
    congr 1
    rw [List.zip_map', List.filter_map, List.map_map]
    have : kept.filter ((fun p : String × String => decide (p.1 ∉ ["calculation type", "calculation type temp"])) ∘ fun x => (renameLevel x, v x)) = A := by
      rw [hA]
      apply List.filter_congr
      intro n hn
      by_cases hc : n = "calculation type"
      · simp [hc, renameLevel]
      · have : n ≠ "calculation type temp" := fun h => htemp (h ▸ hn)
        simp [renameLevel_ne hc, hc, this]
    rw [this]
    rfl
  have hgl : (kept.map renameLevel).length = g.length := by rw [hv]; simp
  have hjoined : joined = jointType kept g s.1.1 := by
    rw [hj]
    change valueAt L _ _ ++ " " ++ valueAt L _ _ = _
    rw [jointType, if_pos hct]
    congr 1
    · congr 1
      rw [hL]
      unfold valueAt
      rw [List.idxOf_append_of_mem htm, List.getD_eq_getElem?_getD, List.getElem?_append_left, ← List.getD_eq_getElem?_getD]
      · exact valueAt_rename (key := g) htemp hct
      · rw [← hgl]
        exact List.idxOf_lt_length_of_mem htm
    · rw [hL, valueAt_skip hm1 hgl]
      rfl
  rw [hdrop, hjoined, summaryLevels, summaryKey, List.map_append]
  have hAl : A.length = (A.map v).length := by simp
  have hr1 : "result type" ∉ A := fun h => hrt (hAmem _ h).1
  have hr2 : "calculation type" ∉ A := fun h => (hAmem _ h).2 rfl
  congr 1
  · apply List.map_congr_left
    intro n hn
    rw [List.append_assoc, valueAt_map hn, hv, valueAt_self (hAmem n hn).1]
  · simp only [List.map_cons, List.map_nil, List.append_assoc]
    rw [valueAt_skip hr2 hAl, valueAt_skip hr1 hAl]
    simp [valueAt]

/-- The projections of the rows, written with the new names of the levels. -/
theorem rowsWith_rename {levels kept : List String} (htemp : "calculation type temp" ∉ levels) (hsub : ∀ n ∈ kept, n ∈ levels) (key : List String) :
    (kept.map renameLevel).map (valueAt (levels.map renameLevel) key) = kept.map (valueAt levels key) := by
  rw [List.map_map]
  apply List.map_congr_left
  intro n hn
  exact valueAt_rename htemp (hsub n hn)

theorem summaryKey_plain {kept g : List String} (hct : "calculation type" ∉ kept) {v : String → String} (hv : g = kept.map v) (c : Calc) (res : Res) :
    summaryKey kept g c res = g ++ [c.name, res.name] := by
  have hA : kept.filter (fun n => decide (n ≠ "calculation type")) = kept := by
    rw [List.filter_eq_self]
    intro n hn
    simpa using fun h : n = "calculation type" => hct (h ▸ hn)
  unfold summaryKey jointType
  rw [if_neg hct, hA]
  congr 1
  rw [hv]
  exact List.map_congr_left fun n hn => valueAt_self hn

theorem summaryKey_true {kept g : List String} {c : Calc} (hc : c = .mean ∨ c = .std ∨ c = .rmse) {res : Res} {w : List String}
    (hw : w.length = (kept.filter (· ≠ "calculation type")).length) :
    summaryKey kept g c res ≠ w ++ ["true values", "value"] := by
  intro h
  unfold summaryKey at h
  obtain ⟨-, h⟩ := List.append_inj h (by simp [hw])
  simp only [List.cons.injEq, and_true] at h
  obtain ⟨h, -⟩ := h
  unfold jointType at h
  split at h
  · have h' : _ ++ " " ++ c.name = "true" ++ " " ++ "values" := h
    have := (space_inj (calc_noSpace hc) (by decide) h').2
    rcases hc with rfl | rfl | rfl <;> exact absurd this (by decide)
  · rcases hc with rfl | rfl | rfl <;> exact absurd h (by decide)

/-- **C107**: `summary_df_from_multi` for any levels. -/
theorem C107 {levels : List String} {m : Nat} {rs : List (List String × List ℝ)} {inds : Option (List String)} {kept : List String}
    (hkept : kept = inds.getD levels.dropLast) (hlev : levels.Nodup) (htemp : "calculation type temp" ∉ levels)
    (h0 : kept ≠ []) (hnd : kept.Nodup) (hsub : ∀ n ∈ kept, n ∈ levels) (hrt : "result type" ∉ kept)
    (hcell : ∀ r ∈ rs, r.2.length = m) (hrs : rs ≠ [])
    (h2 : ∀ g, rowsWith levels kept rs g ≠ [] → 2 ≤ (rowsWith levels kept rs g).length)
    {tv : Option (List ℝ)} (ht : ∀ v, tv = some v → v.length = m) {incTrue incRmse : Bool} (hs : incTrue || incRmse → tv.isSome) :
    ∃ gs : List (List String), gs.Pairwise earlier ∧ gs.Nodup ∧ (∀ g, g ∈ gs ↔ ∃ r ∈ rs, kept.map (valueAt levels r.1) = g) ∧
      summaryDfMulti (realFrame levels m rs) inds tv incTrue incRmse =
        (.ok ⟨summaryLevels kept, m, multiRows levels kept m rs (tv.getD []) incTrue incRmse gs⟩, realFrame levels m rs) := by
  set A := kept.filter (· ≠ "calculation type") with hA
  have base : ∃ gs : List (List String), gs.Pairwise earlier ∧ gs.Nodup ∧ (∀ g, g ∈ gs ↔ ∃ r ∈ rs, kept.map (valueAt levels r.1) = g) ∧
      (if "calculation type" ∉ kept then (groupApply (realFrame levels m rs) kept tv incRmse, realFrame levels m rs)
       else (groupApply { realFrame levels m rs with levels := (realFrame levels m rs).levels.map renameLevel } (kept.map renameLevel) tv incRmse
          >>= joinTypes, realFrame levels m rs)) =
        ((.ok ⟨summaryLevels kept, m, gs.flatMap (fun g => (summaryTable m (rowsWith levels kept rs g) (tv.getD []) false incRmse).map
          (fun s => (summaryKey kept g s.1.1 s.1.2, s.2)))⟩ : Py MultiFrame), realFrame levels m rs) := by
    by_cases hct : "calculation type" ∈ kept
    · rw [if_neg (not_not_intro hct)]
      have hinj := renameLevel_inj htemp
      have hrow : ∀ g, rowsWith (levels.map renameLevel) (kept.map renameLevel) rs g = rowsWith levels kept rs g := by
        intro g
        unfold rowsWith
        simp only [rowsWith_rename htemp hsub]
      obtain ⟨gs, g1, g2, g3, g4⟩ := groupApply_ok (levels := levels.map renameLevel) (kept := kept.map renameLevel) (m := m) (rs := rs)
        (List.Nodup.map_on hinj hlev) (by simpa using h0)
        (List.Nodup.map_on (fun a ha b hb => hinj a (hsub a ha) b (hsub b hb)) hnd)
        (fun n hn => by
          obtain ⟨a, ha, rfl⟩ := List.mem_map.mp hn
          exact List.mem_map_of_mem (hsub a ha)) hcell hrs (by simpa only [hrow] using h2) ht (incRmse := incRmse) (fun h => hs (by simp [h]))
      simp only [rowsWith_rename htemp hsub] at g3
      simp only [hrow] at g4
      refine ⟨gs, g1, g2, g3, ?_⟩
      change (groupApply (realFrame (levels.map renameLevel) m rs) (kept.map renameLevel) tv incRmse >>= joinTypes, realFrame levels m rs) = _
      rw [g4]
      change (joinTypes _, _) = _
      rw [joinTypes_ok hnd hct (fun h => htemp (hsub _ h)) hrt fun g hg => by
        obtain ⟨r, -, h⟩ := (g3 g).mp hg
        exact ⟨_, h.symm⟩]
    · rw [if_pos hct]
      obtain ⟨gs, g1, g2, g3, g4⟩ := groupApply_ok hlev h0 hnd hsub hcell hrs h2 ht (incRmse := incRmse) (fun h => hs (by simp [h]))
      refine ⟨gs, g1, g2, g3, ?_⟩
      have hself : kept.filter (fun n => decide (n ≠ "calculation type")) = kept := by
        rw [List.filter_eq_self]
        intro n hn
        simpa using fun h : n = "calculation type" => hct (h ▸ hn)
      rw [g4, Prod.mk.injEq]
      refine ⟨?_, rfl⟩
      congr 1
      rw [MultiFrame.mk.injEq]
      refine ⟨by rw [summaryLevels, hself], rfl, ?_⟩
      rw [List.flatMap_def, List.flatMap_def]
      congr 1
      apply List.map_congr_left
      intro g hg
      obtain ⟨r, -, h⟩ := (g3 g).mp hg
      apply List.map_congr_left
      intro s _
      rw [summaryKey_plain hct h.symm]
  obtain ⟨gs, g1, g2, g3, g4⟩ := base
  refine ⟨gs, g1, g2, g3, ?_⟩
  unfold summaryDfMulti
  dsimp only
  rw [show (realFrame levels m rs).levels = levels from rfl, ← hkept] at *
  simp only [g4]
  cases incTrue with
  | false => simp [multiRows]
  | true =>
    obtain ⟨v, rfl⟩ := Option.isSome_iff_exists.mp (hs rfl)
    change (Except.ok _, _) = (Except.ok _, _)
    congr 2
    rw [MultiFrame.mk.injEq]
    refine ⟨rfl, rfl, ?_⟩
    have hkey : (summaryLevels kept).dropLast.map (fun n => if n = "calculation type" then "true values" else "") ++ ["value"] =
        A.map (fun _ => "") ++ ["true values", "value"] := by
      unfold summaryLevels
      rw [show ["calculation type", "result type"] = ["calculation type"] ++ ["result type"] from rfl, ← List.append_assoc, List.dropLast_concat,
        List.map_append, List.append_assoc]
      congr 1
      apply List.map_congr_left
      intro n hn
      rw [if_neg (by simpa using (List.mem_filter.mp hn).2)]
    unfold setRow multiRows
    rw [hkey, if_neg, if_pos rfl]
    · rfl
    · intro hany
      obtain ⟨r, hr, he⟩ := List.any_eq_true.mp hany
      simp only [List.mem_flatMap, List.mem_map] at hr
      obtain ⟨g, -, ⟨⟨c, res⟩, row⟩, hs, rfl⟩ := hr
      exact summaryKey_true (summaryTable_calc hs) (by simp [hA]) (of_decide_eq_true he)

/-- **C107, the index**: no two rows of the summary have the same index, so `df.loc[...]` finds one row. -/
theorem C107_index {levels kept : List String} {m : Nat} {rs : List (List String × List ℝ)} {tv : List ℝ} {incTrue incRmse : Bool}
    {gs : List (List String)} (hgs : gs.Nodup) (hg : ∀ g ∈ gs, ∃ v : String → String, g = kept.map v) :
    ((multiRows levels kept m rs tv incTrue incRmse gs).map Prod.fst).Nodup := by
  have hkey : ∀ {g g' : List String} {c c' : Calc} {res res' : Res}, g ∈ gs → g' ∈ gs → (c = .mean ∨ c = .std ∨ c = .rmse) →
      (c' = .mean ∨ c' = .std ∨ c' = .rmse) → summaryKey kept g c res = summaryKey kept g' c' res' → g = g' ∧ c = c' ∧ res = res' := by
    intro g g' c c' res res' hgm hgm' hc hc' h
    unfold summaryKey at h
    obtain ⟨h1, h2⟩ := List.append_inj h (by simp)
    simp only [List.cons.injEq, and_true] at h2
    obtain ⟨h2, h3⟩ := h2
    have hres : res = res' := by cases res <;> cases res' <;> first | rfl | exact absurd h3 (by decide)
    have hcc : (∀ n ∈ kept, valueAt kept g n = valueAt kept g' n) ∧ c = c' := by
      unfold jointType at h2
      by_cases hct : "calculation type" ∈ kept
      · rw [if_pos hct, if_pos hct] at h2
        obtain ⟨e1, e2⟩ := space_inj (calc_noSpace hc) (calc_noSpace hc') h2
        refine ⟨fun n hn => ?_, calc_name_inj hc hc' e2⟩
        by_cases hn' : n = "calculation type"
        · rw [hn']; exact e1
        · exact List.map_inj_left.mp h1 n (List.mem_filter.mpr ⟨hn, by simpa using hn'⟩)
      · rw [if_neg hct, if_neg hct] at h2
        refine ⟨fun n hn => ?_, calc_name_inj hc hc' h2⟩
        exact List.map_inj_left.mp h1 n (List.mem_filter.mpr ⟨hn, by simpa using fun h : n = "calculation type" => hct (h ▸ hn)⟩)
    refine ⟨?_, hcc.2, hres⟩
    obtain ⟨v, hv⟩ := hg g hgm
    obtain ⟨v', hv'⟩ := hg g' hgm'
    rw [hv, hv']
    apply List.map_congr_left
    intro n hn
    have := hcc.1 n hn
    rwa [hv, hv', valueAt_self hn, valueAt_self hn] at this
  unfold multiRows
  rw [List.map_append, List.nodup_append]
  refine ⟨?_, by cases incTrue <;> simp, ?_⟩
  · rw [List.map_flatMap, List.nodup_flatMap]
    refine ⟨fun g hgm => ?_, ?_⟩
    · rw [List.map_map]
      have he : (summaryTable m (rowsWith levels kept rs g) tv false incRmse).map
            (Prod.fst ∘ fun s => (summaryKey kept g s.1.1 s.1.2, s.2)) =
          ((summaryTable m (rowsWith levels kept rs g) tv false incRmse).map Prod.fst).map (fun k => summaryKey kept g k.1 k.2) := by
        rw [List.map_map]; rfl
      rw [he]
      refine List.Nodup.map_on ?_ (summaryTable_nodup m _ tv incRmse)
      rintro ⟨c, res⟩ hc ⟨c', res'⟩ hc' heq
      obtain ⟨x, hx, hx'⟩ := List.mem_map.mp hc
      obtain ⟨y, hy, hy'⟩ := List.mem_map.mp hc'
      have hc := summaryTable_calc (c := c) (res := res) (row := x.2) (by rw [← hx']; exact hx)
      have hc' := summaryTable_calc (c := c') (res := res') (row := y.2) (by rw [← hy']; exact hy)
      obtain ⟨-, h1, h2⟩ := hkey hgm hgm hc hc' heq
      exact Prod.ext h1 h2
    · refine (List.Pairwise.and_mem.mp hgs).imp ?_
      rintro g g' ⟨hgm, hgm', hne⟩ x hx hx'
      simp only [List.mem_map] at hx hx'
      obtain ⟨-, ⟨⟨⟨c, res⟩, row⟩, h1, rfl⟩, rfl⟩ := hx
      obtain ⟨-, ⟨⟨⟨c', res'⟩, row'⟩, h1', rfl⟩, he⟩ := hx'
      exact hne (hkey hgm hgm' (summaryTable_calc h1) (summaryTable_calc h1') he.symm).1
  · intro a ha b hb
    cases incTrue with
    | false => simp at hb
    | true =>
      simp only [if_true, List.map_cons, List.map_nil, List.mem_singleton] at hb
      simp only [List.mem_map, List.mem_flatMap] at ha
      obtain ⟨-, ⟨g, hgm, ⟨⟨⟨c, res⟩, row⟩, h1, rfl⟩⟩, rfl⟩ := ha
      rw [hb]
      exact summaryKey_true (summaryTable_calc h1) (by simp)

theorem levelNumbers_unknown {levels : List String} (h : levels.Nodup) {ns : List String} (hn : ∃ n ∈ ns, n ∉ levels) :
    levelNumbers levels ns = .error .key := by
  induction ns with
  | nil => simp at hn
  | cons a ns ih =>
    rw [levelNumbers]
    by_cases ha : a ∈ levels
    · obtain ⟨n, hm, hn⟩ := hn
      rcases List.mem_cons.mp hm with rfl | hm
      · exact absurd ha hn
      rw [levelNumber_ok h ha, ih ⟨n, hm, hn⟩]
      rfl
    · unfold levelNumber
      rw [if_pos (List.count_eq_zero_of_not_mem ha)]
      rfl

/-- **C107, rejected levels**: an index has to have the levels which are kept, and there must be one.  (With
`inds_to_keep=None` there is none if the index has one level.) -/
theorem C107_levels (f : MultiFrame) (inds : Option (List String)) (tv : Option (List ℝ)) (incTrue incRmse : Bool) :
    (inds.getD f.levels.dropLast = [] → summaryDfMulti f inds tv incTrue incRmse = (.error .value, f)) ∧
    (f.levels.Nodup → "calculation type temp" ∉ f.levels → "calculation type temp" ∉ inds.getD [] → (∃ n ∈ inds.getD [], n ∉ f.levels) →
      summaryDfMulti f inds tv incTrue incRmse = (.error .key, f)) := by
  refine ⟨fun h => ?_, fun hnd ht ht' hn => ?_⟩
  · unfold summaryDfMulti
    rw [h]
    rfl
  · cases inds with
    | none => simp at hn
    | some kept =>
      simp only [Option.getD_some] at ht' hn
      unfold summaryDfMulti
      simp only [Option.getD_some]
      split
      · rw [groupApply, levelNumbers_unknown hnd hn]
        rfl
      · have hn' : ∃ n ∈ kept.map renameLevel, n ∉ f.levels.map renameLevel := by
          obtain ⟨n, h1, h2⟩ := hn
          refine ⟨renameLevel n, List.mem_map_of_mem h1, fun h => ?_⟩
          obtain ⟨a, ha, he⟩ := List.mem_map.mp h
          refine h2 ?_
          rwa [← renameLevel_inj (levels := n :: f.levels) (by
            rw [List.mem_cons]
            rintro (rfl | h)
            · exact ht' h1
            · exact ht h) a (by simp [ha]) n (by simp) he]
        rw [groupApply, levelNumbers_unknown (List.Nodup.map_on (renameLevel_inj ht) hnd) hn']
        rfl

/-- The rows of the temporary frame are those of the frame. -/
theorem multiSummaries_error {f : MultiFrame} {places : List Nat} {tv : Option (List ℝ)} {incRmse : Bool} {e : PyErr} {gs : List (List String)}
    (h : ∀ g ∈ gs, (∃ s, summaryDf (multiGroup f places g) tv false incRmse = .ok s) ∨ summaryDf (multiGroup f places g) tv false incRmse = .error e)
    (h1 : ∃ g ∈ gs, summaryDf (multiGroup f places g) tv false incRmse = .error e) :
    multiSummaries f places tv incRmse gs = .error e := by
  induction gs with
  | nil => simp at h1
  | cons g gs ih =>
    rw [multiSummaries]
    rcases h g (by simp) with ⟨s, hs⟩ | hs
    · obtain ⟨g', hm, he⟩ := h1
      rcases List.mem_cons.mp hm with rfl | hm
      · rw [hs] at he; cases he
      rw [hs, ih (fun k hk => h k (by simp [hk])) ⟨g', hm, he⟩]
      rfl
    · rw [hs]
      rfl

theorem groupApply_error {levels kept : List String} {m : Nat} {rs : List (List String × List ℝ)} (hlev : levels.Nodup)
    (h0 : kept ≠ []) (hnd : kept.Nodup) (hsub : ∀ n ∈ kept, n ∈ levels) (hrs : rs ≠ []) {tv : Option (List ℝ)} {incRmse : Bool} {e : PyErr}
    (h : ∀ g, (∃ s, summaryDf (realArr m (rowsWith levels kept rs g)) tv false incRmse = .ok s) ∨
      summaryDf (realArr m (rowsWith levels kept rs g)) tv false incRmse = .error e ∨ rowsWith levels kept rs g = [])
    (h1 : ∃ g, rowsWith levels kept rs g ≠ [] ∧ summaryDf (realArr m (rowsWith levels kept rs g)) tv false incRmse = .error e) :
    groupApply (realFrame levels m rs) kept tv incRmse = .error e := by
  set f := realFrame levels m rs with hf
  set places := kept.map (levels.idxOf ·) with hp
  obtain ⟨-, -, k3⟩ := multiKeys_sorted f places
  have hmem : ∀ g, g ∈ multiKeys f places ↔ rowsWith levels kept rs g ≠ [] := by
    intro g
    rw [k3, hf]
    simp only [realFrame, List.mem_map, exists_exists_and_eq_and, hp, keyAt_levels]
    rw [rowsWith, ne_eq, List.map_eq_nil_iff, List.filter_eq_nil_iff]
    push Not
    simp
  have hgroup : ∀ g, multiGroup f places g = realArr m (rowsWith levels kept rs g) := by
    intro g
    unfold multiGroup realArr rowsWith
    rw [hf]
    simp only [realFrame, List.filter_map, List.map_map, hp]
    congr 1
    simp only [Function.comp_def, keyAt_levels]
  unfold groupApply
  have e1 : levelNumbers f.levels kept = .ok places := levelNumbers_ok (by simpa [hf, realFrame] using hlev) (by simpa [hf, realFrame] using hsub)
  have e2 : ¬ (¬ kept.Nodup ∨ f.rows = []) := by
    simp only [hf, realFrame, List.map_eq_nil_iff]
    tauto
  rw [e1]
  simp only [if_neg h0, if_neg e2]
  change (multiSummaries f places tv incRmse (multiKeys f places) >>= _) = _
  rw [multiSummaries_error (e := e)]
  · rfl
  · intro g hg
    rw [hgroup]
    rcases h g with h | h | h
    · exact .inl h
    · exact .inr h
    · exact absurd h ((hmem g).mp hg)
  · obtain ⟨g, hg, he⟩ := h1
    exact ⟨g, (hmem g).mpr hg, by rw [hgroup]; exact he⟩

/-- If `groupby(...).apply(...)` raises an error for the kept levels, so does `summary_df_from_multi`. -/
theorem summaryDfMulti_error {levels : List String} {m : Nat} {rs : List (List String × List ℝ)} {inds : Option (List String)} {kept : List String}
    (hkept : kept = inds.getD levels.dropLast) (hlev : levels.Nodup) (htemp : "calculation type temp" ∉ levels)
    (h0 : kept ≠ []) (hnd : kept.Nodup) (hsub : ∀ n ∈ kept, n ∈ levels) (hrs : rs ≠ []) {tv : Option (List ℝ)} {incTrue incRmse : Bool} {e : PyErr}
    (h : ∀ g, (∃ s, summaryDf (realArr m (rowsWith levels kept rs g)) tv false incRmse = .ok s) ∨
      summaryDf (realArr m (rowsWith levels kept rs g)) tv false incRmse = .error e ∨ rowsWith levels kept rs g = [])
    (h1 : ∃ g, rowsWith levels kept rs g ≠ [] ∧ summaryDf (realArr m (rowsWith levels kept rs g)) tv false incRmse = .error e) :
    summaryDfMulti (realFrame levels m rs) inds tv incTrue incRmse = (.error e, realFrame levels m rs) := by
  unfold summaryDfMulti
  dsimp only
  rw [show (realFrame levels m rs).levels = levels from rfl, ← hkept]
  split
  · rw [groupApply_error hlev h0 hnd hsub hrs h h1]
    rfl
  · have hinj := renameLevel_inj htemp
    have hrow : ∀ g, rowsWith (levels.map renameLevel) (kept.map renameLevel) rs g = rowsWith levels kept rs g := by
      intro g
      unfold rowsWith
      simp only [rowsWith_rename htemp hsub]
    have := groupApply_error (levels := levels.map renameLevel) (kept := kept.map renameLevel) (m := m) (rs := rs)
      (List.Nodup.map_on hinj hlev) (by simpa using h0)
      (List.Nodup.map_on (fun a ha b hb => hinj a (hsub a ha) b (hsub b hb)) hnd)
      (fun n hn => by
        obtain ⟨a, ha, rfl⟩ := List.mem_map.mp hn
        exact List.mem_map_of_mem (hsub a ha)) hrs (tv := tv) (incRmse := incRmse) (e := e) (by simpa only [hrow] using h)
      (by simpa only [hrow] using h1)
    change ((groupApply (realFrame (levels.map renameLevel) m rs) (kept.map renameLevel) tv incRmse >>= joinTypes) >>= _, realFrame levels m rs) = _
    rw [this]
    rfl

/-- **C107, what is rejected**: a group with a single row (the uncertainties of `summary_df` divide by zero), and true values
or root mean squared errors without true values. -/
theorem C107_errors {levels : List String} {m : Nat} {rs : List (List String × List ℝ)} {inds : Option (List String)} {kept : List String}
    (hkept : kept = inds.getD levels.dropLast) (hlev : levels.Nodup) (htemp : "calculation type temp" ∉ levels)
    (h0 : kept ≠ []) (hnd : kept.Nodup) (hsub : ∀ n ∈ kept, n ∈ levels) (hrt : "result type" ∉ kept)
    (hcell : ∀ r ∈ rs, r.2.length = m) (hrs : rs ≠ []) {tv : Option (List ℝ)} (ht : ∀ v, tv = some v → v.length = m) {incTrue incRmse : Bool} :
    ((∃ g, (rowsWith levels kept rs g).length = 1) → (incRmse → tv.isSome) →
      summaryDfMulti (realFrame levels m rs) inds tv incTrue incRmse = (.error .zeroDivision, realFrame levels m rs)) ∧
    ((∀ g, (rowsWith levels kept rs g).length ≠ 1) → tv = none → incTrue || incRmse →
      summaryDfMulti (realFrame levels m rs) inds tv incTrue incRmse = (.error .assertion, realFrame levels m rs)) := by
  have hlen : ∀ g, ∀ row ∈ rowsWith levels kept rs g, row.length = m := by
    intro g row hrow
    obtain ⟨r, hr, rfl⟩ := List.mem_map.mp hrow
    exact hcell r (List.mem_filter.mp hr).1
  have hone : ∀ g, (rowsWith levels kept rs g).length = 1 → summaryDf (realArr m (rowsWith levels kept rs g)) tv false incRmse = .error .zeroDivision :=
    fun g hg => (C48_errors _ _ _ _).2.2.2 ht (by simp) (by simpa [realArr] using hg)
  constructor
  · rintro ⟨g, hg⟩ hs
    refine summaryDfMulti_error hkept hlev htemp h0 hnd hsub hrs (fun g => ?_) ⟨g, fun h => by simp [h] at hg, hone g hg⟩
    rcases Nat.lt_trichotomy (rowsWith levels kept rs g).length 1 with h | h | h
    · exact .inr (.inr (List.length_eq_zero_iff.mp (by omega)))
    · exact .inr (.inl (hone g h))
    · exact .inl ⟨_, C48 (hlen g) h ht (by simpa using hs)⟩
  · rintro h2 rfl hs
    have h2' : ∀ g, rowsWith levels kept rs g ≠ [] → 2 ≤ (rowsWith levels kept rs g).length := by
      intro g hg
      have := List.length_pos_iff.mpr hg
      have := h2 g
      omega
    cases incRmse with
    | true =>
      have hall : ∀ g, summaryDf (realArr m (rowsWith levels kept rs g)) none false true = .error .assertion :=
        fun g => (C48_errors _ _ _ _).2.2.1 rfl rfl rfl (by simpa [realArr] using h2 g)
      refine summaryDfMulti_error hkept hlev htemp h0 hnd hsub hrs (fun g => .inr (.inl (hall g))) ?_
      obtain ⟨r, hr⟩ := List.exists_mem_of_ne_nil rs hrs
      refine ⟨kept.map (valueAt levels r.1), fun h => ?_, hall _⟩
      have : r.2 ∈ rowsWith levels kept rs (kept.map (valueAt levels r.1)) := List.mem_map.mpr ⟨r, List.mem_filter.mpr ⟨hr, by simp⟩, rfl⟩
      rw [h] at this
      cases this
    | false =>
      have hi : incTrue = true := by simpa using hs
      subst hi
      obtain ⟨gs, -, -, -, h4⟩ := C107 hkept hlev htemp h0 hnd hsub hrt hcell hrs h2' (tv := none) (by simp) (incTrue := false) (incRmse := false)
        (by simp)
      unfold summaryDfMulti at h4 ⊢
      dsimp only at h4 ⊢
      rw [Prod.mk.injEq] at h4 ⊢
      obtain ⟨h4, h5⟩ := h4
      refine ⟨?_, h5⟩
      simp only [Bool.false_eq_true, if_false, bind_pure] at h4
      rw [h4]
      rfl

/-- The table of `run_list_error_values` as a frame. -/
def Spec.asFrame (lab : RunLabel → String) (t : ErrTable) : MultiFrame :=
  ⟨["calculation type", "run"], t.names.length, t.rows.map (fun r => ([r.1.1, lab r.1.2], r.2))⟩

theorem multiKeys_single {t : ErrTable} {lab : RunLabel → String} {levels : List String} :
    multiKeys { asFrame lab t with levels := levels } [0] = (groupKeys t).map (fun k => [k]) := by
  classical
  unfold multiKeys groupKeys
  rw [List.map_insertionSort (s := keyLE)]
  · congr 1
    rw [← List.dedup_map_of_injective (fun a b h => by simpa using h), List.map_map]
    simp only [asFrame, List.map_map]
    congr! 1
  · intro a _ b _
    unfold strLE keyLE
    simp only [List.map_cons, List.map_nil]
    change ¬ (b.toList < a.toList) ↔ ¬ ([b.toList] < [a.toList])
    rw [List.cons_lt_cons_iff]
    simp

/-- Joining the types in one row of the temporary table. -/
def joinRow (r : List String × List Cell) : List String × List Cell :=
  (keyAt (dropLevels ["calculation type temp", "calculation type", "result type"] ["calculation type", "calculation type temp"] r.1 ++
    [r.1.getD 0 "" ++ " " ++ r.1.getD 1 ""]) [1, 0], r.2)

theorem joinTypes_single (n : Nat) (rows : List (List String × List Cell)) :
    joinTypes ⟨["calculation type temp", "calculation type", "result type"], n, rows⟩ =
      .ok ⟨["calculation type", "result type"], n, rows.map joinRow⟩ := by
  have h1 : levelNumber ["calculation type temp", "calculation type", "result type"] "calculation type temp" = .ok 0 := by decide
  have h2 : levelNumber ["calculation type temp", "calculation type", "result type"] "calculation type" = .ok 1 := by decide
  have h3 : ["calculation type temp", "calculation type", "result type"].erase "calculation type temp" = ["calculation type", "result type"] := by decide
  have h4 : levelNumbers (["calculation type temp", "calculation type", "result type"].filter
      (fun n => decide (n ∉ ["calculation type", "calculation type temp"])) ++ ["calculation type"]) ["calculation type", "result type"] = .ok [1, 0] := by
    decide
  unfold joinTypes
  dsimp only
  rw [h1, h2, h3, h4]
  change Except.ok _ = Except.ok _
  rw [List.map_map]
  rfl

/-- A row of the summary as a row of a frame. -/
def Spec.asRow (r : (String × Res) × List Cell) : List String × List Cell := ([r.1.1, r.1.2.name], r.2)

theorem multiSummaries_single {t : ErrTable} {lab : RunLabel → String} {levels : List String} {tv : Option (List ℝ)} {incRmse : Bool}
    (ks : List String) : (multiSummaries { asFrame lab t with levels := levels } [0] tv incRmse (ks.map (fun k => [k]))).map (List.map joinRow) =
      (groupSummaries t tv incRmse ks).map (List.map asRow) := by
  induction ks with
  | nil => rfl
  | cons k ks ih =>
    rw [List.map_cons, multiSummaries, groupSummaries]
    have hg : multiGroup { asFrame lab t with levels := levels } [0] [k] = groupRows t k := by
      unfold multiGroup groupRows asFrame
      simp only [List.filter_map, List.map_map]
      congr 1
      simp only [Function.comp_def, keyAt, List.map_cons, List.map_nil, List.getD_cons_zero, List.cons.injEq, and_true]
    rw [hg]
    cases h1 : summaryDf (groupRows t k) tv false incRmse with
    | error e => rfl
    | ok s =>
      cases h2 : groupSummaries t tv incRmse ks with
      | error e =>
        rw [h2] at ih
        cases h3 : multiSummaries { asFrame lab t with levels := levels } [0] tv incRmse (ks.map (fun k => [k])) with
        | error e' => rw [h3] at ih; cases ih; rfl
        | ok x => rw [h3] at ih; cases ih
      | ok rest =>
        rw [h2] at ih
        cases h3 : multiSummaries { asFrame lab t with levels := levels } [0] tv incRmse (ks.map (fun k => [k])) with
        | error e' => rw [h3] at ih; cases ih
        | ok x =>
          rw [h3] at ih
          have ih' : x.map joinRow = rest.map asRow := Except.ok.inj ih
          change Except.ok (List.map joinRow (_ ++ x)) = Except.ok (List.map asRow (_ ++ rest))
          rw [List.map_append, List.map_append, ih', List.map_map, List.map_map]
          congr 2

theorem groupSummaries_names {t : ErrTable} {tv : Option (List ℝ)} {incRmse : Bool} {ks : List String} {s : SumTable}
    (h : groupSummaries t tv incRmse ks = .ok s) : ∀ r ∈ s, r.1.1 ≠ "true values" := by
  induction ks generalizing s with
  | nil => cases h; simp
  | cons k ks ih =>
    rw [groupSummaries] at h
    cases h1 : summaryDf (groupRows t k) tv false incRmse with
    | error e => rw [h1] at h; cases h
    | ok x =>
      rw [h1] at h
      cases h2 : groupSummaries t tv incRmse ks with
      | error e => rw [h2] at h; cases h
      | ok rest =>
        rw [h2] at h
        cases h
        intro r hr he
        rcases List.mem_append.mp hr with hr | hr
        · obtain ⟨y, hy, rfl⟩ := List.mem_map.mp hr
          have hc : y.1.1 = .mean ∨ y.1.1 = .std ∨ y.1.1 = .rmse := by
            have := C48_labels h1
            have hm : (y.1.1.name, y.1.2.name) ∈ summaryIndex false incRmse := by
              rw [← this]
              exact List.mem_map.mpr ⟨y, hy, rfl⟩
            generalize y.1.1 = c at hm
            generalize y.1.2.name = q at hm
            cases c <;> cases incRmse <;> simp [summaryIndex, Calc.name] at hm ⊢
          have h' : k ++ " " ++ y.1.1.name = "true" ++ " " ++ "values" := he
          have := (space_inj (calc_noSpace hc) (by decide) h').2
          rcases hc with h | h | h <;> rw [h] at this <;> exact absurd this (by decide)
        · exact ih h2 r hr he

/-- **C107, refinement**: for the tables of `run_list_error_values`, any cells (also nan) and the default `inds_to_keep`, the
general function is the `summary_df_from_multi` of `run_list_error_summary`, including its errors. -/
theorem C107_refines (lab : RunLabel → String) {t : ErrTable} (h0 : t.rows ≠ []) (tv : Option (List ℝ)) (incTrue incRmse : Bool) :
    summaryDfMulti (asFrame lab t) none tv incTrue incRmse =
      ((summaryDfFromMulti t tv incTrue incRmse).map (fun s => ⟨["calculation type", "result type"], t.names.length, s.map asRow⟩), asFrame lab t) := by
  have hg : (groupApply { asFrame lab t with levels := ["calculation type temp", "run"] } ["calculation type temp"] tv incRmse >>= joinTypes) =
      (groupSummaries t tv incRmse (groupKeys t)).map
        (fun s => (⟨["calculation type", "result type"], t.names.length, s.map asRow⟩ : MultiFrame)) := by
    unfold groupApply
    have e1 : levelNumbers ["calculation type temp", "run"] ["calculation type temp"] = .ok [0] := by decide
    have e2 : ¬ (¬ ["calculation type temp"].Nodup ∨ (asFrame lab t).rows = []) := by simpa [asFrame] using h0
    dsimp only
    have e0 : (["calculation type temp"] : List String) ≠ [] := by simp
    rw [e1]
    simp only [if_neg e0, if_neg e2]
    change ((multiSummaries _ [0] tv incRmse (multiKeys _ [0]) >>= _) >>= joinTypes) = _
    rw [multiKeys_single]
    have := multiSummaries_single (t := t) (lab := lab) (levels := ["calculation type temp", "run"]) (tv := tv) (incRmse := incRmse) (groupKeys t)
    cases h2 : groupSummaries t tv incRmse (groupKeys t) with
    | error e =>
      rw [h2] at this
      cases h3 : multiSummaries { asFrame lab t with levels := ["calculation type temp", "run"] } [0] tv incRmse ((groupKeys t).map (fun k => [k])) with
      | error e' => rw [h3] at this; cases this; rfl
      | ok x => rw [h3] at this; cases this
    | ok rest =>
      rw [h2] at this
      cases h3 : multiSummaries { asFrame lab t with levels := ["calculation type temp", "run"] } [0] tv incRmse ((groupKeys t).map (fun k => [k])) with
      | error e' => rw [h3] at this; cases this
      | ok x =>
        rw [h3] at this
        have ih' : x.map joinRow = rest.map asRow := Except.ok.inj this
        change joinTypes ⟨["calculation type temp", "calculation type", "result type"], t.names.length, x⟩ = _
        rw [joinTypes_single, ih']
        rfl
  unfold summaryDfMulti summaryDfFromMulti
  dsimp only
  rw [show (none : Option (List String)).getD (asFrame lab t).levels.dropLast = ["calculation type"] from rfl, if_neg (by simp),
    show ["calculation type"].map renameLevel = ["calculation type temp"] by simp [renameLevel],
    show (asFrame lab t).levels.map renameLevel = ["calculation type temp", "run"] by simp [renameLevel, asFrame]]
  rw [hg]
  cases h2 : groupSummaries t tv incRmse (groupKeys t) with
  | error e => rfl
  | ok s =>
    cases incTrue with
    | false => rfl
    | true =>
      cases tv with
      | none => rfl
      | some v =>
        change (Except.ok _, _) = (Except.ok _, _)
        congr 2
        rw [MultiFrame.mk.injEq]
        refine ⟨rfl, rfl, ?_⟩
        have hk : ["calculation type", "result type"].dropLast.map (fun n => if n = "calculation type" then "true values" else "") ++ ["value"] =
          ["true values", "value"] := by decide
        dsimp only
        rw [hk, setRow, if_neg, List.map_append]
        · rfl
        · intro hany
          obtain ⟨r, hr, he⟩ := List.any_eq_true.mp hany
          obtain ⟨q, hq, rfl⟩ := List.mem_map.mp hr
          have he := of_decide_eq_true he
          simp only [asRow, List.cons.injEq] at he
          exact groupSummaries_names h2 q hq he.1

end
end Nestcheck
