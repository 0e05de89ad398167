import Mathlib.Tactic.Common
import Mathlib.Tactic.Set
import Verif.Model.CacheConc

/-
C80: processes that call functions decorated with `save_load_result` with the same `save_name` at the same time.
The state of the file and of the processes is in the model; all statements are on runs of any length of any number
of processes, with operations in any order.
-/

namespace Nestcheck
variable {β V : Type} {P : PickleFormat β V} {result : Nat → V} {buf : Nat} {faults : Bool}

theorem Shared.set_same (c : Shared β V) (i : Nat) (p : Phase β V) : (c.set i p).procs i = p := by
  simp [Shared.set]

theorem Shared.set_other (c : Shared β V) {i j : Nat} (p : Phase β V) (h : j ≠ i) :
    (c.set i p).procs j = c.procs j := by
  simp [Shared.set, Function.update_of_ne h]

theorem Shared.set_cases (c : Shared β V) (i : Nat) (p : Phase β V) (j : Nat) :
    (j = i ∧ (c.set i p).procs j = p) ∨ (j ≠ i ∧ (c.set i p).procs j = c.procs j) := by
  by_cases h : j = i
  · subst h; exact .inl ⟨rfl, c.set_same j p⟩
  · exact .inr ⟨h, c.set_other p h⟩

theorem procs_invariant {Q : Nat → Phase β V → Prop} {c : Shared β V} (h : ∀ j, Q j (c.procs j)) {i : Nat}
    {p : Phase β V} (hp : Q i p) : ∀ j, Q j ((c.set i p).procs j) := by
  intro j
  rcases c.set_cases i p j with ⟨e', e⟩ | ⟨-, e⟩ <;> rw [e]
  · exact e' ▸ hp
  · exact h j

/-! ### Writing at a position -/

theorem overwriteAt_length {z : β} {f bs : List β} {n : Nat} :
    (overwriteAt z f n bs).length = max f.length (n + bs.length) := by
  unfold overwriteAt
  simp only [List.length_append, List.length_take, List.length_replicate, List.length_drop]
  omega

theorem overwriteAt_get {z : β} {f bs : List β} {n p : Nat} :
    (overwriteAt z f n bs)[p]? =
      if p < n then (if p < f.length then f[p]? else some z)
      else if p < n + bs.length then bs[p - n]? else f[p]? := by
  unfold overwriteAt
  have hl : ((f ++ List.replicate (n - f.length) z).take n).length = n := by simp; omega
  rw [List.append_assoc]
  by_cases h1 : p < n
  · rw [if_pos h1, List.getElem?_append_left (by omega), List.getElem?_take_of_lt h1]
    by_cases h2 : p < f.length
    · rw [if_pos h2, List.getElem?_append_left h2]
    · rw [if_neg h2, List.getElem?_append_right (by omega), List.getElem?_replicate, if_pos (by omega)]
  · rw [if_neg h1, List.getElem?_append_right (by omega), hl]
    by_cases h2 : p < n + bs.length
    · rw [if_pos h2, List.getElem?_append_left (by omega)]
    · rw [if_neg h2, List.getElem?_append_right (by omega), List.getElem?_drop]
      congr 1
      omega

/-- Appending in order. -/
theorem overwriteAt_append {z : β} {f bs : List β} : overwriteAt z f f.length bs = f ++ bs := by
  simp [overwriteAt]

theorem take_append_piece {B : List β} {n k : Nat} : B.take n ++ (B.drop n).take k = B.take (n + k) :=
  List.take_add.symm

theorem parse_of_prefix {v : V} {p : List β} (h : p <+: P.enc v) :
    P.parse p = .more ∨ (p = P.enc v ∧ P.parse p = .done v) := by
  by_cases e : p = P.enc v
  · right; exact ⟨e, by rw [e]; simpa using P.parse_enc v []⟩
  · exact .inl (P.parse_prefix v p h e)

/-- Reading on from a file that is a prefix, having read a prefix. -/
theorem read_prefix {B f acc : List β} {k : Nat} (hf : f <+: B) (ha : acc <+: B) (hk : acc.length + k ≤ f.length) :
    acc ++ (f.drop acc.length).take k <+: B := by
  obtain ⟨t, rfl⟩ := hf
  have hp : acc <+: f := List.prefix_of_prefix_length_le ha ⟨t, rfl⟩ (by omega)
  obtain ⟨u, rfl⟩ := hp
  rw [List.drop_left, List.append_assoc]
  rw [List.prefix_append_right_inj]
  exact (List.take_prefix k u).trans (List.prefix_append u t)

/-! ### A complete or a truncated file -/

/-- The phases of processes that only read the file, of content `f`, the beginning of the pickle of `v`. -/
inductive Reader (P : PickleFormat β V) (v : V) (f : List β) (faults : Bool) : Phase β V → Prop where
  | start : Reader P v f faults .start
  | reading {acc : List β} : acc <+: P.enc v → acc.length ≤ f.length → Reader P v f faults (.reading acc)
  | returned : f = P.enc v → Reader P v f faults (.returned v)
  | raised : f ≠ P.enc v → Reader P v f faults (.raised .eof)
  | killed : faults = true → Reader P v f faults .killed

theorem reader_step {v : V} {f : List β} (hf : f <+: P.enc v) {c c' : Shared β V} (h1 : c.file = some f)
    (h2 : ∀ i, Reader P v f faults (c.procs i)) (hs : ConcStep P result buf faults c c') :
    c'.file = some f ∧ ∀ i, Reader P v f faults (c'.procs i) := by
  have inv : ∀ {i : Nat} {p : Phase β V}, Reader P v f faults p →
      ∀ j, Reader P v f faults ((c.set i p).procs j) := fun hp =>
    procs_invariant (Q := fun _ => Reader P v f faults) h2 hp
  cases hs with
  | @openRead i g hi hg => exact ⟨h1, inv (.reading List.nil_prefix (by simp))⟩
  | missing hi hg => rw [h1] at hg; simp at hg
  | @read i g acc k hi hg hm hk hl hb =>
    rw [h1] at hg; cases hg
    have := h2 i
    rw [hi] at this
    obtain ⟨_⟩ | ⟨ha, ha'⟩ := this
    exact ⟨h1, inv (.reading (read_prefix hf ha hl) (by simp; omega))⟩
  | @endOfFile i g acc hi hg hm hl =>
    rw [h1] at hg; cases hg
    have := h2 i
    rw [hi] at this
    obtain ⟨_⟩ | ⟨ha, ha'⟩ := this
    refine ⟨h1, inv (.raised ?_)⟩
    rintro rfl
    have : acc = P.enc v := ha.eq_of_length (by omega)
    have h3 := P.parse_enc v []
    rw [List.append_nil, ← this, hm] at h3
    cases h3
  | @loaded i acc u hi hd =>
    have := h2 i
    rw [hi] at this
    obtain ⟨_⟩ | ⟨ha, ha'⟩ := this
    rcases parse_of_prefix ha with e | ⟨e, e'⟩
    · rw [e] at hd; cases hd
    · rw [e'] at hd; cases hd
      subst e
      exact ⟨h1, inv (.returned (hf.eq_of_length_le ha'))⟩
  | @notPickle i acc hi hd =>
    have := h2 i
    rw [hi] at this
    obtain ⟨_⟩ | ⟨ha, ha'⟩ := this
    rcases parse_of_prefix ha with e | ⟨e, e'⟩
    · rw [e] at hd; cases hd
    · rw [e'] at hd; cases hd
  | @openWrite i u hi => have := h2 i; rw [hi] at this; cases this
  | @write i u n g k hi => have := h2 i; rw [hi] at this; cases this
  | @close i u hi => have := h2 i; rw [hi] at this; cases this
  | @cannotOpen i u hb hi => have := h2 i; rw [hi] at this; cases this
  | @cannotWrite i u n hb hi => have := h2 i; rw [hi] at this; cases this
  | kill hb => exact ⟨h1, inv (.killed hb)⟩

theorem reader_run {v : V} {f : List β} (hf : f <+: P.enc v) {c c' : Shared β V}
    (hc : c.file = some f) (hp : ∀ i, c.procs i = .start) (hs : ConcRun P result buf faults c c') :
    c'.file = some f ∧ ∀ i, Reader P v f faults (c'.procs i) := by
  induction hs with
  | refl => exact ⟨hc, fun i => by rw [hp i]; exact .start⟩
  | tail _ hs ih => exact reader_step hf ih.1 ih.2 hs

/-- **C80 (complete file).**  If the file holds a complete result then it never changes, no process calls the
function, no process fails, and every process that returns returns that result, whatever the order of the
operations of the processes. -/
theorem C80_complete {v : V} {c c' : Shared β V} (hc : c.file = some (P.enc v)) (hp : ∀ i, c.procs i = .start)
    (hs : ConcRun P result buf faults c c') :
    c'.file = some (P.enc v) ∧ ∀ i, c'.procs i = .start ∨ (∃ acc, c'.procs i = .reading acc) ∨
      c'.procs i = .returned v ∨ (faults = true ∧ c'.procs i = .killed) := by
  obtain ⟨h1, h2⟩ := reader_run (List.prefix_refl _) hc hp hs
  refine ⟨h1, fun i => ?_⟩
  have := h2 i
  generalize c'.procs i = p at this
  cases this with
  | start => exact .inl rfl
  | reading => exact .inr (.inl ⟨_, rfl⟩)
  | returned => exact .inr (.inr (.inl rfl))
  | raised h => exact absurd rfl h
  | killed h => exact .inr (.inr (.inr ⟨h, rfl⟩))

/-- **C80 (truncated file).**  If the file holds part of a result only (a process was killed while writing) then
no call ever returns or repairs the file: all that get to an end raise `EOFError`. -/
theorem C80_truncated {v : V} {f : List β} (hf : f <+: P.enc v) (hne : f ≠ P.enc v) {c c' : Shared β V}
    (hc : c.file = some f) (hp : ∀ i, c.procs i = .start) (hs : ConcRun P result buf faults c c') :
    c'.file = some f ∧ ∀ i, c'.procs i = .start ∨ (∃ acc, c'.procs i = .reading acc) ∨
      c'.procs i = .raised .eof ∨ (faults = true ∧ c'.procs i = .killed) := by
  obtain ⟨h1, h2⟩ := reader_run hf hc hp hs
  refine ⟨h1, fun i => ?_⟩
  have := h2 i
  generalize c'.procs i = p at this
  cases this with
  | start => exact .inl rfl
  | reading => exact .inr (.inl ⟨_, rfl⟩)
  | returned h => exact absurd h hne
  | raised h => exact .inr (.inr (.inl rfl))
  | killed h => exact .inr (.inr (.inr ⟨h, rfl⟩))

/-- In a state that readers of a complete file reach, a process that has not been killed can go on to return. -/
theorem C80_progress {v : V} {c : Shared β V} (hc : c.file = some (P.enc v)) (hp : ∀ i, c.procs i = .start)
    {c' : Shared β V} (hs : ConcRun P result buf faults c c') (i : Nat) (hk : c'.procs i ≠ .killed) :
    ∃ d, ConcRun P result buf faults c' d ∧ d.procs i = .returned v := by
  obtain ⟨h1, h2⟩ := reader_run (List.prefix_refl _) hc hp hs
  -- from `reading`
  have key : ∀ (d : Shared β V) (acc : List β), d.file = some (P.enc v) → d.procs i = .reading acc → acc <+: P.enc v →
      ∃ e, ConcRun P result buf faults d e ∧ e.procs i = .returned v := by
    intro d acc hd hr ha
    have fin : ∀ d' : Shared β V, d'.procs i = .reading (P.enc v) →
        ∃ e, ConcRun P result buf faults d' e ∧ e.procs i = .returned v := fun d' h' =>
      ⟨_, .single (.loaded h' (by simpa using P.parse_enc v [])), Shared.set_same _ _ _⟩
    rcases parse_of_prefix ha with e | ⟨e, -⟩
    · have hlt : acc.length < (P.enc v).length := by
        rcases Nat.lt_or_ge acc.length (P.enc v).length with h | h
        · exact h
        · have := ha.eq_of_length_le h
          have h3 := P.parse_enc v []
          rw [List.append_nil, ← this, e] at h3
          cases h3
      obtain ⟨t, ht⟩ := ha
      have hk : ((P.enc v).drop acc.length).take ((P.enc v).length - acc.length) = t := by
        rw [← ht]; simp
      have st : ConcStep P result buf faults d _ :=
        .read ((P.enc v).length - acc.length) hr hd e (by omega) (by omega) (.inr (by omega))
      rw [hk, ht] at st
      obtain ⟨e, he, he'⟩ := fin _ (Shared.set_same d i _)
      exact ⟨e, .trans (.single st) he, he'⟩
    · subst e; exact fin d hr
  have := h2 i
  generalize hq : c'.procs i = p at this
  cases this with
  | start =>
    obtain ⟨e, he, he'⟩ := key (c'.set i (.reading [])) [] h1 (Shared.set_same _ _ _) List.nil_prefix
    exact ⟨e, .trans (.single (.openRead hq h1)) he, he'⟩
  | reading ha => exact key c' _ h1 hq ha
  | returned => exact ⟨c', .refl, hq⟩
  | raised h => exact absurd rfl h
  | killed h => exact absurd hq hk

/-! ### One process writes -/

/-- The phases when `w` has written the first `n` bytes and nobody else computes or writes. -/
inductive OneWriter (P : PickleFormat β V) (w : Nat) (v : V) (n : Nat) : Nat → Phase β V → Prop where
  | writing : OneWriter P w v n w (.writing v n)
  | start {i : Nat} : i ≠ w → OneWriter P w v n i .start
  | reading {i : Nat} {acc : List β} : i ≠ w → acc <+: P.enc v → OneWriter P w v n i (.reading acc)
  | returned {i : Nat} : OneWriter P w v n i (.returned v)
  | raised {i : Nat} : i ≠ w → OneWriter P w v n i (.raised .eof)
  | killed {i : Nat} : OneWriter P w v n i .killed

theorem OneWriter.other {w : Nat} {v : V} {n m i : Nat} {p : Phase β V} (hi : i ≠ w) (h : OneWriter P w v n i p) :
    OneWriter P w v m i p := by
  cases h with
  | writing => exact absurd rfl hi
  | start h => exact .start h
  | reading h h' => exact .reading h h'
  | returned => exact .returned
  | raised h => exact .raised h
  | killed => exact .killed

theorem oneWriter_step {w : Nat} {v : V} {c c' : Shared β V} {n : Nat} (h1 : c.file = some ((P.enc v).take n))
    (h2 : ∀ i, OneWriter P w v n i (c.procs i)) (hs : ConcStep P result buf faults c c') :
    ∃ m, c'.file = some ((P.enc v).take m) ∧ ∀ i, OneWriter P w v m i (c'.procs i) := by
  have inv : ∀ {i : Nat} {p : Phase β V}, OneWriter P w v n i p →
      ∀ j, OneWriter P w v n j ((c.set i p).procs j) := fun hp => procs_invariant (Q := OneWriter P w v n) h2 hp
  have hf : (P.enc v).take n <+: P.enc v := List.take_prefix _ _
  cases hs with
  | @openRead i g hi hg =>
    have := h2 i; rw [hi] at this
    cases this with | start hw => exact ⟨n, h1, inv (.reading hw List.nil_prefix)⟩
  | missing hi hg => rw [h1] at hg; simp at hg
  | @read i g acc k hi hg hm hk hl hb =>
    rw [h1] at hg; cases hg
    have := h2 i; rw [hi] at this
    cases this with | reading hw ha => exact ⟨n, h1, inv (.reading hw (read_prefix hf ha hl))⟩
  | @endOfFile i g acc hi hg hm hl =>
    have := h2 i; rw [hi] at this
    cases this with | reading hw ha => exact ⟨n, h1, inv (.raised hw)⟩
  | @loaded i acc u hi hd =>
    have := h2 i; rw [hi] at this
    cases this with
    | reading hw ha =>
      rcases parse_of_prefix ha with e | ⟨e, e'⟩
      · rw [e] at hd; cases hd
      · rw [e'] at hd; cases hd
        exact ⟨n, h1, inv .returned⟩
  | @notPickle i acc hi hd =>
    have := h2 i; rw [hi] at this
    cases this with
    | reading hw ha =>
      rcases parse_of_prefix ha with e | ⟨e, e'⟩
      · rw [e] at hd; cases hd
      · rw [e'] at hd; cases hd
  | @openWrite i u hi => have := h2 i; rw [hi] at this; cases this
  | @write i u m g k hi hg hk hl hb =>
    rw [h1] at hg; cases hg
    have := h2 i; rw [hi] at this
    cases this
    refine ⟨n + k, ?_, fun j => ?_⟩
    · have hn : n = ((P.enc v).take n).length := by simp; omega
      show some (overwriteAt P.zero ((P.enc v).take n) n (((P.enc v).drop n).take k)) = _
      congr 1
      conv_lhs => rw [show overwriteAt P.zero ((P.enc v).take n) n (((P.enc v).drop n).take k) =
        overwriteAt P.zero ((P.enc v).take n) ((P.enc v).take n).length (((P.enc v).drop n).take k) by rw [← hn]]
      rw [overwriteAt_append, take_append_piece]
    · show OneWriter P w v (n + k) j ((c.set w (.writing v (n + k))).procs j)
      rcases c.set_cases w (.writing v (n + k)) j with ⟨e', e⟩ | ⟨e', e⟩ <;> rw [e]
      · subst e'; exact .writing
      · exact (h2 j).other e'
  | @close i u hi =>
    have := h2 i; rw [hi] at this
    generalize hm : (P.enc u).length = m at this
    cases this with | writing => exact ⟨_, h1, inv .returned⟩
  | @cannotOpen i u hb hi => have := h2 i; rw [hi] at this; cases this
  | @cannotWrite i u m hb hi =>
    have := h2 i; rw [hi] at this
    cases this with | writing => exact ⟨n, h1, inv .returned⟩
  | kill hb => exact ⟨n, h1, inv .killed⟩

/-- **C80 (one process writes).**  Once one process has opened the file for writing, processes whose calls begin
afterwards do not call the function; they return the value it is writing or raise `EOFError`, never
`UnpicklingError` and never another value.  This holds for values of any size, and whatever the order of
the operations and the interruptions. -/
theorem C80_one_writer {w : Nat} {v : V} {c c' : Shared β V} (hc : c.file = some []) (hw : c.procs w = .writing v 0)
    (hp : ∀ i, i ≠ w → c.procs i = .start) (hs : ConcRun P result buf faults c c') :
    (∃ f, c'.file = some f ∧ f <+: P.enc v) ∧ ∀ i, i ≠ w →
      c'.procs i = .start ∨ (∃ acc, c'.procs i = .reading acc) ∨ c'.procs i = .returned v ∨
      c'.procs i = .raised .eof ∨ c'.procs i = .killed := by
  have h : ∃ m, c'.file = some ((P.enc v).take m) ∧ ∀ i, OneWriter P w v m i (c'.procs i) := by
    induction hs with
    | refl =>
      refine ⟨0, by simpa using hc, fun i => ?_⟩
      by_cases hi : i = w
      · subst hi; rw [hw]; exact .writing
      · rw [hp i hi]; exact .start hi
    | tail _ hs ih =>
      obtain ⟨m, h1, h2⟩ := ih
      exact oneWriter_step h1 h2 hs
  obtain ⟨m, h1, h2⟩ := h
  refine ⟨⟨_, h1, List.take_prefix _ _⟩, fun i hi => ?_⟩
  have := h2 i
  generalize c'.procs i = p at this
  cases this with
  | writing => exact absurd rfl hi
  | start => exact .inl rfl
  | reading => exact .inr (.inl ⟨_, rfl⟩)
  | returned => exact .inr (.inr (.inl rfl))
  | raised => exact .inr (.inr (.inr (.inl rfl)))
  | killed => exact .inr (.inr (.inr (.inr rfl)))

/-! ### Several processes write the same value -/

/-- Everybody who has a value has `v`, and writers are within the pickle. -/
inductive SameValue (P : PickleFormat β V) (v : V) : Phase β V → Prop where
  | ready : SameValue P v (.ready v)
  | writing {n : Nat} : n ≤ (P.enc v).length → SameValue P v (.writing v n)
  | other {p : Phase β V} : (∀ u, p ≠ .ready u) → (∀ u n, p ≠ .writing u n) → SameValue P v p

/-- The file is complete, or there is a process that will complete it. -/
def WillComplete (P : PickleFormat β V) (v : V) (c : Shared β V) : Prop :=
  (c.file = none ∧ ∀ i u n, c.procs i ≠ .writing u n) ∨
  ∃ f, c.file = some f ∧ f.length ≤ (P.enc v).length ∧
    (f = P.enc v ∨ ∃ i n, c.procs i = .writing v n ∧ n ≤ f.length ∧ f.take n = (P.enc v).take n)

theorem sameValue_step {v : V} (hr : ∀ i, result i = v) {c c' : Shared β V} (h : ∀ i, SameValue P v (c.procs i))
    (hs : ConcStep P result buf faults c c') : ∀ i, SameValue P v (c'.procs i) := by
  have inv : ∀ {i : Nat} {p : Phase β V}, SameValue P v p →
      ∀ j, SameValue P v ((c.set i p).procs j) := fun hp => procs_invariant (Q := fun _ => SameValue P v) h hp
  cases hs with
  | @missing i hi hg => rw [hr i]; exact inv .ready
  | @openWrite i u hi =>
    have := h i; rw [hi] at this
    cases this with
    | ready => exact inv (.writing (Nat.zero_le _))
    | other h1 h2 => exact absurd rfl (h1 u)
  | @write i u m g k hi hg hk hl hb =>
    have := h i; rw [hi] at this
    cases this with
    | writing => exact inv (.writing hl)
    | other h1 h2 => exact absurd rfl (h2 u m)
  | _ => exact inv (.other (by simp) (by simp))

theorem take_overwriteAt {z : β} {B f : List β} {n m k : Nat} (hf : f.take n = B.take n) (hn : n ≤ f.length)
    (hm : m + k ≤ B.length) : (overwriteAt z f m ((B.drop m).take k)).take n = B.take n := by
  apply List.ext_getElem?
  intro p
  by_cases hp : p < n
  · have h := congrArg (·[p]?) hf
    simp only [List.getElem?_take_of_lt hp] at h
    rw [List.getElem?_take_of_lt hp, List.getElem?_take_of_lt hp, overwriteAt_get]
    have hl : ((B.drop m).take k).length = k := by simp; omega
    rw [hl]
    split
    · rw [if_pos (by omega), h]
    · split
      · rw [List.getElem?_take_of_lt (by omega), List.getElem?_drop]; congr 1; omega
      · exact h
  · simp [List.getElem?_take, hp]

theorem willComplete_other {v : V} {c : Shared β V} {i : Nat} {p : Phase β V} (h : WillComplete P v c)
    (hp : ∀ u n, p ≠ .writing u n) (hi : ∀ n, c.procs i = .writing v n → n = (P.enc v).length) :
    WillComplete P v (c.set i p) := by
  rcases h with ⟨h1, h2⟩ | ⟨f, h1, h2, h3⟩
  · refine .inl ⟨h1, procs_invariant (Q := fun _ q => ∀ u n, q ≠ .writing u n) h2 hp⟩
  · refine .inr ⟨f, h1, h2, ?_⟩
    rcases h3 with h3 | ⟨j, n, hj, hn, ht⟩
    · exact .inl h3
    · by_cases e : j = i
      · subst e
        have := hi n hj
        subst this
        left
        rwa [List.take_of_length_le h2, List.take_length] at ht
      · exact .inr ⟨j, n, by rw [Shared.set_other _ _ e]; exact hj, hn, ht⟩

theorem willComplete_step {v : V} {c c' : Shared β V} (hv : ∀ i, SameValue P v (c.procs i))
    (h : WillComplete P v c) (hs : ConcStep P result buf false c c') : WillComplete P v c' := by
  cases hs with
  | @openWrite i u hi =>
    have := hv i; rw [hi] at this
    cases this with
    | ready =>
      exact .inr ⟨[], rfl, by simp, .inr ⟨i, 0, Shared.set_same c i _, by simp, by simp⟩⟩
    | other h1 h2 => exact absurd rfl (h1 u)
  | @write i u m g k hi hg hk hl hb =>
    have := hv i; rw [hi] at this
    cases this with
    | other h1 h2 => exact absurd rfl (h2 u m)
    | writing hm =>
      rcases h with ⟨h1, h2⟩ | ⟨f, h1, h2, h3⟩
      · exact absurd hi (h2 i v m)
      · rw [h1] at hg; cases hg
        have hpl : (((P.enc v).drop m).take k).length = k := by simp; omega
        have hlen : (overwriteAt P.zero g m (((P.enc v).drop m).take k)).length = max g.length (m + k) := by
          rw [overwriteAt_length, hpl]
        refine .inr ⟨_, rfl, by rw [hlen]; omega, ?_⟩
        rcases h3 with h3 | ⟨j, n, hj, hn, ht⟩
        · left
          subst h3
          have := take_overwriteAt (z := P.zero) (n := (P.enc v).length) (B := P.enc v) (f := P.enc v) rfl (Nat.le_refl _) hl
          rw [List.take_length] at this
          rw [List.take_of_length_le] at this
          · exact this
          · rw [hlen]; omega
        · right
          have ht' := take_overwriteAt (z := P.zero) ht hn hl
          by_cases e : j = i
          · subst e
            rw [hi] at hj; cases hj
            refine ⟨j, m + k, Shared.set_same c j _, by rw [hlen]; omega, ?_⟩
            apply List.ext_getElem?
            intro p
            by_cases hp : p < m
            · have h := congrArg (·[p]?) ht'
              simp only [List.getElem?_take_of_lt hp] at h
              rw [List.getElem?_take_of_lt (by omega), List.getElem?_take_of_lt (by omega), h]
            · by_cases hp' : p < m + k
              · rw [List.getElem?_take_of_lt hp', List.getElem?_take_of_lt hp', overwriteAt_get, if_neg hp, hpl,
                  if_pos hp', List.getElem?_take_of_lt (by omega), List.getElem?_drop]
                congr 1; omega
              · simp [List.getElem?_take, hp']
          · exact ⟨j, n, (Shared.set_other c _ e).trans hj, by rw [hlen]; omega, ht'⟩
  | @close i u hi =>
    have hw := hv i; rw [hi] at hw
    generalize hm : (P.enc u).length = m at hw
    cases hw with
    | writing =>
      refine willComplete_other h (by simp) fun n hn => ?_
      rw [hi] at hn; cases hn; rfl
    | other h1 h2 => exact absurd rfl (h2 u m)
  | openRead hi => exact willComplete_other h (by simp) fun n hn => by rw [hi] at hn; cases hn
  | missing hi => exact willComplete_other h (by simp) fun n hn => by rw [hi] at hn; cases hn
  | read k hi => exact willComplete_other h (by simp) fun n hn => by rw [hi] at hn; cases hn
  | endOfFile hi => exact willComplete_other h (by simp) fun n hn => by rw [hi] at hn; cases hn
  | loaded hi => exact willComplete_other h (by simp) fun n hn => by rw [hi] at hn; cases hn
  | notPickle hi => exact willComplete_other h (by simp) fun n hn => by rw [hi] at hn; cases hn
  | cannotOpen hb => cases hb
  | cannotWrite hb => cases hb
  | kill hb => cases hb

/-- As long as the file is missing nobody has got beyond calling the function. -/
theorem missing_step {c c' : Shared β V} (h : c.file = none → ∀ i, c.procs i = .start ∨ c.procs i = .ready (result i))
    (hs : ConcStep P result buf false c c') :
    c'.file = none → ∀ i, c'.procs i = .start ∨ c'.procs i = .ready (result i) := by
  intro hf
  cases hs with
  | openRead hi hg => exact absurd (hf.symm.trans hg) (by simp)
  | missing hi hg =>
    exact procs_invariant (Q := fun i p => p = .start ∨ p = .ready (result i)) (h hg) (.inr rfl)
  | read k hi hg => exact absurd (hf.symm.trans hg) (by simp)
  | endOfFile hi hg => exact absurd (hf.symm.trans hg) (by simp)
  | @loaded i _ _ hi => have := h hf i; rw [hi] at this; simp at this
  | @notPickle i _ hi => have := h hf i; rw [hi] at this; simp at this
  | openWrite => cases hf
  | write => cases hf
  | @close i _ hi => have := h hf i; rw [hi] at this; simp at this
  | cannotOpen hb => cases hb
  | cannotWrite hb => cases hb
  | kill hb => cases hb

/-- **C80 (several processes write the same value).**  If the file is missing, the function returns the same value
in all processes and no process is killed or fails to write, then whenever nobody is writing the file
is complete, unless nobody has got beyond calling the function, whatever the number of processes, the size of the
value and the order of the operations. -/
theorem C80_same_value {v : V} (hr : ∀ i, result i = v) {c c' : Shared β V} (hc : c.file = none)
    (hp : ∀ i, c.procs i = .start) (hs : ConcRun P result buf false c c')
    (hn : ∀ i u n, c'.procs i ≠ .writing u n) :
    c'.file = some (P.enc v) ∨ (c'.file = none ∧ ∀ i, c'.procs i = .start ∨ c'.procs i = .ready v) := by
  have h : (∀ i, SameValue P v (c'.procs i)) ∧ WillComplete P v c' ∧
      (c'.file = none → ∀ i, c'.procs i = .start ∨ c'.procs i = .ready (result i)) := by
    clear hn
    induction hs with
    | refl =>
      refine ⟨fun i => ?_, .inl ⟨hc, fun i u n => ?_⟩, fun _ i => .inl (hp i)⟩ <;> rw [hp i]
      · exact .other (by simp) (by simp)
      · simp
    | tail _ hs ih =>
      exact ⟨sameValue_step hr ih.1 hs, willComplete_step ih.1 ih.2.1 hs, missing_step ih.2.2 hs⟩
  obtain ⟨-, h, h'⟩ := h
  rcases h with ⟨h1, -⟩ | ⟨f, h1, -, h3 | ⟨i, n, hi, -⟩⟩
  · exact .inr ⟨h1, fun i => by simpa [hr i] using h' h1 i⟩
  · exact .inl (by rw [h1, h3])
  · exact absurd hi (hn i v n)

/-! ### Small values -/

/-- The possible contents of a file to which all pickles are written at once. -/
inductive SmallFile (P : PickleFormat β V) (result : Nat → V) (buf : Nat) : List β → Prop where
  | empty : SmallFile P result buf []
  | full {j : Nat} {t : List β} : (P.enc (result j) ++ t).length ≤ buf → SmallFile P result buf (P.enc (result j) ++ t)

theorem SmallFile.length {f : List β} (h : SmallFile P result buf f) : f.length ≤ buf := by
  cases h with
  | empty => simp
  | full h => exact h

theorem SmallFile.parse {f : List β} (h : SmallFile P result buf f) :
    P.parse f = .more ∨ ∃ j, P.parse f = .done (result j) := by
  cases h with
  | empty =>
    rcases parse_of_prefix (P := P) (v := result 0) List.nil_prefix with e | ⟨-, e⟩
    · exact .inl e
    · exact .inr ⟨0, e⟩
  | full => exact .inr ⟨_, P.parse_enc _ _⟩

inductive SmallPhase (P : PickleFormat β V) (result : Nat → V) (buf : Nat) : Phase β V → Prop where
  | start : SmallPhase P result buf .start
  | reading {acc : List β} : SmallFile P result buf acc → SmallPhase P result buf (.reading acc)
  | ready {j : Nat} : SmallPhase P result buf (.ready (result j))
  | begun {j : Nat} : SmallPhase P result buf (.writing (result j) 0)
  | written {j : Nat} : SmallPhase P result buf (.writing (result j) (P.enc (result j)).length)
  | returned {j : Nat} : SmallPhase P result buf (.returned (result j))
  | raised : SmallPhase P result buf (.raised .eof)
  | killed : SmallPhase P result buf .killed

theorem small_step (hb : ∀ i, (P.enc (result i)).length ≤ buf) {c c' : Shared β V}
    (h1 : ∀ f, c.file = some f → SmallFile P result buf f) (h2 : ∀ i, SmallPhase P result buf (c.procs i))
    (hs : ConcStep P result buf faults c c') :
    (∀ f, c'.file = some f → SmallFile P result buf f) ∧ ∀ i, SmallPhase P result buf (c'.procs i) := by
  have inv : ∀ {i : Nat} {p : Phase β V}, SmallPhase P result buf p →
      ∀ j, SmallPhase P result buf ((c.set i p).procs j) := fun hp =>
    procs_invariant (Q := fun _ => SmallPhase P result buf) h2 hp
  cases hs with
  | openRead => exact ⟨h1, inv (.reading .empty)⟩
  | missing => exact ⟨h1, inv .ready⟩
  | @read i g acc k hi hg hm hk hl hb' =>
    have := h2 i; rw [hi] at this
    have hg' := h1 g hg
    cases this with
    | reading ha =>
      refine ⟨h1, inv (.reading ?_)⟩
      have : acc = [] := by
        cases ha with
        | empty => rfl
        | full h => rw [P.parse_enc] at hm; cases hm
      subst this
      have hgl := hg'.length
      simp only [List.length_nil, Nat.zero_add, List.drop_zero, List.nil_append] at hl hb' ⊢
      rwa [List.take_of_length_le (by omega)]
  | endOfFile => exact ⟨h1, inv .raised⟩
  | @loaded i acc u hi hd =>
    have := h2 i; rw [hi] at this
    cases this with
    | reading ha =>
      rcases ha.parse with e | ⟨j, e⟩ <;> rw [e] at hd <;> cases hd
      exact ⟨h1, inv .returned⟩
  | @notPickle i acc hi hd =>
    have := h2 i; rw [hi] at this
    cases this with
    | reading ha => rcases ha.parse with e | ⟨j, e⟩ <;> rw [e] at hd <;> cases hd
  | @openWrite i u hi =>
    have := h2 i; rw [hi] at this
    cases this with
    | ready => exact ⟨fun f hf => by cases hf; exact .empty, inv .begun⟩
  | @write i u m g k hi hg hk hl hb' =>
    have := h2 i; rw [hi] at this
    generalize hm : m = m' at this
    cases this with
    | written => omega
    | @begun j =>
      subst hm
      have hbj := hb j
      have hkl : k = (P.enc (result j)).length := by omega
      subst hkl
      refine ⟨fun f hf => ?_, ?_⟩
      · cases hf
        have : overwriteAt P.zero g 0 (((P.enc (result j)).drop 0).take (P.enc (result j)).length) =
            P.enc (result j) ++ g.drop (P.enc (result j)).length := by
          simp [overwriteAt]
        rw [this]
        have := (h1 g hg).length
        exact .full (by simp; omega)
      · rw [Nat.zero_add]; exact inv .written
  | @close i u hi =>
    have := h2 i; rw [hi] at this
    generalize (P.enc u).length = m at this
    cases this <;> exact ⟨h1, inv .returned⟩
  | @cannotOpen i u hb hi =>
    have := h2 i; rw [hi] at this
    cases this; exact ⟨h1, inv .returned⟩
  | @cannotWrite i u n hb hi =>
    have := h2 i; rw [hi] at this
    cases this <;> exact ⟨h1, inv .returned⟩
  | kill => exact ⟨h1, inv .killed⟩

/-- **C80 (small values).**  If the file is missing and all results fit in one buffer, then every process that
returns returns a value that the function returned in one of the processes, and the only exception is
`EOFError`, whatever the number of processes, the order of the operations and the interruptions, and even
if the function returns different values in different processes. -/
theorem C80_small (hb : ∀ i, (P.enc (result i)).length ≤ buf) {c c' : Shared β V} (hc : c.file = none)
    (hp : ∀ i, c.procs i = .start) (hs : ConcRun P result buf faults c c') :
    (∀ i u, c'.procs i = .returned u → ∃ j, u = result j) ∧ ∀ i e, c'.procs i = .raised e → e = .eof := by
  have h : (∀ f, c'.file = some f → SmallFile P result buf f) ∧ ∀ i, SmallPhase P result buf (c'.procs i) := by
    induction hs with
    | refl => exact ⟨fun f hf => absurd (hc.symm.trans hf) (by simp), fun i => by rw [hp i]; exact .start⟩
    | tail _ hs ih => exact small_step hb ih.1 ih.2 hs
  constructor
  · intro i u hi
    have := h.2 i; rw [hi] at this
    cases this; exact ⟨_, rfl⟩
  · intro i e hi
    have := h.2 i; rw [hi] at this
    cases this; rfl

/-- The phases of a process after it has computed `v`. -/
inductive Computed (v : V) : Phase β V → Prop where
  | ready : Computed v (.ready v)
  | writing {n : Nat} : Computed v (.writing v n)
  | returned : Computed v (.returned v)
  | killed : Computed v .killed

theorem computed_step {i : Nat} {v : V} {c c' : Shared β V} (h : Computed v (c.procs i))
    (hs : ConcStep P result buf faults c c') : Computed v (c'.procs i) := by
  have inv : ∀ {j : Nat} {p : Phase β V}, (j = i → Computed v p) → Computed v ((c.set j p).procs i) := by
    intro j p hp
    rcases c.set_cases j p i with ⟨e', e⟩ | ⟨-, e⟩ <;> rw [e]
    · exact hp e'.symm
    · exact h
  cases hs with
  | openRead hi => exact inv fun e => by subst e; rw [hi] at h; cases h
  | missing hi => exact inv fun e => by subst e; rw [hi] at h; cases h
  | read k hi => exact inv fun e => by subst e; rw [hi] at h; cases h
  | endOfFile hi => exact inv fun e => by subst e; rw [hi] at h; cases h
  | loaded hi => exact inv fun e => by subst e; rw [hi] at h; cases h
  | notPickle hi => exact inv fun e => by subst e; rw [hi] at h; cases h
  | openWrite hi => exact inv fun e => by subst e; rw [hi] at h; cases h; exact .writing
  | write k hi => exact inv fun e => by subst e; rw [hi] at h; cases h; exact .writing
  | @close _ u hi =>
    exact inv fun e => by
      subst e; rw [hi] at h; generalize (P.enc u).length = m at h; cases h; exact .returned
  | cannotOpen hb hi => exact inv fun e => by subst e; rw [hi] at h; cases h; exact .returned
  | cannotWrite hb hi => exact inv fun e => by subst e; rw [hi] at h; cases h; exact .returned
  | kill => exact inv fun _ => .killed

/-- **C80 (own value).**  A process that finds the file missing returns what the function returned to it, or is
killed; it never raises, whatever the others do and whether or not it can write. -/
theorem C80_own {i : Nat} {c c₁ c' : Shared β V} (hp : c.procs i = .start) (hf : c.file = none)
    (h₁ : c₁ = c.set i (.ready (result i))) (hs : ConcRun P result buf faults c₁ c') :
    ConcStep P result buf faults c c₁ ∧ (∀ u, c'.procs i = .returned u → u = result i) ∧
      ∀ e, c'.procs i ≠ .raised e := by
  have h : Computed (result i) (c'.procs i) := by
    induction hs with
    | refl => rw [h₁, Shared.set_same]; exact .ready
    | tail _ hs ih => exact computed_step ih hs
  refine ⟨h₁ ▸ .missing hp hf, fun u hu => ?_, fun e he => ?_⟩
  · rw [hu] at h; cases h; rfl
  · rw [he] at h; cases h

/-! ### What can go wrong -/

/-- A format: the length of the list, then the list. -/
def listFormat : PickleFormat Nat (List Nat) where
  zero := 0
  enc xs := xs.length :: xs
  parse
    | [] => .more
    | n :: r => if r.length < n then .more else .done (r.take n)
  parse_enc := by intro v t; simp
  parse_prefix := by
    intro v p hp hne
    cases p with
    | nil => rfl
    | cons n r =>
      obtain ⟨t, ht⟩ := hp
      simp only [List.cons_append, List.cons.injEq] at ht
      obtain ⟨rfl, rfl⟩ := ht
      have : t ≠ [] := by rintro rfl; simp at hne
      have := List.length_pos_iff.2 this
      simp; omega

def allStart : Shared Nat (List Nat) := ⟨none, fun _ => .start⟩

/-- The file is missing and nobody has begun. -/
example : allStart.file = none ∧ ∀ i, allStart.procs i = .start := ⟨rfl, fun _ => rfl⟩

/-- **C80 (holes).**  Even if the function returns the same value in all processes and none is killed or fails to
write, a call may return another value: process 0 writes three of four bytes; process 1 truncates the file and
writes the first byte; process 0 writes its last byte, leaving a hole, which the system fills with zeros;
process 2 loads the file. -/
theorem C80_holes : ∃ c : Shared Nat (List Nat),
    ConcRun listFormat (fun _ => [7, 8, 9]) 1 false allStart c ∧ c.procs 2 = .returned [0, 0, 9] :=
  ⟨_, .head (.missing (i := 0) rfl rfl) <| .head (.missing (i := 1) rfl rfl) <|
    .head (.openWrite (i := 0) rfl) <| .head (.write (i := 0) 3 rfl rfl (by decide) (by decide) (by decide)) <|
    .head (.openWrite (i := 1) rfl) <| .head (.write (i := 1) 1 rfl rfl (by decide) (by decide) (by decide)) <|
    .head (.write (i := 0) 1 rfl rfl (by decide) (by decide) (by decide)) <|
    .head (.openRead (i := 2) rfl rfl) <|
    .head (.read (i := 2) 4 rfl rfl rfl (by decide) (by decide) (by decide)) <| .single (.loaded (i := 2) rfl rfl), rfl⟩

/-- If process 1 is killed then the file stays like that. -/
theorem C80_holes_killed : ∃ c : Shared Nat (List Nat),
    ConcRun listFormat (fun _ => [7, 8, 9]) 1 true allStart c ∧ c.procs 0 = .returned [7, 8, 9] ∧
    c.procs 1 = .killed ∧ c.file = some [3, 0, 0, 9] ∧ ∀ i, 2 ≤ i → c.procs i = .start := by
  refine ⟨_, .head (.missing (i := 0) rfl rfl) <| .head (.missing (i := 1) rfl rfl) <|
    .head (.openWrite (i := 0) rfl) <| .head (.write (i := 0) 3 rfl rfl (by decide) (by decide) (by decide)) <|
    .head (.openWrite (i := 1) rfl) <| .head (.write (i := 1) 1 rfl rfl (by decide) (by decide) (by decide)) <|
    .head (.write (i := 0) 1 rfl rfl (by decide) (by decide) (by decide)) <|
    .head (.close (i := 0) rfl) <| .single (.kill (i := 1) rfl), rfl, rfl, rfl, fun i hi => ?_⟩
  simp [Shared.set, Function.update, allStart, show i ≠ 0 by omega, show i ≠ 1 by omega]

/-- **C80 (mixtures).**  If the function returns different values in different processes then, although no process is
killed or fails to write, the file may be left with a mixture of the two pickles, from which all later calls
load a value that the function never returned. -/
theorem C80_mixture : ∃ c : Shared Nat (List Nat),
    ConcRun listFormat (fun i => if i = 0 then [1, 2] else [3, 4]) 1 false allStart c ∧
    c.procs 0 = .returned [1, 2] ∧ c.procs 1 = .returned [3, 4] ∧ c.procs 2 = .returned [3, 2] ∧
    c.file = some [2, 3, 2] := by
  refine ⟨_, .head (.missing (i := 0) rfl rfl) <| .head (.missing (i := 1) rfl rfl) <|
    .head (.openWrite (i := 0) rfl) <| .head (.write (i := 0) 2 rfl rfl (by decide) (by decide) (by decide)) <|
    .head (.openWrite (i := 1) rfl) <| .head (.write (i := 1) 3 rfl rfl (by decide) (by decide) (by decide)) <|
    .head (.close (i := 1) rfl) <| .head (.write (i := 0) 1 rfl rfl (by decide) (by decide) (by decide)) <|
    .head (.close (i := 0) rfl) <| .head (.openRead (i := 2) rfl rfl) <|
    .head (.read (i := 2) 3 rfl rfl rfl (by decide) (by decide) (by decide)) <| .single (.loaded (i := 2) rfl rfl),
    rfl, rfl, rfl, rfl⟩

/-- A run to which `C80_same_value` applies, in which two processes write: nobody is writing at its end. -/
example : ∃ c : Shared Nat (List Nat),
    ConcRun listFormat (fun _ => [7, 8, 9]) 1 false allStart c ∧ (∀ i u n, c.procs i ≠ .writing u n) ∧
    c.procs 0 = .returned [7, 8, 9] ∧ c.procs 1 = .returned [7, 8, 9] ∧ c.file = some [3, 7, 8, 9] := by
  refine ⟨_, .head (.missing (i := 0) rfl rfl) <| .head (.missing (i := 1) rfl rfl) <|
    .head (.openWrite (i := 0) rfl) <| .head (.write (i := 0) 3 rfl rfl (by decide) (by decide) (by decide)) <|
    .head (.openWrite (i := 1) rfl) <| .head (.write (i := 1) 1 rfl rfl (by decide) (by decide) (by decide)) <|
    .head (.write (i := 0) 1 rfl rfl (by decide) (by decide) (by decide)) <|
    .head (.write (i := 1) 3 rfl rfl (by decide) (by decide) (by decide)) <|
    .head (.close (i := 0) rfl) <| .single (.close (i := 1) rfl), fun i u n => ?_, rfl, rfl, rfl⟩
  simp only [Shared.set, Function.update, allStart]
  split
  · simp
  · split
    · simp
    · simp

/-- A run to which `C80_small` applies, with different results: the file is left with the end of another pickle after
the complete one, and a load returns one of the results. -/
example : (∀ i, (listFormat.enc (if i = 0 then [1, 2, 5] else [3, 4])).length ≤ 4) ∧ ∃ c : Shared Nat (List Nat),
    ConcRun listFormat (fun i => if i = 0 then [1, 2, 5] else [3, 4]) 4 false allStart c ∧
    c.procs 2 = .returned [3, 4] ∧ c.file = some [2, 3, 4, 5] := by
  refine ⟨fun i => by split <;> simp [listFormat], _,
    .head (.missing (i := 0) rfl rfl) <| .head (.missing (i := 1) rfl rfl) <|
    .head (.openWrite (i := 0) rfl) <| .head (.openWrite (i := 1) rfl) <|
    .head (.write (i := 0) 4 rfl rfl (by decide) (by decide) (by decide)) <|
    .head (.write (i := 1) 3 rfl rfl (by decide) (by decide) (by decide)) <|
    .head (.close (i := 1) rfl) <| .head (.openRead (i := 2) rfl rfl) <|
    .head (.read (i := 2) 4 rfl rfl rfl (by decide) (by decide) (by decide)) <| .single (.loaded (i := 2) rfl rfl),
    rfl, rfl⟩

/-- A run to which `C80_one_writer` applies: one reader comes too early, one in time. -/
example : ∃ c : Shared Nat (List Nat),
    ConcRun listFormat (fun _ => []) 1 false
      { allStart.set 0 (.writing [7, 8, 9] 0) with file := some [] } c ∧
    c.procs 1 = .raised .eof ∧ c.procs 2 = .returned [7, 8, 9] := by
  refine ⟨_, .head (.openRead (i := 2) rfl rfl) <|
    .head (.write (i := 0) 2 rfl rfl (by decide) (by decide) (by decide)) <| .head (.openRead (i := 1) rfl rfl) <|
    .head (.read (i := 1) 2 rfl rfl rfl (by decide) (by decide) (by decide)) <|
    .head (.endOfFile (i := 1) rfl rfl rfl (by decide)) <|
    .head (.write (i := 0) 2 rfl rfl (by decide) (by decide) (by decide)) <|
    .head (.read (i := 2) 4 rfl rfl rfl (by decide) (by decide) (by decide)) <| .single (.loaded (i := 2) rfl rfl),
    rfl, rfl⟩

/-- Runs to which `C80_complete` and `C80_truncated` apply. -/
example : ∃ c : Shared Nat (List Nat),
    ConcRun listFormat (fun _ => []) 1 false { allStart with file := some (listFormat.enc [7, 8]) } c ∧
    c.procs 1 = .returned [7, 8] :=
  ⟨_, .head (.openRead (i := 1) rfl rfl) <|
    .head (.read (i := 1) 3 rfl rfl rfl (by decide) (by decide) (by decide)) <| .single (.loaded (i := 1) rfl rfl), rfl⟩

example : [2, 7] <+: listFormat.enc [7, 8] ∧ [2, 7] ≠ listFormat.enc [7, 8] ∧ ∃ c : Shared Nat (List Nat),
    ConcRun listFormat (fun _ => []) 1 false { allStart with file := some [2, 7] } c ∧ c.procs 1 = .raised .eof :=
  ⟨⟨[8], rfl⟩, by decide, _, .head (.openRead (i := 1) rfl rfl) <|
    .head (.read (i := 1) 2 rfl rfl rfl (by decide) (by decide) (by decide)) <|
    .single (.endOfFile (i := 1) rfl rfl rfl (by decide)), rfl⟩

end Nestcheck
