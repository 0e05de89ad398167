import Mathlib.Logic.Function.Basic
import Mathlib.Logic.Relation

/-
Model of several processes calling functions decorated with `save_load_result`
(io_utils.py:32-97) with the same `save_name`, with the default settings (load, save and
overwrite).  All processes share the one file `save_name.pkl`.  One step is one operation of one
process on the file: opening it for reading, reading some bytes, opening it for writing (which
truncates it), writing some bytes at the process's own position, closing it.  The directory is
assumed to exist.  File contents are lists of bytes (of any type `β` with a zero, with which the
operating system fills gaps).
-/

namespace Nestcheck
variable {β V : Type}

/-- What the unpickler makes of the bytes read so far. -/
inductive Parse (V : Type) where
  | more
  | done (v : V)
  | bad

/-- The pickle format: `enc` is `pickle.dump`, `parse` is `pickle.load`, which reads bytes until it has met the end
of the pickle and ignores what follows.  Only the end of a pickle completes it. -/
structure PickleFormat (β V : Type) where
  zero : β
  enc : V → List β
  parse : List β → Parse V
  parse_enc : ∀ v t, parse (enc v ++ t) = .done v
  parse_prefix : ∀ v p, p <+: enc v → p ≠ enc v → parse p = .more

/-- The exceptions of `pickle.load`: `EOFError` if the file ends too early, `UnpicklingError` and others if the
content is not a pickle. -/
inductive LoadError where
  | eof
  | unpickling
  deriving DecidableEq

/-- Where a process is in its call. -/
inductive Phase (β V : Type) where
  | start                                   -- about to open the file for reading (io_utils.py:161)
  | reading (acc : List β)                  -- in `pickle.load` (io_utils.py:162), having read `acc`
  | ready (v : V)                           -- the file was missing; the function has returned `v` (io_utils.py:88)
  | writing (v : V) (n : Nat)               -- in `pickle.dump` (io_utils.py:137-138), `n` bytes written
  | returned (v : V)
  | raised (e : LoadError)
  | killed

/-- The state of the file (`none` if missing) and of the processes. -/
structure Shared (β V : Type) where
  file : Option (List β)
  procs : Nat → Phase β V

def Shared.set (c : Shared β V) (i : Nat) (p : Phase β V) : Shared β V :=
  { c with procs := Function.update c.procs i p }

/-- Writing `bs` at position `n`: gaps are filled with zeros. -/
def overwriteAt (z : β) (f : List β) (n : Nat) (bs : List β) : List β :=
  (f ++ List.replicate (n - f.length) z).take n ++ bs ++ f.drop (n + bs.length)

/-- One operation of process `i`.  `result i` is what the function returns in process `i`; the data are read
and written in pieces of at least `buf` bytes, apart from the last one; `faults` tells whether processes may be killed or
fail to write. -/
inductive ConcStep (P : PickleFormat β V) (result : Nat → V) (buf : Nat) (faults : Bool) :
    Shared β V → Shared β V → Prop where
  /-- `infile = open(filename, 'rb')` (io_utils.py:161) -/
  | openRead {c : Shared β V} {i : Nat} {f : List β} : c.procs i = .start → c.file = some f →
      ConcStep P result buf faults c (c.set i (.reading []))
  /-- `FileNotFoundError` is caught (io_utils.py:82), the function is called (io_utils.py:88) -/
  | missing {c : Shared β V} {i : Nat} : c.procs i = .start → c.file = none →
      ConcStep P result buf faults c (c.set i (.ready (result i)))
  | read {c : Shared β V} {i : Nat} {f acc : List β} (k : Nat) : c.procs i = .reading acc → c.file = some f →
      P.parse acc = .more → 0 < k → acc.length + k ≤ f.length → (buf ≤ k ∨ acc.length + k = f.length) →
      ConcStep P result buf faults c (c.set i (.reading (acc ++ (f.drop acc.length).take k)))
  | endOfFile {c : Shared β V} {i : Nat} {f acc : List β} : c.procs i = .reading acc → c.file = some f →
      P.parse acc = .more → f.length ≤ acc.length →
      ConcStep P result buf faults c (c.set i (.raised .eof))
  | loaded {c : Shared β V} {i : Nat} {acc : List β} {v : V} : c.procs i = .reading acc → P.parse acc = .done v →
      ConcStep P result buf faults c (c.set i (.returned v))
  | notPickle {c : Shared β V} {i : Nat} {acc : List β} : c.procs i = .reading acc → P.parse acc = .bad →
      ConcStep P result buf faults c (c.set i (.raised .unpickling))
  /-- `outfile = open(filename, 'wb')` (io_utils.py:137) -/
  | openWrite {c : Shared β V} {i : Nat} {v : V} : c.procs i = .ready v →
      ConcStep P result buf faults c { (c.set i (.writing v 0)) with file := some [] }
  | write {c : Shared β V} {i : Nat} {v : V} {n : Nat} {f : List β} (k : Nat) : c.procs i = .writing v n →
      c.file = some f → 0 < k → n + k ≤ (P.enc v).length → (buf ≤ k ∨ n + k = (P.enc v).length) →
      ConcStep P result buf faults c { (c.set i (.writing v (n + k))) with
        file := some (overwriteAt P.zero f n (((P.enc v).drop n).take k)) }
  /-- `outfile.close()` and return (io_utils.py:139, 96) -/
  | close {c : Shared β V} {i : Nat} {v : V} : c.procs i = .writing v (P.enc v).length →
      ConcStep P result buf faults c (c.set i (.returned v))
  /-- `OSError` on opening (all are caught, see `pickleSave`): a message, the result is returned (io_utils.py:140-142) -/
  | cannotOpen {c : Shared β V} {i : Nat} {v : V} : faults = true → c.procs i = .ready v →
      ConcStep P result buf faults c (c.set i (.returned v))
  /-- `MemoryError` or `OSError` in the middle of writing, likewise (io_utils.py:140-142) -/
  | cannotWrite {c : Shared β V} {i : Nat} {v : V} {n : Nat} : faults = true → c.procs i = .writing v n →
      ConcStep P result buf faults c (c.set i (.returned v))
  | kill {c : Shared β V} {i : Nat} : faults = true → ConcStep P result buf faults c (c.set i .killed)

/-- Any number of operations, in any order. -/
def ConcRun (P : PickleFormat β V) (result : Nat → V) (buf : Nat) (faults : Bool) :
    Shared β V → Shared β V → Prop :=
  Relation.ReflTransGen (ConcStep P result buf faults)

end Nestcheck
