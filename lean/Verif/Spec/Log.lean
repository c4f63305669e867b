import Verif.Spec.Program

/-!
# A log of records

Records of one type are appended to a file over the life of a program, by whichever version of it is running, and
read back from the start.
-/

namespace Revision

variable {ι : Type}

/-- A record in a log: the version of the program that wrote it, given by the revision each type was at and the
allocator and orders of the time, and the value it wrote. -/
structure Record (P : Program ι) (i : ι) where
  rev : ι → Nat
  impls : Impls P.kind
  depth : Nat
  value : Values P.kind depth i

variable [DecidableEq ι] {P : Program ι} {i : ι}

/-- What is appended to the log for a record. -/
def Record.bytes (cfg : Cfg) (x : Record P i) : Res Bytes :=
  ((P.asOf x.rev).codec cfg x.impls x.depth i).toVec x.value

/-- The log after the records have been appended in turn. -/
def logBytes (cfg : Cfg) : List (Record P i) → Res Bytes
  | [] => .ok []
  | x :: xs => do
    let b ← x.bytes cfg
    let bs ← logBytes cfg xs
    pure (b ++ bs)

/-- The record can be read by the current program, following `m` levels of nesting, and is then `w`. -/
structure Record.ReadAs (cfg : Cfg) (I : Impls P.kind) (m : Nat) (x : Record P i) (w : Values P.kind m i) : Prop where
  readable : P.Readable cfg x.rev
  allocated : ∀ t k, x.impls.cap t k = true → I.cap t k = true
  valid : ((P.asOf x.rev).codec cfg x.impls x.depth i).valid x.value
  depth : x.depth ≤ m
  migrated : P.migrate cfg x.impls I x.rev x.depth m i x.value = some w

/-- Reading a log from the start until it is at its end or an error is reported: the values read, how it ended, and
what of the log was left when it did. -/
inductive ReadsLog {V : Type} (read : Rd V) : Bytes → List V → Res Unit → Bytes → Prop where
  | atEnd : ReadsLog read [] [] (.ok ()) []
  | failed {s e} : s ≠ [] → read s = .err e → ReadsLog read s [] (.err e) s
  | next {s v t vs e r} : s ≠ [] → read s = .ok (v, t) → ReadsLog read t vs e r → ReadsLog read s (v :: vs) e r

end Revision
