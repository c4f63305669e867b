import Verif.Model.Stream

/-!
# What an arbitrary reader delivers

`Stream.content` is everything a reader hands out before it ends or fails, put together: how the bytes
were cut into pieces, and where reads were interrupted, does not show in it.
-/

namespace Revision

/-- The bytes the reader delivers before it reports its end (no events left, or `Ok(0)`) or fails. -/
def Stream.content : Stream → Bytes
  | [] => []
  | .data [] :: _ => []
  | .data (b :: bs) :: s => (b :: bs) ++ Stream.content s
  | .interrupted :: s => Stream.content s
  | .failed :: _ => []

/-- Reading with `run` from a reader is the same as decoding the bytes it delivers with `m`: the same
value or error, and after a success the reader has exactly the rest of the bytes left. -/
def SameAsSlice (run : Stream → Res (α × Stream)) (m : Rd α) : Prop :=
  ∀ s : Stream, match m s.content with
    | .ok (a, rest) => ∃ s', run s = .ok (a, s') ∧ s'.content = rest
    | .err e => run s = .err e
    | .panic => run s = .panic

namespace Prog

/-- Every read reports running out of input as an error in `K`. -/
def Short (K : Err → Prop) : Prog α → Prop
  | .pure _ => True
  | .fail _ => True
  | .panic => True
  | .exact _ f k => K (f .io) ∧ ∀ b, (k b).Short K
  | .take _ f k => K (f .io) ∧ ∀ b, (k b).Short K

/-- No error but running out of input is in `K`. -/
def Sound (K : Err → Prop) : Prog α → Prop
  | .pure _ => True
  | .fail e => ¬ K e
  | .panic => True
  | .exact _ _ k => ∀ b, (k b).Sound K
  | .take _ _ k => ∀ b, (k b).Sound K

end Prog

/-- How the further types of an environment read from an arbitrary reader: programs that on a slice are
the impls of the environment. -/
structure Env.Readers (E : Env ι) where
  dec : (i : ι) → Prog (E.X i)
  skip : (i : ι) → Prog Unit
  check : (i : ι) → Prog Unit
  dec_slice : ∀ i, (dec i).onSlice = (E.extC i).dec
  skip_slice : ∀ i, (skip i).onSlice = (E.extC i).skip
  check_slice : ∀ i, (check i).onSlice = (E.extC i).check

/-- Decoding the further types reports the end of the input as an error in `K`. -/
def Env.Readers.Short {E : Env ι} (R : E.Readers) (K : Err → Prop) : Prop := ∀ i, (R.dec i).Short K

/-- Skipping the further types reports the end of the input as `Error::Io`. -/
def Env.Readers.SkipShort {E : Env ι} (R : E.Readers) : Prop := ∀ i, (R.skip i).Short (· = .io)

/-- Decoding the further types reports nothing else as `Error::Io`. -/
def Env.Readers.Sound {E : Env ι} (R : E.Readers) : Prop := ∀ i, (R.dec i).Sound (· = .io)

/-- Types that hold no `Result` and no `Bound`. -/
def Ty.plainErrors : Ty ι → Bool
  | .result _ _ | .bound _ => false
  | .option t | .wrap t | .array _ t | .vec t | .btreeSet t | .hashSet t | .binaryHeap t | .vector t =>
    t.plainErrors
  | .pair s t | .btreeMap s t | .hashMap s t => s.plainErrors && t.plainErrors
  | _ => true

end Revision
