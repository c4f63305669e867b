import Verif.Model.Sink

/-!
# Kinds of writers
-/

namespace Revision

/-- The writer makes progress on every call that is not interrupted: it is never full and never
fails. -/
def Sink.Willing (w : Sink) : Prop :=
  w.room = none ∧ ∀ e ∈ w.evs, e = .interrupted ∨ ∃ n, e = .accept (n + 1)

/-- The writer makes progress on every call. -/
def Sink.Steady (w : Sink) : Prop :=
  w.room = none ∧ ∀ e ∈ w.evs, ∃ n, e = .accept (n + 1)

/-- Everything a serialiser hands to its writer. -/
def Wr.bytesOf (x : Wr) : Bytes := x.ops.flatMap WOp.bytes

/-- What the serialiser leaves in a `Vec<u8>`. -/
def Wr.toRes (x : Wr) : Res Bytes :=
  match x.fin with
  | .ok () => .ok x.bytesOf
  | .err e => .err e
  | .panic => .panic

/-- Types whose serialisers write no single `bool` (a bit-packed `Vec<bool>` is not single). -/
def Ty.boolFree (cfg : Cfg) : Ty ι → Bool
  | .bool => false
  | .vec .bool => cfg.specialised
  | .option t | .bound t | .wrap t | .array _ t | .vec t | .btreeSet t | .hashSet t | .binaryHeap t
  | .vector t => t.boolFree cfg
  | .result s t | .pair s t | .btreeMap s t | .hashMap s t => s.boolFree cfg && t.boolFree cfg
  | _ => true

/-- How the further types of an environment write to an arbitrary writer: what they do to a `Vec<u8>` is
the impl of the environment, and single `write` calls hand over one byte. -/
structure Env.Writers (E : Env ι) where
  wr : (i : ι) → E.X i → Wr
  to_vec : ∀ i x, ((wr i x).run Sink.vec).1 = (E.extC i).enc x >>= fun _ => .ok ()
  to_vec_bytes : ∀ i x b, (E.extC i).enc x = .ok b → ((wr i x).run Sink.vec).2.1 = b
  small : ∀ i x, ∀ o ∈ (wr i x).ops, (∃ b, o = .all b) ∨ ∃ c, o = .once [c]

/-- The further types use `write_all` only. -/
def Env.Writers.WriteAll {E : Env ι} (W : E.Writers) : Prop := ∀ i x, ∀ o ∈ (W.wr i x).ops, ∃ b, o = .all b

end Revision
