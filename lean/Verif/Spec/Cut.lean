import Verif.Model.Indexed

/-! Vocabulary for payloads that were cut short (`C109`). -/

namespace Revision

/-- What the walkers make of the first `n` bytes of `b`, whose last bytes are the bodies `es`. -/
structure CutSeq (b : Bytes) (es : List Bytes) (n : Nat) : Prop where
  /-- Cut before the bodies: the payload ends too early. -/
  header : n + es.flatten.length < b.length →
    IndexedSeqWalker.fromPayload (b.take n) = .err .overrun ∧
    IndexedSeqWalker.fromPayloadUnvalidated (b.take n) = .err .overrun
  /-- Cut before the last body: some offset points past what is left of the bodies. -/
  bodies : b.length ≤ n + es.flatten.length → n + (es.getLastD []).length < b.length →
    ∃ o, n + es.flatten.length - b.length < o ∧
      IndexedSeqWalker.fromPayload (b.take n) =
        .err (.offsetOutOfRange o (n + es.flatten.length - b.length))
  /-- Cut in the last body: all others are intact, and of the last the bytes that are left are given. -/
  ending : b.length ≤ n + (es.getLastD []).length →
    ∃ w, IndexedSeqWalker.fromPayload (b.take n) = .ok w ∧ w.len = es.length ∧
      (∀ i (_ : i + 1 < es.length), w.elementBytes i = .ok es[i]) ∧
      w.elementBytes (es.length - 1) =
        .ok ((es.getLastD []).take (n + (es.getLastD []).length - b.length))

end Revision
