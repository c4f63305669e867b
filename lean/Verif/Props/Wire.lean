import Verif.Proofs.Wire
import Verif.Props.Types

/-! # Property C71: the wire format of every supported type -/

namespace Revision

open Wire

variable {ι : Type} (cfg : Cfg) (E : Env ι)

/-- C71: the bytes `to_vec` returns for a value are exactly those the wire format prescribes. -/
theorem C71_wire_format (t : Ty ι) (v : t.denote E.X) (hw : t.WF E v) (hf : t.Fits E v) (b : Bytes) :
    (t.codec cfg E).toVec v = .ok b ↔ t.Wire cfg E v b :=
  t.codec_wire cfg E v hw hf b

/-- C71: bytes in the wire format of a value are read back as that value, whoever wrote them. -/
theorem C71_readable (hE : E.Lawful) (t : Ty ι) (v : t.denote E.X) (hw : t.WF E v)
    (hf : t.Fits E v) (b : Bytes) (hb : t.Wire cfg E v b) :
    (t.codec cfg E).fromSlice b = .ok v ∧ ∀ rest, (t.codec cfg E).dec (b ++ rest) = .ok (v, rest) := by
  have h := (t.codec_lawful cfg hE).round_trip v b (t.valid_of cfg hE v hw hf)
    ((C71_wire_format cfg E t v hw hf b).2 hb)
  refine ⟨?_, h⟩
  have h0 := h []
  rw [List.append_nil] at h0
  simp [Codec.fromSlice, h0]

/-- A map from -3 to `["é", None]` and from 300 to `[]`: two entries; -3 is 5 after zigzag; two
elements, the first present and two bytes long; 300 is 600 after zigzag, which needs the two-byte
form; no elements. -/
example : demoTy.Wire .default demoEnv demoVal
    [2, 5, 2, 1, 2, 0xc3, 0xa9, 0, 251, 0x58, 0x02, 0] := by
  rw [← C71_wire_format _ _ _ _ demo_wf demo_fits]
  rfl

/-- The same value with fixed-width integers. -/
example : demoTy.Wire ⟨true, true⟩ demoEnv demoVal
    ([2, 0, 0, 0, 0, 0, 0, 0] ++ [5, 0] ++ [2, 0, 0, 0, 0, 0, 0, 0] ++
      [1] ++ [2, 0, 0, 0, 0, 0, 0, 0] ++ [0xc3, 0xa9] ++ [0] ++
      [0x58, 0x02] ++ [0, 0, 0, 0, 0, 0, 0, 0]) := by
  rw [← C71_wire_format _ _ _ _ demo_wf demo_fits]
  rfl

/-- Nine booleans take two bytes. -/
example : (Ty.vec .bool : Ty Empty).Wire .default demoEnv
    [true, false, true, false, false, false, false, false, true] [9, 5, 1] := by
  refine (C71_wire_format .default demoEnv (.vec .bool) _ (fun _ _ => trivial)
    ⟨by decide, by decide, fun _ _ => trivial⟩ _).1 ?_
  decide +kernel

end Revision
