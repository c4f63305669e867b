import Verif.Props.Indexed
import Verif.Proofs.Wire
import Verif.Proofs.Size

/-! # C124: the lookups shown in the documentation

`/repo/README.md:700-713` builds an indexed map with `String` keys and looks a key up by comparing the
stored key with the text of the key, `w.find_value_bytes(|k| k.cmp("bravo".as_bytes()))`.  The
documentation of `IndexedMapEncoded`, `/repo/src/optimised/indexed/serialize.rs:331-360`, compares with
the serialised key.  `find_value_bytes` is documented to scan when there is no table
(`map_walk.rs:290-291`, README line 577). -/

namespace Revision

open Wire

/-! ### Helpers -/

/-- What a map of strings needs for `C41_lookup`. -/
private theorem string_probe {ν : Type} {v : Codec ν} (cfg : Cfg) (m : List (String × ν)) (h8 : 8 ≤ m.length)
    (hlen : m.length < 2 ^ 56) (hkeys : ∀ e ∈ m, (strBytes e.1).length < 2 ^ 31)
    (hdistinct : (m.map Prod.fst).Nodup)
    (hvals : ∀ e ∈ m, ∀ b, v.enc e.2 = .ok b → b ≠ [] ∧ b.length < 2 ^ 32) (b : Bytes)
    (h : serializeIndexedEntries (stringC cfg fun _ => true).enc v.enc m = .ok b) :
    ∃ w : IndexedMapWalker, IndexedMapWalker.fromPayload b = .ok w ∧
      ∀ kb, (∀ vb, w.findValueBytes (fun x => cmpBytes x kb) = .ok (some vb) ↔
          ∃ e ∈ m, encBytes cfg (strBytes e.1) = kb ∧ v.enc e.2 = .ok vb) ∧
        (w.findValueBytes (fun x => cmpBytes x kb) = .ok none ↔
          ∀ e ∈ m, encBytes cfg (strBytes e.1) ≠ kb) := by
  obtain ⟨w, h1, -, hl⟩ := C41_probe (k := stringC cfg fun _ => true) (v := v)
    ((stringC_lawful cfg _).faithful (stringC_checks cfg _)) m h8 hlen
    (fun e he => ⟨Nat.lt_of_lt_of_le (hkeys e he) (by decide), fun _ => rfl⟩) hdistinct
    (fun e he => ⟨fun kb hk => by
        rw [← Res.ok.inj hk]
        show ((encLen cfg (strBytes e.1).length ++ strBytes e.1 : Bytes)).length < 2 ^ 32
        rw [List.length_append]
        have h1 := encLen_most cfg (strBytes e.1).length
        have := hkeys e he
        omega, fun vb hv => (hvals e he vb hv).2⟩)
    (fun e he hv => (hvals e he _ hv).1 rfl) b h
  refine ⟨w, h1, fun kb => ⟨fun vb => ⟨fun hx => ?_, ?_⟩, ?_⟩⟩
  · obtain ⟨e, he, hk, hv⟩ := ((hl kb).1 vb).1 hx
    exact ⟨e, he, Res.ok.inj hk, hv⟩
  · rintro ⟨e, he, hk, hv⟩
    exact ((hl kb).1 vb).2 ⟨e, he, congrArg Res.ok hk, hv⟩
  · rw [(hl kb).2]
    exact ⟨fun hx e he hk => hx e he (congrArg Res.ok hk), fun hx e he hk => hx e he (Res.ok.inj hk)⟩

/-! ### C124 -/

/-- C124: in a map of at least eight entries, comparing with the serialised key finds the value stored
under the key, and finds nothing if the map does not hold the key.  The full statement, that the lookup
by the text of the key shown in the README does so, for maps of any size, fails:
`C124_text_false`, `C124_small_false`. -/
theorem C124_serialised_key_partial {ν : Type} {v : Codec ν} (cfg : Cfg) (m : List (String × ν))
    (h8 : 8 ≤ m.length) (hlen : m.length < 2 ^ 56) (hkeys : ∀ e ∈ m, (strBytes e.1).length < 2 ^ 31)
    (hdistinct : (m.map Prod.fst).Nodup)
    (hvals : ∀ e ∈ m, ∀ b, v.enc e.2 = .ok b → b ≠ [] ∧ b.length < 2 ^ 32) (b : Bytes)
    (h : serializeIndexedEntries (stringC cfg fun _ => true).enc v.enc m = .ok b) :
    ∃ w : IndexedMapWalker, IndexedMapWalker.fromPayload b = .ok w ∧
      ∀ key kb, (strBytes key).length < 2 ^ 64 → (stringC cfg fun _ => true).enc key = .ok kb →
        (∀ vb, w.findValueBytes (fun x => cmpBytes x kb) = .ok (some vb) ↔
          ∃ val, (key, val) ∈ m ∧ v.enc val = .ok vb) ∧
        (w.findValueBytes (fun x => cmpBytes x kb) = .ok none ↔ key ∉ m.map Prod.fst) := by
  obtain ⟨w, h1, hl⟩ := string_probe cfg m h8 hlen hkeys hdistinct hvals b h
  refine ⟨w, h1, fun key kb hkey hkb => ?_⟩
  have inj : ∀ e ∈ m, encBytes cfg (strBytes e.1) = kb → e.1 = key := fun e he hk =>
    ((stringC_lawful cfg fun _ => true).faithful (stringC_checks cfg _)).inj
      ⟨Nat.lt_of_lt_of_le (hkeys e he) (by decide), fun _ => rfl⟩ ⟨hkey, fun _ => rfl⟩
      (congrArg Res.ok hk) hkb
  refine ⟨fun vb => ?_, ?_⟩
  · rw [(hl kb).1 vb]
    constructor
    · rintro ⟨⟨k, val⟩, he, hk, hv⟩
      have := inj _ he hk
      simp only at this
      subst this
      exact ⟨val, he, hv⟩
    · rintro ⟨val, he, hv⟩
      exact ⟨(key, val), he, Res.ok.inj hkb, hv⟩
  · rw [(hl kb).2, List.mem_map]
    constructor
    · rintro hx ⟨e, he, rfl⟩
      exact hx e he (Res.ok.inj hkb)
    · exact fun hx e he hk => hx ⟨e, he, inj e he hk⟩

/-- C124 fails as the README shows it: in no map of strings, of at least eight entries, does the lookup
by text find anything, whether or not the map holds the key, when the text has at most 250 bytes and
does not happen to begin with the number of bytes that follow. -/
theorem C124_text_false {ν : Type} {v : Codec ν} (sp : Bool) (m : List (String × ν)) (h8 : 8 ≤ m.length)
    (hlen : m.length < 2 ^ 56) (hkeys : ∀ e ∈ m, (strBytes e.1).length < 2 ^ 31)
    (hdistinct : (m.map Prod.fst).Nodup)
    (hvals : ∀ e ∈ m, ∀ b, v.enc e.2 = .ok b → b ≠ [] ∧ b.length < 2 ^ 32) (b : Bytes)
    (h : serializeIndexedEntries (stringC ⟨false, sp⟩ fun _ => true).enc v.enc m = .ok b) :
    ∃ w : IndexedMapWalker, IndexedMapWalker.fromPayload b = .ok w ∧
      ∀ text : Bytes, text.length ≤ 250 → (∀ a l, text = a :: l → a.toNat ≠ l.length) →
        w.findValueBytes (fun x => cmpBytes x text) = .ok none := by
  obtain ⟨w, h1, hl⟩ := string_probe ⟨false, sp⟩ m h8 hlen hkeys hdistinct hvals b h
  refine ⟨w, h1, fun text ht hh => (hl text).2.2 fun e he hk => ?_⟩
  have hlt : (strBytes e.1).length < 251 := by
    have : text.length = (encLen ⟨false, sp⟩ (strBytes e.1).length ++ strBytes e.1 : Bytes).length :=
      congrArg List.length hk.symm
    rw [List.length_append] at this
    omega
  unfold encBytes at hk
  rw [encLen_eq (by omega)] at hk
  unfold number varint at hk
  simp only [Bool.false_eq_true, if_false, if_pos hlt] at hk
  refine hh _ _ hk.symm ?_
  show (UInt8.ofNat (strBytes e.1).length).toNat = (strBytes e.1).length
  rw [UInt8.toNat_ofNat']
  omega

/-- C124 fails as the README shows it: a text that begins with the number of bytes that follow finds
the value of another key, the text without its first byte. -/
theorem C124_other_key_false {ν : Type} {v : Codec ν} (sp : Bool) (m : List (String × ν)) (h8 : 8 ≤ m.length)
    (hlen : m.length < 2 ^ 56) (hkeys : ∀ e ∈ m, (strBytes e.1).length < 2 ^ 31)
    (hdistinct : (m.map Prod.fst).Nodup)
    (hvals : ∀ e ∈ m, ∀ b, v.enc e.2 = .ok b → b ≠ [] ∧ b.length < 2 ^ 32) (b : Bytes)
    (h : serializeIndexedEntries (stringC ⟨false, sp⟩ fun _ => true).enc v.enc m = .ok b) :
    ∃ w : IndexedMapWalker, IndexedMapWalker.fromPayload b = .ok w ∧
      ∀ key val vb, (key, val) ∈ m → v.enc val = .ok vb → (strBytes key).length ≤ 250 →
        w.findValueBytes (fun x => cmpBytes x (UInt8.ofNat (strBytes key).length :: strBytes key)) =
          .ok (some vb) := by
  obtain ⟨w, h1, hl⟩ := string_probe ⟨false, sp⟩ m h8 hlen hkeys hdistinct hvals b h
  refine ⟨w, h1, fun key val vb he hv hk => ((hl _).1 vb).2 ⟨(key, val), he, ?_, hv⟩⟩
  show encBytes ⟨false, sp⟩ (strBytes key) = _
  unfold encBytes
  rw [encLen_eq (by omega)]
  unfold number varint
  simp only [Bool.false_eq_true, if_false, if_pos (show (strBytes key).length < 251 by omega)]
  rfl

/-- C124 fails for small maps: with fewer than eight entries every lookup, by text or by serialised
key, is an error; nothing is scanned. -/
theorem C124_small_false {ν : Type} {v : Codec ν} (cfg : Cfg) (m : List (String × ν)) (h8 : m.length < 8)
    (b : Bytes) (h : serializeIndexedEntries (stringC cfg fun _ => true).enc v.enc m = .ok b) :
    ∃ w : IndexedMapWalker, IndexedMapWalker.fromPayload b = .ok w ∧
      ∀ probe, w.findValueBytes (fun x => cmpBytes x probe) = .err .deserialize := by
  obtain ⟨w, h1, -, -, -, -, hf, -⟩ := C41_short (k := stringC cfg fun _ => true) m h8 b h
  exact ⟨w, h1, fun _ => hf _⟩

/-- A map of eight names, listed by length and then alphabetically. -/
def demoNames : List (String × BitVec 8) :=
  [("b", 1), ("c", 2), ("d", 3), ("e", 4), ("f", 5), ("g", 6), ("aa", 7), ("bravo", 8)]

theorem demoNames_enc : serializeIndexedEntries (stringC Cfg.default fun _ => true).enc (intC Cfg.default .u8).enc
      demoNames = writeMapPairs [([1, 98], [1]), ([1, 99], [2]), ([1, 100], [3]), ([1, 101], [4]), ([1, 102], [5]),
        ([1, 103], [6]), ([2, 97, 97], [7]), ([5, 98, 114, 97, 118, 111], [8])] := by
  unfold serializeIndexedEntries
  have h : encEach (encPair (stringC Cfg.default fun _ => true).enc (intC Cfg.default .u8).enc) demoNames =
      .ok [([1, 98], [1]), ([1, 99], [2]), ([1, 100], [3]), ([1, 101], [4]), ([1, 102], [5]),
        ([1, 103], [6]), ([2, 97, 97], [7]), ([5, 98, 114, 97, 118, 111], [8])] := by decide +kernel
  rw [h]
  show writeMapPairs _ = _
  rw [List.mergeSort_of_pairwise]
  decide +kernel

/-- C124: comparing the text after the length prefix does not repair the README's lookup.  The entries
are ordered with their length prefixes, so the search goes the wrong way: the map holds `"aa"`, and the
search by text, past the prefix byte, does not find it. -/
theorem C124_stripped_false : ∃ (b : Bytes) (w : IndexedMapWalker),
    serializeIndexedEntries (stringC Cfg.default fun _ => true).enc (intC Cfg.default .u8).enc demoNames = .ok b ∧
    ("aa", (7 : BitVec 8)) ∈ demoNames ∧ IndexedMapWalker.fromPayload b = .ok w ∧
    w.findValueBytes (fun x => cmpBytes x (2 :: strBytes "aa")) = .ok (some [7]) ∧
    w.findValueBytes (fun x => cmpBytes (x.drop 1) (strBytes "aa")) = .ok none := by
  rw [demoNames_enc]
  refine ⟨_, _, rfl, by decide, rfl, ?_, ?_⟩ <;> decide +kernel

/-! ### Non-vacuity -/

theorem demoNames_keys : ∀ e ∈ demoNames, (strBytes e.1).length < 2 ^ 31 := by decide +kernel

theorem demoNames_vals : ∀ e ∈ demoNames, ∀ b, (intC Cfg.default .u8).enc e.2 = .ok b → b ≠ [] ∧ b.length < 2 ^ 32 := by
  intro e _ b h
  rw [← Res.ok.inj h]
  exact ⟨List.cons_ne_nil _ _, show (1 : Nat) < 2 ^ 32 by decide⟩

/-- The README's lookup of `"bravo"` finds nothing in a map that holds it; the lookup of its serialised
form finds the value, and so does a text that is no key of the map. -/
example : ∃ (b : Bytes) (w : IndexedMapWalker),
    serializeIndexedEntries (stringC Cfg.default fun _ => true).enc (intC Cfg.default .u8).enc demoNames = .ok b ∧
    IndexedMapWalker.fromPayload b = .ok w ∧
    w.findValueBytes (fun x => cmpBytes x (strBytes "bravo")) = .ok none ∧
    w.findValueBytes (fun x => cmpBytes x (5 :: strBytes "bravo")) = .ok (some [8]) ∧
    w.findValueBytes (fun x => cmpBytes x (5 :: strBytes "delta")) = .ok none := by
  obtain ⟨b, hb⟩ : ∃ b, serializeIndexedEntries (stringC Cfg.default fun _ => true).enc
      (intC Cfg.default .u8).enc demoNames = .ok b := by rw [demoNames_enc]; exact ⟨_, rfl⟩
  obtain ⟨w, h1, hk⟩ := C124_serialised_key_partial Cfg.default demoNames (by decide) (by decide) demoNames_keys
    (by decide) demoNames_vals b hb
  obtain ⟨w2, h2, ht⟩ := C124_text_false true demoNames (by decide) (by decide) demoNames_keys (by decide)
    demoNames_vals b hb
  obtain ⟨w3, h3, ho⟩ := C124_other_key_false true demoNames (by decide) (by decide) demoNames_keys (by decide)
    demoNames_vals b hb
  rw [h1] at h2 h3
  cases h2
  cases h3
  refine ⟨b, w, hb, h1, ht _ (by decide +kernel) ?_, ho "bravo" 8 [8] (by decide) rfl (by decide +kernel),
    (hk "delta" (5 :: strBytes "delta") (by decide +kernel) rfl).2.2 (by decide)⟩
  intro a l e
  have : strBytes "bravo" = [98, 114, 97, 118, 111] := by decide +kernel
  rw [this] at e
  injection e with e1 e2
  subst e1 e2
  decide

/-- Three of the names: every lookup is an error. -/
example : ∃ (b : Bytes) (w : IndexedMapWalker),
    serializeIndexedEntries (stringC Cfg.default fun _ => true).enc (intC Cfg.default .u8).enc
      (demoNames.drop 5) = .ok b ∧
    IndexedMapWalker.fromPayload b = .ok w ∧
    w.findValueBytes (fun x => cmpBytes x (5 :: strBytes "bravo")) = .err .deserialize := by
  obtain ⟨b, hb⟩ : ∃ b, serializeIndexedEntries (stringC Cfg.default fun _ => true).enc
      (intC Cfg.default .u8).enc (demoNames.drop 5) = .ok b := by
    unfold serializeIndexedEntries
    have h : encEach (encPair (stringC Cfg.default fun _ => true).enc (intC Cfg.default .u8).enc)
        (demoNames.drop 5) = .ok [([1, 103], [6]), ([2, 97, 97], [7]), ([5, 98, 114, 97, 118, 111], [8])] := by
      decide +kernel
    rw [h]
    show ∃ b, writeMapPairs _ = _
    rw [List.mergeSort_of_pairwise (by decide +kernel)]
    exact ⟨_, rfl⟩
  obtain ⟨w, h1, h2⟩ := C124_small_false Cfg.default (demoNames.drop 5) (by decide) b hb
  exact ⟨b, w, hb, h1, h2 _⟩

end Revision
