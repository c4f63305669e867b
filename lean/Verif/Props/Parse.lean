import Verif.Proofs.Parse
import Verif.Props.Macro

/-!
# From tokens (C104)

The grammar is `Spec/Parse`.
-/

namespace Revision

/-! ### Lists of options -/

/-- C104: the tokens in the brackets of an attribute of a field are accepted as the options `os` exactly if they are
`os`, separated by commas, with or without one at the end. -/
theorem C104_field_options (ts : List Tok) (os : List FieldOption) :
    parseTerminated parseFieldOption ts = some os ↔ CommaList FieldOption.Written os ts :=
  parseTerminated_iff parseFieldOption_parses ts os

/-- The same for variants. -/
theorem C104_variant_options (ts : List Tok) (os : List VariantOption) :
    parseTerminated parseVariantOption ts = some os ↔ CommaList VariantOption.Written os ts :=
  parseTerminated_iff parseVariantOption_parses ts os

/-- The same for items, and for the arguments of the macro. -/
theorem C104_item_options (ts : List Tok) (os : List ItemOption) :
    parseTerminated parseItemOption ts = some os ↔ CommaList ItemOption.Written os ts :=
  parseTerminated_iff parseItemOption_parses ts os

/-- `end = 3, convert_fn = "f",` -/
example : parseTerminated parseFieldOption
    [.ident "end", .punct '=', .int 3, .punct ',', .ident "convert_fn", .punct '=', .str "f", .punct ','] =
      some [.stop 3, .convert "f"] := by
  rw [C104_field_options]
  exact .cons (ts := keyValue "end" (.int 3)) (.stop (by decide)) (.cons (ts := keyValue "convert_fn" (.str "f")) .convert .nil)

/-- Two commas, no comma, an unknown key, a number too large. -/
example : parseTerminated parseFieldOption [.ident "fixed", .punct ',', .punct ','] = none ∧
    parseTerminated parseFieldOption [.ident "fixed", .ident "specialised"] = none ∧
    parseTerminated parseFieldOption [.ident "size", .punct '=', .str "inline"] = none ∧
    parseTerminated parseFieldOption (keyValue "start" (.int (2 ^ 64))) = none := by
  refine ⟨?_, ?_, ?_, ?_⟩ <;> rfl

/-! ### Items -/

/-- C104: the arguments and the item are accepted as the definition `s` exactly if they are `s` in the grammar.  Missing
from the full property: explicit discriminants and `where` clauses, which Rust has and this grammar has not
(`C104_discriminant_false`, `C104_where_false`). -/
theorem C104_item_partial (args item : List Tok) (s : ItemSrc) : parseItem args item = some s ↔ s.Written args item :=
  parseItem_iff args item s

/-- So the tokens mean one definition. -/
theorem C104_unambiguous (args item : List Tok) (s s' : ItemSrc) (h : s.Written args item) (h' : s'.Written args item) :
    s = s' := by
  rw [← parseItem_iff] at h h'
  rw [h] at h'
  exact Option.some.inj h'

/-- The macro as a whole accepts the tokens of the definitions that make sense (`C97`), with the history they declare.

Missing from the full property: raw identifiers in items with a walker (`C97_raw_false`). -/
theorem C104_accepted_partial (args item : List Tok) (h : List Entry) :
    (∃ x, revisioned args item = some x ∧ x.history = h) ↔ ∃ s : ItemSrc, s.Written args item ∧ s.Documented h ∧
      (walkOn s.args = true → s.body.PlainNames h.length) := by
  unfold revisioned
  constructor
  · rintro ⟨x, hx, rfl⟩
    simp only [Option.bind_eq_bind, Option.bind_eq_some_iff] at hx
    obtain ⟨s, hs, hx⟩ := hx
    refine ⟨s, (parseItem_iff _ _ _).1 hs, (C97_accepted_iff_partial s _).1 ⟨x, ?_, rfl⟩⟩
    cases he : expand s with
    | error e => rw [he] at hx; cases hx
    | ok y => rw [he] at hx; cases hx; rfl
  · rintro ⟨s, hs, hd⟩
    obtain ⟨x, hx, rfl⟩ := (C97_accepted_iff_partial s h).2 hd
    exact ⟨x, by simp only [(parseItem_iff _ _ _).2 hs, Option.bind_eq_bind, Option.bind_some, hx, pure], rfl⟩

/-- What an accepted definition has (`C97_sound`), with nothing to assume of its numbers: an enum of different live variants
has discriminants for all of them that fit. -/
theorem C104_sound (args item : List Tok) (x : Expansion) (hx : revisioned args item = some x) :
    ValidHistory x.history ∧
    ∀ vs, x.body = .enum vs → vs.length ≤ 2 ^ 32 → ∀ e ∈ x.history, DistinctVariants e.revision (vs.map VariantAst.sig) →
      AcceptedSigs e (vs.map VariantAst.sig) := by
  unfold revisioned at hx
  simp only [Option.bind_eq_bind, Option.bind_eq_some_iff] at hx
  obtain ⟨s, hs, hx⟩ := hx
  have hx : expand s = .ok x := by
    cases he : expand s with
    | error e => rw [he] at hx; cases hx
    | ok y => rw [he] at hx; cases hx; rfl
  refine ⟨(C97_sound s x hx).1, fun vs hvs hlen e he hd => (C97_sound s x hx).2 vs hvs e he hd hlen ?_⟩
  obtain ⟨as, vis, body, -, -, hb, -⟩ := ((parseItem_iff _ _ _).1 hs).item
  obtain ⟨_, _, b, _, _, _, h3, _, _, rfl⟩ := (expand_iff s x).1 hx
  obtain ⟨-, rfl⟩ := (parseBody_iff _ _).1 h3
  dsimp only at hvs
  obtain ⟨sargs, sattrs, sbody⟩ := s
  cases sbody with
  | struct fs => cases hvs
  | enum ws =>
    cases hvs
    intro v hv
    obtain ⟨w, hw, rfl⟩ := List.mem_map.1 hv
    exact hb.overrides w hw

/-- The tokens of
```
#[revisioned(revision(1), revision(2, optimised,),)]
#[derive(Debug)]
pub enum E<T> {
  #[revision(size = "inline")] A,
  #[revision(size = "fixed(4)", override(revision = 2, discriminant = 7))] #[revision(start = 2,)] B(#[revision(fixed)] u32,),
}
``` -/
def demoArgToks : List Tok :=
  [.ident "revision", .paren [.int 1], .punct ',',
    .ident "revision", .paren [.int 2, .punct ',', .ident "optimised", .punct ','], .punct ',']

/-- See `demoArgToks`. -/
def demoItemToks : List Tok :=
  [.punct '#', .bracket [.ident "derive", .paren [.ident "Debug"]], .vis "pub", .ident "enum", .ident "E", .generics "<T>",
    .brace [
      .punct '#', .bracket [.ident "revision", .paren (keyValue "size" (.str "inline"))], .ident "A", .punct ',',
      .punct '#', .bracket [.ident "revision", .paren (keyValue "size" (.str "fixed(4)") ++ .punct ',' ::
        [.ident "override", .paren (keyValue "revision" (.int 2) ++ .punct ',' :: keyValue "discriminant" (.int 7))])],
      .punct '#', .bracket [.ident "revision", .paren (keyValue "start" (.int 2) ++ [.punct ','])], .ident "B",
      .paren [.punct '#', .bracket [.ident "revision", .paren [.ident "fixed"]], .type "u32", .punct ','], .punct ',']]

/-- What they say. -/
def demoParsed : ItemSrc where
  args := [.entry 1 [], .entry 2 [.optimised]]
  attrs := []
  body := .enum [⟨"A", [[.size .inline]], []⟩,
    ⟨"B", [[.size (.fixed 4), .override [.revision 2, .discriminant 7]], [.start 2]], [⟨"field_0", "u32", [[.fixed]]⟩]⟩]

theorem demoParsed_parsed : parseItem demoArgToks demoItemToks = some demoParsed := by rfl

example : demoParsed.Written demoArgToks demoItemToks := (C104_item_partial _ _ _).1 demoParsed_parsed

example : ∃ x, revisioned demoArgToks demoItemToks = some x ∧ x.history = [⟨1, false, false⟩, ⟨2, true, false⟩] :=
  ⟨_, by unfold revisioned; rw [demoParsed_parsed]; rfl, rfl⟩

/-! ### What Rust allows and the macro does not -/

/-- C104 is false of enums with explicit discriminants, `A = 1`: the parser looks for a colon where they begin, so it
reads none, and finds no comma. -/
theorem C104_discriminant_false (args : List Tok) (name ident : String) (n : Nat) :
    revisioned args [.ident "enum", .ident name, .brace [.ident ident, .punct '=', .int n]] = none := by
  cases h : revisioned args [.ident "enum", .ident name, .brace [.ident ident, .punct '=', .int n]] with
  | none => rfl
  | some x =>
    exfalso
    obtain ⟨s, hs, -⟩ := (C104_accepted_partial args _ x.history).1 ⟨x, h, rfl⟩
    have hp := (parseItem_iff _ _ _).2 hs
    unfold parseItem at hp
    simp only [Option.bind_eq_bind, Option.bind_eq_some_iff] at hp
    obtain ⟨_, -, ⟨_, r⟩, h1, ⟨_, r2⟩, h2, -⟩ := hp
    cases h1
    simp only [parseVis, parseKind, peekKw, beq_self_eq_true, if_true, parseEnum, parseKw, Option.bind_eq_bind,
      Option.bind_eq_some_iff] at h2
    obtain ⟨_, e, ⟨_, r3⟩, h3, h4⟩ := h2
    cases e
    rw [parseIdent_some] at h3
    obtain ⟨-, e⟩ := h3
    cases e
    simp only [parseGenerics, Option.bind_eq_some_iff] at h4
    obtain ⟨vs, h5, -⟩ := h4
    unfold parseTerminated at h5
    simp only [List.length_cons, terminatedLoop, Option.bind_eq_bind, Option.bind_eq_some_iff] at h5
    obtain ⟨⟨v, r4⟩, h6, h7⟩ := h5
    unfold parseVariantSrc at h6
    simp only [Option.bind_eq_bind, Option.bind_eq_some_iff] at h6
    obtain ⟨⟨_, r5⟩, h8, ⟨_, r6⟩, h9, ⟨_, r7⟩, h10, h11⟩ := h6
    cases h8
    rw [parseIdent_some] at h9
    obtain ⟨-, e⟩ := h9
    cases e
    cases h10
    cases h11
    simp [parsePunct] at h7

/-- C104 is false of definitions with a `where` clause: nothing reads it. -/
theorem C104_where_false (args rest : List Tok) (name g : String) :
    revisioned args (.ident "struct" :: .ident name :: .generics g :: .ident "where" :: rest) = none := by
  cases h : revisioned args (.ident "struct" :: .ident name :: .generics g :: .ident "where" :: rest) with
  | none => rfl
  | some x =>
    exfalso
    obtain ⟨s, hs, -⟩ := (C104_accepted_partial args _ x.history).1 ⟨x, h, rfl⟩
    have hp := (parseItem_iff _ _ _).2 hs
    unfold parseItem at hp
    simp only [Option.bind_eq_bind, Option.bind_eq_some_iff] at hp
    obtain ⟨_, -, ⟨_, r⟩, h1, ⟨_, r2⟩, h2, -⟩ := hp
    cases h1
    have e : ("struct" == "enum") = false := rfl
    simp only [parseVis, parseKind, peekKw, e, Bool.false_eq_true, if_false, beq_self_eq_true, if_true, parseStruct, parseKw,
      Option.bind_eq_bind, Option.bind_eq_some_iff] at h2
    obtain ⟨_, e, ⟨_, r3⟩, h3, h4⟩ := h2
    cases e
    rw [parseIdent_some] at h3
    obtain ⟨-, e⟩ := h3
    cases e
    simp [parseGenerics, parsePunct] at h4

end Revision
