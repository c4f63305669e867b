import Verif.Model.DeriveTy
import Verif.Spec.Derive
import Verif.Spec.Demo

/-! Concrete declarations, used to show that the theorems' hypotheses can be met and in
counterexamples. -/

namespace Revision

/-- Values of the demonstration. -/
abbrev DV := Dyn demoEnv

def DV.u8 (n : Nat) : DV := ⟨.int .u8, BitVec.ofNat 8 n⟩
def DV.u32 (n : Nat) : DV := ⟨.int .u32, BitVec.ofNat 32 n⟩
def DV.u32s (l : List Nat) : DV := ⟨.vec (.int .u32), l.map (BitVec.ofNat 32)⟩

/-- The default of a field added later: the writer's revision, as a number. -/
def demoDflt (r : Nat) : Res (BitVec 32) := .ok (BitVec.ofNat 32 r)

/-- A convert function that stores the removed number, plus the writer's revision, in the first
field. -/
def demoConvert (r : Nat) (a : BitVec 32) (this : List DV) : Res (List DV) :=
  .ok (DV.u32 (a.toNat + r) :: this.drop 1)

/-- A `u32` field. -/
def u32Field (cfg : Cfg) (name : String) (opts : FieldOptions) : FieldDecl DV :=
  tyField cfg demoEnv name opts (.int .u32) demoDflt demoConvert

/-- A `Vec<u32>` field, whose convert function stores the length in the first field. -/
def u32sField (cfg : Cfg) (name : String) (opts : FieldOptions) : FieldDecl DV :=
  tyField cfg demoEnv name opts (.vec (.int .u32)) (fun _ => .ok [])
    (fun _ l this => .ok (DV.u32 l.length :: this.drop 1))

/-- ```
#[revisioned(revision = 3)] // with the given encodings
struct Demo {
    kept: u32,
    #[revision(end = 2, convert_fn = "…")] removed: u32,
    #[revision(start = 2, default_fn = "…", fixed)] added: u32,
    #[revision(start = 3, specialised, indexed_seq)] list: Vec<u32>,
}
``` -/
def demoFields (cfg : Cfg) : List (FieldDecl DV) :=
  [u32Field cfg "kept" {},
   u32Field cfg "removed" { stop := some 2, convert := some "…" },
   u32Field cfg "added" { start := some 2, default := some "…", fixed := true },
   u32sField cfg "list" { start := some 3, specialised := true, indexedSeq := true }]

/-- A legacy revision, then an optimised one, then an indexed one. -/
def demoHistory : List Entry := [⟨1, false, false⟩, ⟨2, true, false⟩, ⟨3, true, true⟩]

/-- ```
#[revisioned(revision(1), revision(2), revision(3, optimised))]
enum DemoEnum {
    #[revision(size = "inline")] A,
    #[revision(start = 2, size = "varlen")] X(u32),
    #[revision(size = "varlen")] B {
        n: u32,
        #[revision(end = 2, convert_fn = "…")] gone: u32,
        #[revision(start = 2, default_fn = "…")] more: u32,
    },
    #[revision(end = 3, convert_fn = "…", size = "varlen")] C(u32),   // becomes X
}
``` -/
def demoVariants (cfg : Cfg) : List (VariantDecl DV) :=
  [⟨"A", { size := some .inline }, [], fun _ _ => .panic⟩,
   ⟨"X", { start := some 2, size := some .varlen }, [u32Field cfg "field_0" {}], fun _ _ => .panic⟩,
   ⟨"B", { size := some .varlen },
     [u32Field cfg "n" {}, u32Field cfg "gone" { stop := some 2, convert := some "…" },
      u32Field cfg "more" { start := some 2, default := some "…" }], fun _ _ => .panic⟩,
   ⟨"C", { stop := some 3, convert := some "…", size := some .varlen }, [u32Field cfg "field_0" {}],
     fun fields _ => .ok ⟨"X", fields⟩⟩]

/-- Two legacy revisions, then an optimised one. -/
def demoEnumHistory : List Entry := [⟨1, false, false⟩, ⟨2, false, false⟩, ⟨3, true, false⟩]

end Revision
