import Verif.Proofs.Copy
import Verif.Props.Work
import Verif.Props.Exchange

/-! C133: the bytes reading copies. -/

namespace Revision

section
variable {ι : Type} [DecidableEq ι]

/-- C133: the readers that count copied bytes are the readers of the type with a counter added. -/
theorem C133_counts (cfg : Cfg) (P : Program ι) (I : Impls P.kind) (n : Nat) (i : ι) :
    (P.copying cfg I n i).Counts (P.codec cfg I n i) :=
  @Program.counted_counts Tariff.copies _ _ cfg P I n i

/-- C133: on every input, well-formed or not, decoding and validating copy at most as many bytes as the input has (if they succeed, as
they took) times the number of optimised types around each other. -/
theorem C133_bound (cfg : Cfg) (P : Program ι) (I : Impls P.kind) (n : Nat) (i : ι) :
    (P.copying cfg I n i).dec.Linear 0 (P.layers n i) ∧ (P.copying cfg I n i).check.Linear 0 (P.layers n i) :=
  have h := P.counted_copies cfg I n i _ (Nat.le_refl _)
  ⟨Ct.Costs.linear h.dec, Ct.Costs.linear h.check⟩

/-- C133: skipping copies nothing. -/
theorem C133_skip (cfg : Cfg) (P : Program ι) (I : Impls P.kind) (n : Nat) (i : ι) (s : Bytes) :
    (P.copying cfg I n i).skip.steps s = 0 ∧ (P.copying cfg I n i).skipS.steps s = 0 := by
  have h := P.counted_copies cfg I n i _ (Nat.le_refl _)
  have h1 := h.skip.2 s
  have h2 := h.skipS.2 s
  exact ⟨by show (_ : Nat × _).1 = 0; omega, by show (_ : Nat × _).1 = 0; omega⟩

omit [DecidableEq ι] in
theorem foldr_max_le {l : List Nat} {b : Nat} (h : ∀ a ∈ l, a ≤ b) : l.foldr max 0 ≤ b := by
  induction l with
  | nil => exact Nat.zero_le _
  | cons a l ih =>
    have := h a List.mem_cons_self
    have := ih fun c hc => h c (List.mem_cons_of_mem _ hc)
    simp only [List.foldr_cons]
    omega

omit [DecidableEq ι] in
/-- C133: the optimised types around each other are no more than the types around each other. -/
theorem C133_layers_depth (P : Program ι) : ∀ (n : Nat) (i : ι), P.layers n i ≤ n
  | 0, _ => Nat.le_refl _
  | n + 1, i => by
    have : ((P.refs i).map (P.layers n)).foldr max 0 ≤ n := foldr_max_le fun a ha => by
      obtain ⟨j, _, rfl⟩ := List.mem_map.1 ha
      exact C133_layers_depth P n j
    simp only [Program.layers]
    split <;> omega

omit [DecidableEq ι] in
/-- C133: if no optimised type contains itself, however indirectly (each type has a rank no lower than those of the types in its fields,
and higher if it is optimised), the number is at most the rank, whatever the nesting: reading copies a number of bytes
linear in the input. -/
theorem C133_layers_rank (P : Program ι) (w : ι → Nat)
    (hw : ∀ i, (∀ j ∈ P.refs i, w j ≤ w i) ∧ (P.framed i = true → 1 ≤ w i ∧ ∀ j ∈ P.refs i, w j < w i)) :
    ∀ (n : Nat) (i : ι), P.layers n i ≤ w i
  | 0, _ => Nat.zero_le _
  | n + 1, i => by
    have ih := C133_layers_rank P w hw n
    have le : ∀ b, (∀ j ∈ P.refs i, w j ≤ b) → ((P.refs i).map (P.layers n)).foldr max 0 ≤ b := fun b hb => foldr_max_le fun a ha => by
      obtain ⟨j, hj, rfl⟩ := List.mem_map.1 ha
      exact Nat.le_trans (ih j) (hb j hj)
    simp only [Program.layers]
    split
    · rename_i hf
      obtain ⟨h1, h2⟩ := (hw i).2 hf
      have := le (w i - 1) fun j hj => by have := h2 j hj; omega
      omega
    · have := le (w i) (hw i).1
      omega

/-- C133: a program without optimised types copies nothing. -/
theorem C133_plain (cfg : Cfg) (P : Program ι) (I : Impls P.kind) (hP : ∀ i, P.framed i = false) (n : Nat) (i : ι) (s : Bytes) :
    (P.copying cfg I n i).dec.steps s = 0 ∧ (P.copying cfg I n i).check.steps s = 0 := by
  have h0 : P.layers n i = 0 := Nat.le_zero.1 <| C133_layers_rank P (fun _ => 0)
    (fun i => ⟨fun _ _ => Nat.le_refl _, fun h => by rw [hP i] at h; cases h⟩) n i
  have h := C133_bound cfg P I n i
  rw [h0] at h
  have h1 := (h.1 s).1
  have h2 := (h.2 s).1
  exact ⟨by omega, by omega⟩

end

/-! ### Records in records -/

/--
```
#[revisioned(revision(1, optimised))]
struct Node { next: Option<Box<Node>> }
``` -/
def nodeProgram : Program Unit where
  kind _ := .struct
  history _ := [⟨1, true, false⟩]
  body _ := .struct [⟨"next", {}, .option (.wrap (.ext ())), fun _ _ => .ok (none : Option _), fun _ _ _ v => .ok v⟩]

def nodeImpls : Impls nodeProgram.kind where
  cap := fun _ n => decide (n ≤ 2 ^ 40)
  cmp := fun _ _ _ _ => .eq
  eq := fun _ _ _ _ => true

/-- A node with `k` nodes in it, each in the one before. -/
def nodeChain : (k : Nat) → Values nodeProgram.kind (k + 1) ()
  | 0 => ([⟨.option (.wrap (.ext ())), (none : Option _)⟩] : List _)
  | k + 1 => ([⟨.option (.wrap (.ext ())), (some (nodeChain k) : Option _)⟩] : List _)

/-- The field of a node that holds another. -/
def nodeNext (k : Nat) : DynAt nodeProgram.kind (k + 1) := ⟨.option (.wrap (.ext ())), (some (nodeChain k) : Option _)⟩

/-- The fields of the outermost node. -/
def nodeFields : Nat → Bytes
  | 0 => [0]
  | k + 1 => 1 :: 1 :: (leBytes 4 (nodeFields k).length ++ nodeFields k)

theorem nodeFields_length (k : Nat) : (nodeFields k).length = 6 * k + 1 := by
  induction k with
  | zero => rfl
  | succ k ih => simp only [nodeFields, List.length_cons, List.length_append, leBytes_length, ih]; omega

theorem Ct.Gives.within {m : Ct α} {buf s r : Bytes} {k : Nat} {a : α} (h : m.Gives buf k a r) : (m.within buf).Gives s k a s := by
  unfold Ct.Gives Ct.within at *
  simp only [h]

/-- Reading one node. -/
theorem node_gives (k : Nat) (hk : 6 * k + 1 < 2 ^ 32) (t : Bytes) :
    (nodeProgram.copying .default nodeImpls (k + 1) ()).dec.Gives (1 :: (leBytes 4 (nodeFields k).length ++ nodeFields k ++ t))
      ((k + 1) * (3 * k + 1)) (nodeChain k) t := by
  induction k generalizing t with
  | zero => rfl
  | succ k ih =>
    have inner := ih (by omega) []
    rw [List.append_nil] at inner
    refine (Ct.Gives.tick 0 _).bind0 (Ct.Gives.bind0 (.of (a := 1) (r := leBytes 4 (nodeFields (k + 1)).length ++ nodeFields (k + 1) ++ t) rfl) ?_)
    refine Ct.Gives.bind0 (.of (readLengthPrefixed_append _ (by rw [nodeFields_length]; omega) t)) ?_
    refine Ct.Gives.cast ((Ct.Gives.tick _ _).bind (k' := (k + 1) * (3 * k + 1)) (Ct.Gives.within (r := []) ?_)) ?_
    · refine Ct.Gives.cast (Ct.Gives.bind (k := (k + 1) * (3 * k + 1)) (k' := 0)
        (a := [("next", nodeNext k)]) (r := []) ?_ rfl) (Nat.add_zero _)
      refine Ct.Gives.cast (Ct.Gives.bind (k := (k + 1) * (3 * k + 1)) (k' := 0)
        (a := nodeNext k) (r := []) ?_ rfl) (Nat.add_zero _)
      refine Ct.Gives.map (g := fun a => (⟨Ty.option (.wrap (.ext ())), a⟩ : DynAt nodeProgram.kind (k + 1)))
        (a := (some (nodeChain k) : Option _)) ?_
      refine (Ct.Gives.tick 0 _).bind0 (Ct.Gives.bind0 (.of (a := 1) (r := 1 :: (leBytes 4 (nodeFields k).length ++ nodeFields k)) rfl) ?_)
      exact Ct.Gives.map (g := some) ((Ct.Gives.tick 0 _).bind0 inner)
    · show 1 * _ + _ = _
      rw [nodeFields_length]
      simp only [Nat.add_mul, Nat.mul_add]
      omega

theorem node_enc (k : Nat) (hk : 6 * k + 1 < 2 ^ 32) :
    (nodeProgram.codec .default nodeImpls (k + 1) ()).enc (nodeChain k) = .ok (1 :: (leBytes 4 (nodeFields k).length ++ nodeFields k)) := by
  induction k with
  | zero => rfl
  | succ k ih =>
    have b : ∀ {α β : Type} {m : Res α} {f : α → Res β} {a : α} {x : Res β}, m = .ok a → f a = x → (m >>= f) = x := by
      intro α β m f a x h h'
      subst h
      exact h'
    refine b (a := leBytes 4 (nodeFields (k + 1)).length ++ nodeFields (k + 1)) ?_ rfl
    refine b (a := nodeFields (k + 1)) ?_ (if_pos (by rw [nodeFields_length]; exact hk))
    refine b (a := nodeFields (k + 1)) (b (ih (by omega)) rfl) ?_
    exact congrArg Res.ok (List.append_nil _)

/-- C133: and no bound on the copies that is linear in the input holds: a node with `k` nodes in it, each in the one before, serialises
to `6 * (k + 1)` bytes, and reading them copies `(3 * k + 1) * (k + 1)`. -/
theorem C133_quadratic (k : Nat) (hk : 6 * k + 1 < 2 ^ 32) : ∃ s : Bytes,
    (nodeProgram.codec .default nodeImpls (k + 1) ()).enc (nodeChain k) = .ok s ∧ s.length = 6 * (k + 1) ∧ ∀ t,
    (nodeProgram.copying .default nodeImpls (k + 1) ()).dec.steps (s ++ t) = (3 * k + 1) * (k + 1) ∧
    (nodeProgram.copying .default nodeImpls (k + 1) ()).dec.erase (s ++ t) = .ok (nodeChain k, t) := by
  refine ⟨_, node_enc k hk, ?_, fun t => ?_⟩
  · simp only [List.length_cons, List.length_append, leBytes_length, nodeFields_length]
    omega
  · have := node_gives k hk t
    exact ⟨(congrArg Prod.fst this).trans (Nat.mul_comm _ _), congrArg Prod.snd this⟩

/-! ### Examples -/

example (n : Nat) : nodeProgram.layers n () = n := by
  induction n with
  | zero => rfl
  | succ n ih =>
    show 1 + max (nodeProgram.layers n ()) 0 = n + 1
    omega

/-- 24 bytes of input, 40 bytes copied. -/
example : (nodeProgram.copying .default nodeImpls 4 ()).dec.steps
    [1, 19, 0, 0, 0, 1, 1, 13, 0, 0, 0, 1, 1, 7, 0, 0, 0, 1, 1, 1, 0, 0, 0, 0] = 40 := rfl

/-- A document of 28 bytes: the 23 bytes of its body are copied, those of the trees in it not again. -/
example : (demoProgram.copying .default demoImpls 4 .doc).dec.steps
    [1, 23, 0, 0, 0, 1, 100, 0, 2, 1, 1, 2, 1, 0, 5, 1, 1, 0, 1, 1, 2, 1, 0, 5, 1, 1, 0, 0] = 23 := by decide +kernel

/-- Trees have no optimised revision and contain only trees. -/
example (n : Nat) (s : Bytes) : (demoProgram.copying .default demoImpls n .tree).dec.steps s = 0 := by
  have h0 : ∀ n, demoProgram.layers n .tree = 0 := fun n => by
    induction n with
    | zero => rfl
    | succ n ih =>
      show 0 + max (demoProgram.layers n .tree) 0 = 0
      omega
  have := ((C133_bound .default demoProgram demoImpls n .tree).1 s).1
  rw [h0] at this
  omega

/-- Neither version of parts and wholes is optimised. -/
example (n : Nat) (i : PartOrWhole) (s : Bytes) : (partsProgram.copying .default partsImpls n i).dec.steps s = 0 :=
  (C133_plain .default partsProgram partsImpls (fun i => by cases i <;> rfl) n i s).1

/-- With optimised parts and wholes, to any depth, no byte is copied more than twice. -/
def framedParts : Program PartOrWhole := { partsProgram with history := fun _ => [⟨1, false, false⟩, ⟨2, true, false⟩] }

example (n : Nat) (s : Bytes) : (framedParts.copying .default partsImpls n .whole).dec.steps s ≤ 2 * s.length := by
  have hr := C133_layers_rank framedParts (fun | .part => 1 | .whole => 2) (fun i => by
    cases i with
    | part => exact ⟨fun j hj => (by cases hj), fun _ => ⟨Nat.le_refl _, fun j hj => (by cases hj)⟩⟩
    | whole =>
      have hj : ∀ j ∈ framedParts.refs .whole, j = .part := fun j hj => List.mem_singleton.1 hj
      exact ⟨fun j h => by rw [hj j h]; decide, fun _ => ⟨by decide, fun j h => by rw [hj j h]; decide⟩⟩) n .whole
  have := ((C133_bound .default framedParts partsImpls n .whole).1 s).1
  have := Nat.mul_le_mul_right s.length hr
  simp only at this
  omega

end Revision
