import Verif.Spec.Leb
import Verif.Model.Module

/-!
Specification vocabulary for the module-format properties C06–C11.
-/

namespace Ab.Spec

/-- The eight header bytes: "abab" and version 1, little endian. -/
def header : List Byte := [0x61#8, 0x62#8, 0x61#8, 0x62#8, 0x01#8, 0x00#8, 0x00#8, 0x00#8]

/-- `sub` occurs in `bs` at offset `p`. -/
def OccursAt (bs : List Byte) (p : Nat) (sub : List Byte) : Prop :=
  p + sub.length ≤ bs.length ∧ (bs.drop p).take sub.length = sub

instance (bs p sub) : Decidable (OccursAt bs p sub) := inferInstanceAs (Decidable (_ ∧ _))

/-- A module a user hands to the writer is well formed: as many code entries as function
declarations, and every declaration names an existing type. -/
def WellFormed (m : WModule) : Prop :=
  m.funcs.length = m.codes.length ∧ ∀ ti ∈ m.funcs, ti.toNat < m.types.length

/-- The module fits the 32-bit size fields of the format (each section is shorter than 4 GiB). -/
def Fits (m : WModule) : Prop :=
  (appendTypeSection m.types).length < 2 ^ 32 ∧
  (appendFuncSection m.funcs).length < 2 ^ 32 ∧
  (appendCodeSection m.codes).length < 2 ^ 32

instance (m : WModule) : Decidable (Fits m) := inferInstanceAs (Decidable (_ ∧ _ ∧ _))

/-- A loaded module `lm` with bytes `bs` is the written module `wm`: same types, same declarations, and
for every function the declared type, the declared register count, the register total
`vars + args`, and a body found at the function's body offset; the bodies of different functions do not overlap. -/
structure Loaded (wm : WModule) (bs : List Byte) (lm : Module) : Prop where
  types : lm.types = wm.types
  decls : lm.funcTypes = wm.funcs
  count : lm.funcs.length = wm.codes.length
  each : ∀ (i : Nat) (c : CodeEntry) (f : Func) (ti : U32) (t : FuncType),
    wm.codes[i]? = some c → lm.funcs[i]? = some f → wm.funcs[i]? = some ti →
    wm.types[ti.toNat]? = some t →
      f.type = t ∧ f.typeIdx = ti.toNat ∧ f.varNregs = c.nregs ∧ f.argNregs = t.argNregs ∧
      f.retNregs = t.retNregs ∧ f.nregs = c.nregs + t.argNregs ∧ OccursAt bs f.body c.body
  disjoint : ∀ (i j : Nat) (f g : Func) (c : CodeEntry), i < j → wm.codes[i]? = some c →
    lm.funcs[i]? = some f → lm.funcs[j]? = some g → f.body + c.body.length ≤ g.body

/-- Every function of `lm` is as decoded: `lm.funcs` is the concatenation of one block per code section,
and the `j`-th function of a block has the type that the `j`-th declaration names, register counts that match
that type, and a body offset inside the bytes. -/
def FuncsSound (bs : List Byte) (lm : Module) : Prop :=
  ∃ blocks : List (List Func), lm.funcs = blocks.flatten ∧
    ∀ b ∈ blocks, ∀ (j : Nat) (f : Func), b[j]? = some f →
      f.body ≤ bs.length ∧
      ∃ ti, lm.funcTypes[j]? = some ti ∧ lm.types[ti.toNat]? = some f.type ∧ f.typeIdx = ti.toNat ∧
        f.argNregs = f.type.argNregs ∧ f.retNregs = f.type.retNregs ∧
        f.nregs = f.varNregs + f.type.argNregs

/-- The bytes of a sequence of sections; each is `(code, size field, payload)`. -/
def sectionsBytes (ss : List (Byte × List Byte × List Byte)) : List Byte :=
  (ss.map fun (c, sz, payload) => c :: (sz ++ payload)).flatten

end Ab.Spec
