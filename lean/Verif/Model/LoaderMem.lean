import Verif.Model.Module

/-!
What the loader asks of the allocator in advance: the `reserve` calls of core/src/ab-core-Loading.cpp:179 and 200. The
tables also grow by `push_back`, one element at a time, as elements are read; that is in Model/Module.lean.
-/

namespace Ab

/-- The request made while the section at `pos` is decoded, if it gets that far: the section code and the number of elements.
`decode_func_section` asks for as many as the count says, before reading any (Loading.cpp:178-179); `decode_code_section` after
comparing the count with the number of declarations (194-200). -/
def sectionRequest (bs : List Byte) (m : Module) (pos : Nat) : List (Byte × Nat) :=
  match readSectionCode bs pos with
  | .ok (code, pos) =>
    match readVaru32 bs pos with
    | .ok (_, pos) =>
      if code = SEC_FUNC then
        match readVaru32 bs pos with
        | .ok (nfuncs, _) => [(code, nfuncs.toNat)]
        | _ => []
      else if code = SEC_CODE then
        match readVaru32 bs pos with
        | .ok (nentries, _) => if nentries.toNat ≠ m.funcTypes.length then [] else [(code, nentries.toNat)]
        | _ => []
      else []
    | _ => []
  | _ => []

/-- The requests of the section loop (Loading.cpp:227-245). -/
def loopRequests (bs : List Byte) : Nat → Module → Nat → List (Byte × Nat)
  | 0, _, _ => []
  | fuel + 1, m, pos =>
    if pos = bs.length then []
    else sectionRequest bs m pos ++
      match decodeSection bs m pos with
      | .ok (m, pos) => loopRequests bs fuel m pos
      | _ => []

/-- The requests of `compile` (Loading.cpp:212-248). -/
def compileRequests (bs : List Byte) : List (Byte × Nat) :=
  match readHeader bs with
  | .ok pos => loopRequests bs (bs.length + 1) Module.empty pos
  | _ => []

end Ab
