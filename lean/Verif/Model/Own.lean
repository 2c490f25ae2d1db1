import Verif.Model.Module
/-!
Model of who owns the bytes of a module: `ModuleStorage` and `Module` (core/include/Ab/Module.hpp:34-119),
`ModuleInst` (124-201), `compile` and `instantiate` (core/include/Ab/Loading.hpp:18-50,
core/src/ab-core-Loading.cpp:212-248) and the VM's table of instances
(core/include/Ab/VirtualMachine.hpp:32-66).

A program owns storages, `std::shared_ptr<Module>` variables and raw `ModuleInst*` pointers, each named by
creation order. `std::shared_ptr` is modelled by a use count stored with the module; the module is destroyed
when the count becomes zero. Byte blocks are named by number; `mem b` is the content of block `b`.
Simplifications: no allocation fails; exceptions raised by `compile` are caught by the program, which
goes on; a null span is not compiled (it is undefined: `end() - sizeof(T)` on a null pointer).
-/
namespace Ab.Own

/-- `ModuleStorage` (Module.hpp:34-73): the block it points at (`none` = null span) and its deleter
(`none` = null function pointer). -/
structure Storage where
  block : Option Nat
  deleter : Option Nat
deriving Repr, DecidableEq

/-- The moved-from storage (Module.hpp:50-51). -/
def Storage.moved : Storage := ⟨none, none⟩

/-- A `Module` on the heap with its `std::shared_ptr` use count. -/
structure Mod where
  storage : Storage
  uses : Nat
  content : Module
deriving Repr, DecidableEq

/-- A `ModuleInst` on the heap (Module.hpp:124-201): the module it shares and its function instances (the indices of the
functions of the module). -/
structure Inst where
  mod : Nat
  funcs : List Func
deriving Repr, DecidableEq

/-- The state of a program; `none` marks an object that does not exist any more. -/
structure St where
  /-- `(deleter, block)` for every call of a deleter, latest first. -/
  freed : List (Nat × Nat)
  storages : List (Option Storage)
  mods : List (Option Mod)
  /-- `std::shared_ptr<Module>` variables; `some none` is a null pointer. -/
  ptrs : List (Option (Option Nat))
  insts : List (Option Inst)
  /-- `VirtualMachine::modules_` (VirtualMachine.hpp:57), while the VM lives. Nothing adds to it. -/
  vm : Option (List Nat)

/-- A program starts with a VM (VirtualMachine.hpp:34) and nothing else. -/
def St.init : St := ⟨[], [], [], [], [], some []⟩

/-- Deleter number 0 is `std::free` (Module.hpp:39). -/
def FREE : Nat := 0

/-- `~ModuleStorage` (Module.hpp:54-58). -/
def freeStorage (st : Storage) (freed : List (Nat × Nat)) : List (Nat × Nat) :=
  match st.block, st.deleter with
  | some b, some d => (d, b) :: freed
  | _, _ => freed

/-- Copying a `shared_ptr` to module `m`: the use count grows. -/
def retain (s : St) (m : Nat) : Outcome St :=
  match s.mods[m]? with
  | some (some x) => .ok { s with mods := s.mods.set m (some { x with uses := x.uses + 1 }) }
  | _ => .ub "shared_ptr to a destroyed module"

/-- Destroying a `shared_ptr` to module `m`: the last one destroys the module and with it its storage (Module.hpp:87, 115). -/
def release (s : St) (m : Nat) : Outcome St :=
  match s.mods[m]? with
  | some (some x) =>
    if x.uses = 1 then
      .ok { s with mods := s.mods.set m none, freed := freeStorage x.storage s.freed }
    else .ok { s with mods := s.mods.set m (some { x with uses := x.uses - 1 }) }
  | _ => .ub "shared_ptr to a destroyed module"

/-- `compile(cx, storage)` (Loading.cpp:212-248): the storage is moved into a new module held by a local
`shared_ptr`; when decoding raises an exception that pointer is destroyed on the way out. Returns the state and the new
module's number. The caller's storage is dealt with by the caller. -/
def compileInto (mem : Nat → List Byte) (s : St) (st : Storage) : Outcome (St × Option Nat) :=
  match st.block with
  | none => .ub "null bytes"
  | some b =>
    match compile (mem b) with
    | .ok c => .ok ({ s with mods := s.mods ++ [some ⟨st, 1, c⟩] }, some s.mods.length)
    | .throw _ => .ok ({ s with mods := s.mods ++ [none], freed := freeStorage st s.freed }, none)
    | .trap w => .trap w
    | .ub w => .ub w
    | .fuel => .fuel

/-- `new ModuleInst(module)` (Loading.hpp:37-43, Module.hpp:126-128, 195-200) for a `shared_ptr` to
module `m` whose use is already counted. -/
def newInst (s : St) (m : Nat) : Outcome St :=
  match s.mods[m]? with
  | some (some x) => .ok { s with insts := s.insts ++ [some ⟨m, x.content.funcs⟩] }
  | _ => .ub "shared_ptr to a destroyed module"

/-- What a program may do. -/
inductive Op where
  | storage (b : Nat) (d : Option Nat)   -- ModuleStorage(bytes, deleter)         (Module.hpp:41-42)
  | moveStorage (i : Nat)                -- ModuleStorage(std::move(s))           (46-52)
  | dropStorage (i : Nat)                -- ~ModuleStorage                        (54-58)
  | compileStorage (i : Nat)             -- compile(cx, std::move(s))             (Loading.hpp:18)
  | compileBytes (b : Nat)               -- compile(cx, bytes)                    (Loading.hpp:25-27)
  | copyPtr (i : Nat)                    -- std::shared_ptr(p)
  | movePtr (i : Nat)                    -- std::shared_ptr(std::move(p))
  | dropPtr (i : Nat)                    -- ~shared_ptr
  | instantiate (i : Nat)                -- instantiate(cx, p)                    (Loading.hpp:35-37)
  | instantiateMove (i : Nat)            -- instantiate(cx, std::move(p))         (Loading.hpp:39-41)
  | instantiateBytes (b : Nat)           -- instantiate(cx, bytes)                (Loading.hpp:50-52)
  | deleteInst (i : Nat)                 -- delete inst
  | destroyVm                            -- ~VirtualMachine
deriving Repr, DecidableEq

/-- `~VirtualMachine`: destroys the instances held in `modules_` (VirtualMachine.hpp:57). -/
def destroyAll (s : St) : List Nat → Outcome St
  | [] => .ok s
  | i :: is =>
    match s.insts[i]? with
    | some (some x) => do
      let s ← release { s with insts := s.insts.set i none } x.mod
      destroyAll s is
    | _ => .ub "destroying an instance twice"

/-- One step. -/
def step (mem : Nat → List Byte) (s : St) : Op → Outcome St
  | .storage b d => .ok { s with storages := s.storages ++ [some ⟨some b, d⟩] }
  | .moveStorage i =>
    match s.storages[i]? with
    | some (some st) => .ok { s with storages := s.storages.set i (some .moved) ++ [some st] }
    | _ => .ub "use of a destroyed storage"
  | .dropStorage i =>
    match s.storages[i]? with
    | some (some st) => .ok { s with storages := s.storages.set i none, freed := freeStorage st s.freed }
    | _ => .ub "use of a destroyed storage"
  | .compileStorage i =>
    match s.storages[i]? with
    | some (some st) => do
      let (s, r) ← compileInto mem { s with storages := s.storages.set i (some .moved) } st
      match r with
      | some m => .ok { s with ptrs := s.ptrs ++ [some (some m)] }
      | none => .ok { s with ptrs := s.ptrs ++ [none] }
    | _ => .ub "use of a destroyed storage"
  | .compileBytes b => do
    -- the temporary `ModuleStorage(bytes)` is moved from, so its destructor does nothing
    let (s, r) ← compileInto mem s ⟨some b, some FREE⟩
    match r with
    | some m => .ok { s with ptrs := s.ptrs ++ [some (some m)] }
    | none => .ok { s with ptrs := s.ptrs ++ [none] }
  | .copyPtr i =>
    match s.ptrs[i]? with
    | some (some (some m)) => do
      let s ← retain s m
      .ok { s with ptrs := s.ptrs ++ [some (some m)] }
    | some (some none) => .ok { s with ptrs := s.ptrs ++ [some none] }
    | _ => .ub "use of a destroyed pointer"
  | .movePtr i =>
    match s.ptrs[i]? with
    | some (some p) => .ok { s with ptrs := s.ptrs.set i (some none) ++ [some p] }
    | _ => .ub "use of a destroyed pointer"
  | .dropPtr i =>
    match s.ptrs[i]? with
    | some (some (some m)) => release { s with ptrs := s.ptrs.set i none } m
    | some (some none) => .ok { s with ptrs := s.ptrs.set i none }
    | _ => .ub "use of a destroyed pointer"
  | .instantiate i =>
    match s.ptrs[i]? with
    | some (some (some m)) => do
      let s ← retain s m
      newInst s m
    | some (some none) => .ub "module_->func_table() on a null pointer"
    | _ => .ub "use of a destroyed pointer"
  | .instantiateMove i =>
    match s.ptrs[i]? with
    | some (some (some m)) => newInst { s with ptrs := s.ptrs.set i (some none) } m
    | some (some none) => .ub "module_->func_table() on a null pointer"
    | _ => .ub "use of a destroyed pointer"
  | .instantiateBytes b => do
    let (s, r) ← compileInto mem s ⟨some b, some FREE⟩
    match r with
    | some m => newInst s m
    | none => .ok { s with insts := s.insts ++ [none] }
  | .deleteInst i =>
    match s.insts[i]? with
    | some (some x) => release { s with insts := s.insts.set i none } x.mod
    | _ => .ub "delete of a destroyed instance"
  | .destroyVm =>
    match s.vm with
    | some ms => destroyAll { s with vm := none } ms
    | none => .ub "destroying the VM twice"

/-- A whole program. -/
def run (mem : Nat → List Byte) (s : St) : List Op → Outcome St
  | [] => .ok s
  | op :: ops => do
    let s ← step mem s op
    run mem s ops

end Ab.Own
