import Verif.Basic
/-!
Model of core/include/Ab/LinearMemory.hpp and util/include/Ab/Page.hpp over a model of the operating system's
page table. The system is a parameter: where it puts a mapping or whether it refuses one, and whether it
refuses a change of protection or an unmapping, are arbitrary.
-/
namespace Ab.LinMem

/-- Protections used (Page.hpp:16-21). -/
inductive Perm | none | rw
deriving Repr, DecidableEq

/-- A page table: for every page number, not mapped, or mapped with a protection. -/
abbrev Pages := Nat → Option Perm

/-- The operating system: the page size (Page::size, Page.hpp:32), where `mmap` puts `n` pages when asked for
them at an address (or that it fails), and whether `mprotect` and `munmap` refuse a request that is otherwise
in order. A refused request is taken to change nothing. -/
structure Sys where
  page          : Nat
  place         : Pages → U64 → Nat → Option Nat
  refuseProtect : Pages → Nat → Nat → Bool
  refuseUnmap   : Pages → Nat → Nat → Bool

/-- The page size is even; and what POSIX promises about `mmap`: new mappings take pages that are not mapped, below the end of the
address space. -/
structure Sys.Lawful (S : Sys) : Prop where
  page_pos : 0 < S.page
  page_even : 2 ∣ S.page
  page_lt  : S.page < 2^64
  fresh    : ∀ os h n b, S.place os h n = some b → (∀ i, i < n → os (b + i) = Option.none) ∧ (b + n) * S.page < 2^64

variable (S : Sys)

/-- Pages covering `len` bytes. -/
def Sys.pagesOf (S : Sys) (len : Nat) : Nat := (len + S.page - 1) / S.page

/-- The table with pages `b .. b+n-1` replaced. -/
def setRange (os : Pages) (b n : Nat) (v : Option Perm) : Pages :=
  fun q => if b ≤ q ∧ q < b + n then v else os q

/-- How many of the pages from `b` on, at most `n`, are mapped without a gap. -/
def mappedFrom (os : Pages) (b : Nat) : Nat → Nat
  | 0 => 0
  | n + 1 => if (os b).isSome then mappedFrom os (b + 1) n + 1 else 0

/-- `mmap` with `MAP_ANON | MAP_PRIVATE` and no permissions: the page number, or nothing. A length of zero is
refused. -/
def Sys.mmap (os : Pages) (hint : U64) (len : U64) : Pages × Option Nat :=
  if len = 0#64 then (os, Option.none)
  else match S.place os hint (S.pagesOf len.toNat) with
    | Option.none => (os, Option.none)
    | some b => (setRange os b (S.pagesOf len.toNat) (some .none), some b)

/-- `mprotect`: an address that is no page boundary is refused; a length of zero is accepted; a range running
over the end of the address space is refused; pages are changed up to the first that is not mapped, and the
call fails if there is one. -/
def Sys.mprotect (os : Pages) (addr len : U64) (v : Perm) : Pages × Bool :=
  if addr.toNat % S.page ≠ 0 then (os, false)
  else
    let b := addr.toNat / S.page
    let n := S.pagesOf len.toNat
    if n = 0 then (os, true)
    else if 2^64 ≤ addr.toNat + n * S.page then (os, false)
    else if S.refuseProtect os b n then (os, false)
    else
      let k := mappedFrom os b n
      (setRange os b k (some v), decide (k = n))

/-- `munmap`. -/
def Sys.munmap (os : Pages) (addr len : U64) : Pages × Bool :=
  if addr.toNat % S.page ≠ 0 ∨ len = 0#64 then (os, false)
  else
    let b := addr.toNat / S.page
    let n := S.pagesOf len.toNat
    if 2^64 ≤ addr.toNat + n * S.page then (os, false)
    else if S.refuseUnmap os b n then (os, false)
    else (setRange os b n Option.none, true)

/-- `Page::map` (Page.hpp:35-42). Failure of `mmap` is the address -1, not the null pointer tested for. -/
def Sys.map (os : Pages) (hint : U64) (size : U64) : Pages × Outcome U64 :=
  match S.mmap os hint size with
  | (os, Option.none) => (os, .ok (BitVec.allOnes 64))
  | (os, some b) => if b * S.page = 0 then (os, .throw "Failed to map pages") else (os, .ok (BitVec.ofNat 64 (b * S.page)))

/-- `LinearMemoryConfig` (LinearMemory.hpp:18-31). -/
structure Config where
  address : U64 := 0#64
  min : U64 := 1#64
  max : U64 := 4#64
deriving Repr, DecidableEq

/-- `LinearMemory` (LinearMemory.hpp:115-117): its data members. -/
structure Mem where
  address : U64
  count   : U64
  config  : Config
deriving Repr, DecidableEq

/-- `Page::size()` as a `size_t`. -/
def Sys.size (S : Sys) : U64 := BitVec.ofNat 64 S.page

/-- `grow` (LinearMemory.hpp:73-80), with `activate` (98-102) and `Page::set_permissions` (Page.hpp:58-64). -/
def Sys.grow (os : Pages) (m : Mem) (n : U64) : Pages × Mem × Outcome Unit :=
  if m.config.max - m.count < n then (os, m, .throw "Failed to grow, not enough reserved pages.")
  else match S.mprotect os (m.address + m.count * S.size) (n * S.size) .rw with
    | (os, false) => (os, m, .throw "Failed to set page permissions")
    | (os, true) => (os, { m with count := m.count + n }, .ok ())

/-- `shrink` (LinearMemory.hpp:84-89). -/
def shrink (m : Mem) (n : U64) : Outcome Unit :=
  if m.count < n then .throw "Failed to shrink: not enough active pages." else .ok ()

/-- The constructor (LinearMemory.hpp:45-50), with `verify` (23-30) and `reserve` (94-96). When it throws there
is no object and no destructor runs. -/
def Sys.ctor (os : Pages) (c : Config) : Pages × Outcome Mem :=
  if c.max < c.min then (os, .throw "LinearMemoryConfig validation error: minPageCount greater than max")
  else match S.map os c.address (c.max * S.size) with
    | (os, .ok a) =>
      match S.grow os ⟨a, 0#64, c⟩ c.min with
      | (os, m, .ok ()) => (os, .ok m)
      | (os, _, .throw e) => (os, .throw e)
      | (os, _, .trap e) => (os, .trap e)
      | (os, _, .ub e) => (os, .ub e)
      | (os, _, .fuel) => (os, .fuel)
    | (os, .throw e) => (os, .throw e)
    | (os, .trap e) => (os, .trap e)
    | (os, .ub e) => (os, .ub e)
    | (os, .fuel) => (os, .fuel)

/-- `size` (LinearMemory.hpp:65). -/
def Sys.memSize (m : Mem) : U64 := m.count * S.size
/-- `max_size` (LinearMemory.hpp:69). -/
def maxSize (m : Mem) : U64 := m.config.max

/-- The destructor (LinearMemory.hpp:56), with `release` (111-113) and `Page::unmap` (Page.hpp:51-56); an
exception leaving a destructor ends the program. -/
def Sys.dtor (os : Pages) (m : Mem) : Pages × Outcome Unit :=
  match S.munmap os m.address (maxSize m * S.size) with
  | (os, true) => (os, .ok ())
  | (os, false) => (os, .trap "Failed to unmap pages")

/-- Requests a user can make of a memory. -/
inductive Op | grow (n : U64) | shrink (n : U64)
deriving Repr, DecidableEq

/-- One request; the caller catches the exceptions. -/
def Sys.step (os : Pages) (m : Mem) : Op → Pages × Mem × Outcome Unit
  | .grow n => S.grow os m n
  | .shrink n => (os, m, shrink m n)

/-- A sequence of requests. -/
def Sys.run (S : Sys) : Pages → Mem → List Op → Pages × Mem
  | os, m, [] => (os, m)
  | os, m, o :: l => Sys.run S (S.step os m o).1 (S.step os m o).2.1 l

end Ab.LinMem
