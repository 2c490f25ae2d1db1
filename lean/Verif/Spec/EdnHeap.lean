import Verif.Model.EdnHeap
/-! Which EDN nodes a program can get at. -/
namespace Ab.Spec

open Edn EdnHeap

/-- What the standard promises of `std::unordered_map`: an insertion adds one entry, at an unspecified place. -/
def Orderly (L : HLib) : Prop := ∀ es e, (L.hplace es e).Perm (e :: es)

/-- The node has not been destroyed. -/
def Alive (h : Heap) (a : Addr) : Prop := ∃ c, h[a]? = some (some c)

/-- The live node `a` has `b` as an element, a key, a value or metadata. -/
def Holds (h : Heap) (a b : Addr) : Prop :=
  ∃ c : Cell, h[a]? = some (some c) ∧
    (c.mdata = some b ∨
      match c.body with
      | .atom _ => False
      | .list xs => some b ∈ xs
      | .vec xs => some b ∈ xs
      | .map es => ∃ e ∈ es, e.key = b ∨ e.val = some b)

/-- From `a` one gets to `b` in any number of steps. -/
inductive Leads (h : Heap) : Addr → Addr → Prop
  | refl {a} : Leads h a a
  | step {a b c} : Holds h a b → Leads h b c → Leads h a c

/-- The program can get at the node. -/
def Reachable (s : State) (a : Addr) : Prop := ∃ v, some v ∈ s.vars ∧ Leads s.heap v a

/-- The node is part of itself. -/
def OnCycle (h : Heap) (a : Addr) : Prop := ∃ b, Holds h a b ∧ Leads h b a

/-- The live node `a` has `b` as an element, a key or a value. -/
def Part (h : Heap) (a b : Addr) : Prop :=
  ∃ c : Cell, h[a]? = some (some c) ∧
    match c.body with
    | .atom _ => False
    | .list xs => some b ∈ xs
    | .vec xs => some b ∈ xs
    | .map es => ∃ e ∈ es, e.key = b ∨ e.val = some b

/-- `b` is `a`, or a part of it, or a part of a part, and so on. -/
inductive Within (h : Heap) : Addr → Addr → Prop
  | refl {a} : Within h a a
  | step {a b c} : Part h a b → Within h b c → Within h a c

/-- No node within `a` has itself within one of its parts. -/
def Finite (h : Heap) (a : Addr) : Prop := ∀ z, Within h a z → ∀ b, Part h z b → ¬ Within h b z

/-- With enough stack, the call (as a function of the stack it is given) has this outcome. -/
def Answers {α} (f : Nat → Outcome α) (r : Outcome α) : Prop := ∃ N, ∀ n, N ≤ n → f n = r

mutual
/-- What one finds by following a `Ptr` all the way down is the given tree. For a map this includes that the
hash kept for each entry is still that of its key, which is so unless the key was changed afterwards. -/
inductive Shows (L : Lib) (h : Heap) : Ptr → Node → Prop
  | atom {a c x} : h[a]? = some (some c) → c.body = .atom x → Shows L h (some a) x.node
  | list {a c xs ns} : h[a]? = some (some c) → c.body = .list xs → ShowsAll L h xs ns → Shows L h (some a) (.list ns)
  | vec {a c xs ns} : h[a]? = some (some c) → c.body = .vec xs → ShowsAll L h xs ns → Shows L h (some a) (.vec ns)
  | map {a c es ms} : h[a]? = some (some c) → c.body = .map es → ShowsEntries L h es ms → Shows L h (some a) (.map ms)
inductive ShowsAll (L : Lib) (h : Heap) : List Ptr → List Node → Prop
  | nil : ShowsAll L h [] []
  | cons {p ps n ns} : Shows L h p n → ShowsAll L h ps ns → ShowsAll L h (p :: ps) (n :: ns)
inductive ShowsEntries (L : Lib) (h : Heap) : List HEntry → List (Node × Node) → Prop
  | nil : ShowsEntries L h [] []
  | cons {e es k v ms} : Shows L h (some e.key) k → Shows L h e.val v → Node.hash L k = .ok e.hash →
      ShowsEntries L h es ms → ShowsEntries L h (e :: es) ((k, v) :: ms)
end

/-- Nothing is missing within `a`: no part is null, and no key was changed since it was inserted, that is, the
hash kept for each entry is still that of its key. -/
def Whole (L : Lib) (h : Heap) (a : Addr) : Prop :=
  ∀ b, Within h a b → ∃ c : Cell, h[b]? = some (some c) ∧
    match c.body with
    | .atom _ => True
    | .list xs => none ∉ xs
    | .vec xs => none ∉ xs
    | .map es => ∀ e ∈ es, e.val ≠ none ∧ Answers (fun n => hashH L h n (some e.key)) (.ok e.hash)

end Ab.Spec
