import Verif.Proof.EdnNode2
/-! C37, C38: equality and hashing of EDN trees. -/
namespace Ab.Edn

open Spec

/-- A C++ library as libstdc++ behaves for small maps: `std::hash<long>` is the identity and a new entry
is iterated first. Used only for witnesses. -/
def demo : Lib where
  hashKind := id
  hashBool := fun b => if b then 1#64 else 0#64
  hashLong := id
  hashDouble := fun v => if isZero v then 0#64 else v
  hashString := fun s => s.foldl (fun h b => h * 31#64 + b.setWidth 64) 7#64
  place := fun es e => e :: es
  arith := ⟨fun _ => 0#64, fun _ _ => 0#64, fun _ _ => 0#64, fun _ _ => 0#64, fun _ => 0#64⟩

theorem demo_lawful : Lawful demo := by
  refine ⟨fun es e => .refl _, ?_⟩
  intro a b h
  show (if isZero a then _ else _) = (if isZero b then _ else _)
  unfold dblEq at h
  simp only [Bool.and_eq_true, Bool.or_eq_true, beq_iff_eq] at h
  rcases h.2 with h | ⟨h1, h2⟩
  · rw [h]
  · simp [h1, h2]

/-- C37, the part that holds for all trees: equality of trees a program can build is symmetric and
transitive, implies that the two trees are the same data, and a tree without NaN equals itself.
Missing: reflexivity for NaN and completeness for maps used as keys, both false (below). -/
theorem C37_equality_is_an_equivalence_partial (L : Lib) (hL : Lawful L) (a b c : Node)
    (ha : Built L a) (hb : Built L b) (hc : Built L c) :
    (NaNFree a → Node.eq L a a = true) ∧
    (Node.eq L a b = true → Node.eq L b a = true) ∧
    (Node.eq L a b = true → Node.eq L b c = true → Node.eq L a c = true) ∧
    (Node.eq L a b = true → Same a b) := by
  have wa := built_wf hL ha
  have wb := built_wf hL hb
  have wc := built_wf hL hc
  exact ⟨eq_refl a wa, (eqv L a).symm b wa wb, (eqv L a).trans b c wa wb wc, eq_same a b wa wb⟩

/-- C37, real numbers: two compare equal exactly when they are the same double, or the two zeros, and not NaN. -/
theorem C37_reals (L : Lib) (v w : U64) : Node.eq L (.real v) (.real w) = true ↔ SameDouble v w ∧ ¬ IsNaN v := by
  simp only [Node.eq]
  constructor
  · intro h
    refine ⟨dblEq_same h, fun hn => ?_⟩
    rw [dblEq, (isNaN_iff v).2 hn] at h
    simp at h
  · exact fun h => same_dblEq h.1 (isNaN_false h.2)

/-- Infinity equals itself; a NaN does not. -/
example : Node.eq demo (.real 0x7ff0000000000000#64) (.real 0x7ff0000000000000#64) = true ∧
    Node.eq demo (.real 0x7ff0000000000001#64) (.real 0x7ff0000000000001#64) = false := by decide +kernel

/-- C37, exactness: without NaN, and when no key of a map contains a map of two or more entries, two trees
compare equal exactly when they are the same data. -/
theorem C37_equality_is_structural_partial (L : Lib) (hL : Lawful L) (a b : Node)
    (ha : Built L a) (hb : Built L b) (hn : NaNFree a) (hs : SmallKeys a) :
    Node.eq L a b = true ↔ Same a b :=
  ⟨eq_same a b (built_wf hL ha) (built_wf hL hb),
   same_eq hL a b (built_wf hL ha) (built_wf hL hb) hn hs⟩

/-- C37: `kind()` tells the sorts of data apart, and nodes of different sorts never compare equal. -/
theorem C37_kinds (L : Lib) (a b : Node) :
    (a.kind = b.kind ↔ sortOf a = sortOf b) ∧ (Node.eq L a b = true → sortOf a = sortOf b) := by
  constructor
  · cases a <;> cases b <;> simp [Node.kind, sortOf]
  · cases a <;> cases b <;> simp [Node.eq, sortOf]

/-- `{1 2, 3 4}`, filled in this order and in the other. -/
def m12 : Node := .map (insertEntry demo (insertEntry demo [] (.int 1, .int 2)) (.int 3, .int 4))
def m34 : Node := .map (insertEntry demo (insertEntry demo [] (.int 3, .int 4)) (.int 1, .int 2))

theorem m12_eq : m12 = .map [(.int 3, .int 4), (.int 1, .int 2)] := rfl
theorem m34_eq : m34 = .map [(.int 1, .int 2), (.int 3, .int 4)] := rfl

theorem m12_built : Built demo m12 :=
  .insert (.insert .emptyMap (.int 1) (.int 2) rfl) (.int 3) (.int 4) rfl
theorem m34_built : Built demo m34 :=
  .insert (.insert .emptyMap (.int 3) (.int 4) rfl) (.int 1) (.int 2) rfl

theorem m_same : Same m12 m34 := by
  rw [m12_eq, m34_eq]
  exact .map (.cons (.int _) (.int _) (.cons (.int _) (.int _) .nil)) (.swap _ _ _)

/-- The hypotheses of the exactness theorem are met by a map with two entries (as the map itself). -/
example : Built demo m12 ∧ NaNFree m12 ∧ SmallKeys m12 ∧ Node.eq demo m12 m34 = true := by
  refine ⟨m12_built, ?_, ?_, by decide +kernel⟩
  · rw [m12_eq]
    rintro v h
    cases h with
    | key he hs => simp at he; rcases he with he | he <;> subst he <;> cases hs
    | val he hs => simp at he; rcases he with he | he <;> subst he <;> cases hs
  · rw [m12_eq]
    intro es e h he fs hf
    cases h with
    | refl => simp at he; rcases he with he | he <;> subst he <;> cases hf
    | key he' hs => simp at he'; rcases he' with he' | he' <;> subst he' <;> cases hs
    | val he' hs => simp at he'; rcases he' with he' | he' <;> subst he' <;> cases hs

/-- C37 is false of the code: a NaN does not equal itself. -/
theorem C37_negation_nan (L : Lib) :
    Built L (.real 0x7ff8000000000000#64) ∧
    Node.eq L (.real 0x7ff8000000000000#64) (.real 0x7ff8000000000000#64) = false :=
  ⟨.real _, by simp only [Node.eq]; decide⟩

/-- C37 is false of the code: the same map, used as a key, is not found when it was filled in another
order, so `{{1 2, 3 4} nil}` and `{{3 4, 1 2} nil}` compare different. -/
theorem C37_negation_map_keys : ∃ a b, Built demo a ∧ Built demo b ∧ Same a b ∧ Node.eq demo a b = false := by
  refine ⟨.map (insertEntry demo [] (m12, .nil)), .map (insertEntry demo [] (m34, .nil)),
    .insert .emptyMap m12_built .nil rfl, .insert .emptyMap m34_built .nil rfl, ?_, by decide +kernel⟩
  exact .map (.cons m_same .nil .nil) (.refl _)

/-- C38, the part that holds: equal trees hash alike when no map in them has two or more entries.
Missing: larger maps, for which it is false (below). -/
theorem C38_equal_nodes_hash_alike_partial (L : Lib) (hL : Lawful L) (a b : Node)
    (ha : Built L a) (hb : Built L b) (hs : SmallMaps a) (h : Node.eq L a b = true) :
    Node.hash L a = Node.hash L b :=
  same_hash hL a b hs (eq_same a b (built_wf hL ha) (built_wf hL hb) h)

/-- Lists, strings, both zeros and a one-entry map: equal, and alike in hash. -/
example : Node.eq demo (.list [.str [97], .real 0x8000000000000000#64, .map [(.int 1, .nil)]])
      (.list [.str [97], .real 0#64, .map [(.int 1, .nil)]]) = true ∧
    SmallMaps (.list [.str [97], .real 0x8000000000000000#64, .map [(.int 1, .nil)]]) := by
  refine ⟨by decide +kernel, ?_⟩
  intro es h
  cases h with
  | list hx hs =>
    simp at hx
    rcases hx with h | h | h <;> subst h <;> cases hs
    · simp
    · rename_i hs he; rcases List.mem_singleton.mp he with rfl; cases hs
    · rename_i hs he; rcases List.mem_singleton.mp he with rfl; cases hs

/-- C38 is false of the code: the hash of a map depends on the iteration order of the underlying hash
table, so equal maps filled in different orders hash differently. -/
theorem C38_negation : ∃ a b ha hb, Built demo a ∧ Built demo b ∧ Node.eq demo a b = true ∧
    Node.hash demo a = .ok ha ∧ Node.hash demo b = .ok hb ∧ ha ≠ hb :=
  ⟨m12, m34, _, _, m12_built, m34_built, by decide +kernel, rfl, rfl, by decide⟩

end Ab.Edn
