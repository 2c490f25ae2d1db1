import Verif.Spec.EdnTree
/-! Parts of written data, for saying which data are compared exactly. -/
namespace Ab.Spec

/-- No key of a map in the tree contains a map of two or more entries. -/
def PlainKeys (t : Tree) : Prop :=
  ∀ es e fs, TSub (.map es) t → e ∈ es → TSub (.map fs) e.1 → fs.length ≤ 1

/-- No real in the tree is read as a NaN. -/
def NoNaNs (A : Edn.Arith U64) (t : Tree) : Prop :=
  ∀ w neg ints frac ex, TSub (.real w) t → RealText w neg ints frac ex → ¬ IsNaN (realIn A neg ints frac ex)

end Ab.Spec
