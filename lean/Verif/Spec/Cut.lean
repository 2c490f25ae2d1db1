import Verif.Spec.Loader
/-!
What is missing from a module file that was cut short: `lost` is the part of the written file that is gone.
-/
namespace Ab.Spec

/-- The loss is whole sections: the file still loads, as the module without them. -/
def CutLoads (wm : WModule) (lost : List Byte) (lm : Module) : Prop :=
  (lost = appendTypeSection wm.types ++ (appendFuncSection wm.funcs ++ appendCodeSection wm.codes) ∧ lm = ⟨[], [], []⟩) ∨
  (lost = appendFuncSection wm.funcs ++ appendCodeSection wm.codes ∧ lm = ⟨wm.types, [], []⟩) ∨
  (lost = appendCodeSection wm.codes ∧ lm = ⟨wm.types, wm.funcs, []⟩) ∨
  (lost = [] ∧ Loads (writeModule wm) lm)

/-- The loss begins inside the body of a function: of its instructions at least the last byte is gone, of its
entry's size and register count nothing; all later entries are gone. -/
def LostInBody (wm : WModule) (lost : List Byte) : Prop :=
  ∃ pre c post q r, wm.codes = pre ++ c :: post ∧ c.body = q ++ r ∧ r ≠ [] ∧
    lost = r ++ (post.map appendCode).flatten

end Ab.Spec
