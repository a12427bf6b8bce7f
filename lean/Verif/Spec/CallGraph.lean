import Verif.Model.CallGraph
/-!
# The text order of definitions and calls
-/

namespace Verif.Spec

/-- what the reader of a file meets: `def f`, a call `g(...)` -/
inductive Seen where
  | def_ (f : String)
  | call (g : String)
  deriving DecidableEq

mutual
/-- definitions and calls by name in the order of the text; the node itself comes before its children -/
def seen : Ast → List Seen
  | .fn f kids => .def_ f :: seenAll kids
  | .call (some g) kids => .call g :: seenAll kids
  | .call none kids => seenAll kids
  | .node kids => seenAll kids
def seenAll : List Ast → List Seen
  | [] => []
  | t :: ts => seen t ++ seenAll ts
end

/-- the last definition in `l` is that of `f` -/
def LastDef (l : List Seen) (f : String) : Prop := ∃ a b, l = a ++ .def_ f :: b ∧ ∀ h, .def_ h ∉ b

end Verif.Spec
