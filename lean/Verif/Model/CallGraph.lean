/-!
# Model of the call graph of `example/graph.py`

The syntax tree is reduced to what `CodeAnalyzer` looks at: definitions of functions, calls, and all other nodes with their children in the order
in which `generic_visit` visits them. Calls through attributes (`x.f()`) have no name. The drawing is left out, and `glob` with `ast.parse` is
replaced by the list of the trees of the files.
-/

namespace Verif

/-- `ast.FunctionDef`, `ast.Call` (with the name if `node.func` is an `ast.Name`), other nodes. -/
inductive Ast where
  | fn (name : String) (kids : List Ast)
  | call (callee : Option String) (kids : List Ast)
  | node (kids : List Ast)

/-- `self.current_function`, the nodes and the edges of `self.graph` in the order of insertion. -/
structure CallGraph where
  current : Option String
  nodes : List String
  edges : List (String × String)
  deriving DecidableEq, Repr

/-- `CodeAnalyzer.__init__` (example/graph.py:7-10). -/
def CallGraph.empty : CallGraph := ⟨none, [], []⟩

/-- `graph.add_node` of networkx. -/
def addNode (n : String) (nodes : List String) : List String := if n ∈ nodes then nodes else nodes ++ [n]

/-- `graph.add_edge` of networkx: adds both ends. -/
def CallGraph.addEdge (g : CallGraph) (a b : String) : CallGraph :=
  { g with nodes := addNode b (addNode a g.nodes), edges := if (a, b) ∈ g.edges then g.edges else g.edges ++ [(a, b)] }

/-- `visit_FunctionDef` without the visit of the children (example/graph.py:12-17). -/
def CallGraph.enter (ignore : List String) (name : String) (g : CallGraph) : CallGraph :=
  if name ∈ ignore then { g with current := none } else { g with current := some name, nodes := addNode name g.nodes }

/-- `visit_Call` without the visit of the children (example/graph.py:20-24); the empty text and `None` are false. -/
def CallGraph.called (ignore : List String) (callee : Option String) (g : CallGraph) : CallGraph :=
  match callee, g.current with
  | some b, some a => if a ≠ "" ∧ b ≠ "" ∧ b ∉ ignore then g.addEdge a b else g
  | _, _ => g

mutual
/-- `visit` (example/graph.py:12-25). -/
def CallGraph.visit (ignore : List String) (g : CallGraph) : Ast → CallGraph
  | .fn name kids => CallGraph.visitAll ignore (g.enter ignore name) kids
  | .call callee kids => CallGraph.visitAll ignore (g.called ignore callee) kids
  | .node kids => CallGraph.visitAll ignore g kids
/-- `generic_visit`. -/
def CallGraph.visitAll (ignore : List String) (g : CallGraph) : List Ast → CallGraph
  | [] => g
  | t :: ts => CallGraph.visitAll ignore (g.visit ignore t) ts
end

/-- `analyze_code` (example/graph.py:27-33): one analyzer for all files. -/
def analyzeCode (ignore : Option (List String)) (files : List Ast) : CallGraph :=
  CallGraph.visitAll (ignore.getD []) CallGraph.empty files

end Verif
