import Mathlib.Data.List.Induction
import Verif.Spec.CallGraph
/-!
# C132: the call graph of `example/graph.py`
-/

namespace Verif
open Spec

section
variable (ignore : List String)

/-- one step of the analysis on the list of definitions and calls -/
def seenStep (g : CallGraph) : Seen → CallGraph
  | .def_ f => g.enter ignore f
  | .call b => g.called ignore (some b)

mutual
theorem visit_seen (g : CallGraph) : (t : Ast) → g.visit ignore t = (seen t).foldl (seenStep ignore) g
  | .fn f kids => by
    rw [CallGraph.visit, seen, List.foldl_cons, visitAll_seen]; rfl
  | .call (some b) kids => by
    rw [CallGraph.visit, seen, List.foldl_cons, visitAll_seen]; rfl
  | .call none kids => by
    rw [CallGraph.visit, seen, visitAll_seen]
    congr 1
  | .node kids => by
    rw [CallGraph.visit, seen, visitAll_seen]
theorem visitAll_seen (g : CallGraph) : (ts : List Ast) → g.visitAll ignore ts = (seenAll ts).foldl (seenStep ignore) g
  | [] => by rw [CallGraph.visitAll, seenAll]; rfl
  | t :: ts => by
    rw [CallGraph.visitAll, seenAll, List.foldl_append, visit_seen, visitAll_seen]
end

theorem mem_addNode {n a : String} {l : List String} : a ∈ addNode n l ↔ a = n ∨ a ∈ l := by
  unfold addNode
  split
  · rename_i h
    constructor
    · exact Or.inr
    · rintro (rfl | h')
      · exact h
      · exact h'
  · simp [or_comm]

theorem nodup_addNode {n : String} {l : List String} (h : l.Nodup) : (addNode n l).Nodup := by
  unfold addNode
  split
  · exact h
  · rename_i h'
    rw [List.nodup_append]
    refine ⟨h, by simp, ?_⟩
    rintro a ha b hb rfl
    simp at hb
    exact h' (hb ▸ ha)

/-- what has been found after reading `l` -/
structure Found (l : List Seen) (g : CallGraph) : Prop where
  current : ∀ f, g.current = some f ↔ LastDef l f ∧ f ∉ ignore
  edges : ∀ a b, (a, b) ∈ g.edges ↔ ∃ p s, l = p ++ .call b :: s ∧ LastDef p a ∧ a ∉ ignore ∧ b ∉ ignore ∧ a ≠ "" ∧ b ≠ ""
  nodes : ∀ a, a ∈ g.nodes ↔ (.def_ a ∈ l ∧ a ∉ ignore) ∨ ∃ b, (b, a) ∈ g.edges
  nodup : g.nodes.Nodup ∧ g.edges.Nodup

theorem lastDef_snoc_def {l : List Seen} {f h : String} : LastDef (l ++ [.def_ f]) h ↔ h = f := by
  constructor
  · rintro ⟨a, b, h1, h2⟩
    rcases List.eq_nil_or_concat b with rfl | ⟨b', x, rfl⟩
    · have := (List.append_inj' h1 rfl).2
      simp at this
      exact this.symm
    · rw [List.concat_eq_append, ← List.cons_append, ← List.append_assoc] at h1
      have := (List.append_inj' h1 rfl).2
      simp at this
      exact absurd (by rw [← this]; simp) (h2 f)
  · rintro rfl
    exact ⟨l, [], by simp, by simp⟩

theorem lastDef_snoc_call {l : List Seen} {b h : String} : LastDef (l ++ [.call b]) h ↔ LastDef l h := by
  constructor
  · rintro ⟨a, c, h1, h2⟩
    rcases List.eq_nil_or_concat c with rfl | ⟨c', x, rfl⟩
    · have := (List.append_inj' h1 rfl).2
      simp at this
    · rw [List.concat_eq_append, ← List.cons_append, ← List.append_assoc] at h1
      exact ⟨a, c', (List.append_inj' h1 rfl).1, fun f hf => h2 f (by simp [hf])⟩
  · rintro ⟨a, c, rfl, h2⟩
    exact ⟨a, c ++ [.call b], by simp, fun f hf => by
      rcases List.mem_append.1 hf with hf | hf
      · exact h2 f hf
      · simp at hf⟩

theorem split_snoc {l p s : List Seen} {x : Seen} {b : String} (h : l ++ [x] = p ++ .call b :: s) :
    (s = [] ∧ l = p ∧ x = .call b) ∨ ∃ s', s = s' ++ [x] ∧ l = p ++ .call b :: s' := by
  rcases List.eq_nil_or_concat s with rfl | ⟨s', y, rfl⟩
  · have := List.append_inj' h rfl
    exact Or.inl ⟨rfl, this.1, by simpa using this.2⟩
  · rw [List.concat_eq_append, ← List.cons_append, ← List.append_assoc] at h
    have := List.append_inj' h rfl
    simp only [List.cons.injEq, and_true] at this
    exact Or.inr ⟨s', by rw [List.concat_eq_append, this.2], this.1⟩

theorem found_step {l : List Seen} {g : CallGraph} (h : Found ignore l g) (x : Seen) : Found ignore (l ++ [x]) (seenStep ignore g x) := by
  have hold : ∀ {a b : String}, (∃ p s, l = p ++ .call b :: s ∧ LastDef p a ∧ a ∉ ignore ∧ b ∉ ignore ∧ a ≠ "" ∧ b ≠ "") →
      ∃ p s, l ++ [x] = p ++ .call b :: s ∧ LastDef p a ∧ a ∉ ignore ∧ b ∉ ignore ∧ a ≠ "" ∧ b ≠ "" := by
    rintro a b ⟨p, s, rfl, h'⟩
    exact ⟨p, s ++ [x], by simp, h'⟩
  cases x with
  | def_ f =>
    have hedge : ∀ a b, (a, b) ∈ g.edges ↔ ∃ p s, l ++ [.def_ f] = p ++ .call b :: s ∧ LastDef p a ∧ a ∉ ignore ∧ b ∉ ignore ∧ a ≠ "" ∧ b ≠ "" := by
      intro a b
      rw [h.edges]
      refine ⟨hold, ?_⟩
      rintro ⟨p, s, h1, h2⟩
      rcases split_snoc h1 with ⟨_, _, h3⟩ | ⟨s', _, h3⟩
      · cases h3
      · exact ⟨p, s', h3, h2⟩
    show Found ignore _ (g.enter ignore f)
    unfold CallGraph.enter
    split
    · rename_i hf
      refine ⟨fun f' => ?_, hedge, fun a => ?_, h.nodup⟩
      · rw [lastDef_snoc_def]
        constructor
        · intro h'; cases h'
        · rintro ⟨rfl, h'⟩; exact absurd hf h'
      · simp only
        rw [h.nodes]
        refine or_congr_left (and_congr_left fun ha => ?_)
        rw [List.mem_append]
        refine ⟨Or.inl, ?_⟩
        rintro (h' | h')
        · exact h'
        · simp at h'; exact absurd (h' ▸ hf) ha
    · rename_i hf
      refine ⟨fun f' => ?_, hedge, fun a => ?_, nodup_addNode h.nodup.1, h.nodup.2⟩
      · rw [lastDef_snoc_def]
        constructor
        · intro h'; cases h'; exact ⟨rfl, hf⟩
        · rintro ⟨rfl, _⟩; rfl
      · simp only
        rw [mem_addNode, h.nodes, ← or_assoc]
        refine or_congr_left ?_
        rw [List.mem_append, List.mem_singleton, Seen.def_.injEq]
        constructor
        · rintro (rfl | h')
          · exact ⟨Or.inr rfl, hf⟩
          · exact ⟨Or.inl h'.1, h'.2⟩
        · rintro ⟨h' | rfl, h''⟩
          · exact Or.inr ⟨h', h''⟩
          · exact Or.inl rfl
  | call b =>
    have hcur : ∀ f, g.current = some f ↔ LastDef (l ++ [.call b]) f ∧ f ∉ ignore := fun f => by rw [lastDef_snoc_call, h.current]
    have hno : (¬ ∃ a, g.current = some a ∧ a ≠ "" ∧ b ≠ "" ∧ b ∉ ignore) → Found ignore (l ++ [.call b]) g := by
      intro hn
      have hedge : ∀ a c, (a, c) ∈ g.edges ↔ ∃ p s, l ++ [.call b] = p ++ .call c :: s ∧ LastDef p a ∧ a ∉ ignore ∧ c ∉ ignore ∧ a ≠ "" ∧ c ≠ "" := by
        intro a c
        rw [h.edges]
        refine ⟨hold, ?_⟩
        rintro ⟨p, s, h1, h2⟩
        rcases split_snoc h1 with ⟨_, rfl, h3⟩ | ⟨s', _, h3⟩
        · cases h3
          exact absurd ⟨a, (h.current a).2 ⟨h2.1, h2.2.1⟩, h2.2.2.2.1, h2.2.2.2.2, h2.2.2.1⟩ hn
        · exact ⟨p, s', h3, h2⟩
      refine ⟨hcur, hedge, fun a => ?_, h.nodup⟩
      rw [h.nodes]
      simp
    show Found ignore _ (g.called ignore (some b))
    unfold CallGraph.called
    split
    · rename_i b' a hb' ha
      cases hb'
      split
      · rename_i hab
        have hedge : ∀ a' c, (a', c) ∈ (g.addEdge a b).edges ↔ ∃ p s, l ++ [.call b] = p ++ .call c :: s ∧ LastDef p a' ∧ a' ∉ ignore ∧ c ∉ ignore ∧ a' ≠ "" ∧ c ≠ "" := by
          intro a' c
          have : (a', c) ∈ (g.addEdge a b).edges ↔ (a', c) ∈ g.edges ∨ (a' = a ∧ c = b) := by
            unfold CallGraph.addEdge
            simp only
            split
            · rename_i hin
              constructor
              · exact Or.inl
              · rintro (h' | ⟨rfl, rfl⟩)
                · exact h'
                · exact hin
            · rw [List.mem_append, List.mem_singleton, Prod.mk.injEq]
          rw [this, h.edges]
          constructor
          · rintro (h' | ⟨rfl, rfl⟩)
            · exact hold h'
            · have h1 := (h.current a').1 ha
              exact ⟨l, [], rfl, h1.1, h1.2, hab.2.2, hab.1, hab.2.1⟩
          · rintro ⟨p, s, h1, h2⟩
            rcases split_snoc h1 with ⟨_, rfl, h3⟩ | ⟨s', _, h3⟩
            · cases h3
              have := (h.current a').2 ⟨h2.1, h2.2.1⟩
              rw [ha] at this
              cases this
              exact Or.inr ⟨rfl, rfl⟩
            · exact Or.inl ⟨p, s', h3, h2⟩
        refine ⟨hcur, hedge, fun c => ?_, ?_⟩
        · have hn : c ∈ (g.addEdge a b).nodes ↔ c = b ∨ c = a ∨ c ∈ g.nodes := by
            unfold CallGraph.addEdge
            simp only
            rw [mem_addNode, mem_addNode]
          have he : ∀ a' c, (a', c) ∈ (g.addEdge a b).edges ↔ (a', c) ∈ g.edges ∨ (a' = a ∧ c = b) := by
            intro a' c
            unfold CallGraph.addEdge
            simp only
            split
            · rename_i hin
              constructor
              · exact Or.inl
              · rintro (h' | ⟨rfl, rfl⟩)
                · exact h'
                · exact hin
            · rw [List.mem_append, List.mem_singleton, Prod.mk.injEq]
          have h1 := (h.current a).1 ha
          have h2 : .def_ a ∈ l := by
            obtain ⟨p, s, rfl, _⟩ := h1.1
            simp
          rw [hn, h.nodes]
          constructor
          · rintro (rfl | rfl | ⟨h3, h4⟩ | ⟨d, h3⟩)
            · exact Or.inr ⟨a, (he _ _).2 (Or.inr ⟨rfl, rfl⟩)⟩
            · exact Or.inl ⟨by simp [h2], h1.2⟩
            · exact Or.inl ⟨by simp [h3], h4⟩
            · exact Or.inr ⟨d, (he _ _).2 (Or.inl h3)⟩
          · rintro (⟨h3, h4⟩ | ⟨d, h3⟩)
            · simp at h3
              exact Or.inr (Or.inr (Or.inl ⟨h3, h4⟩))
            · rcases (he _ _).1 h3 with h3 | ⟨_, rfl⟩
              · exact Or.inr (Or.inr (Or.inr ⟨d, h3⟩))
              · exact Or.inl rfl
        · unfold CallGraph.addEdge
          simp only
          refine ⟨nodup_addNode (nodup_addNode h.nodup.1), ?_⟩
          split
          · exact h.nodup.2
          · rename_i hin
            rw [List.nodup_append]
            refine ⟨h.nodup.2, by simp, ?_⟩
            rintro x hx y hy rfl
            simp at hy
            exact hin (hy ▸ hx)
      · rename_i hab
        refine hno ?_
        rintro ⟨a', h1, h2⟩
        rw [ha] at h1
        cases h1
        exact hab h2
    · rename_i hx
      refine hno ?_
      rintro ⟨a', h1, _⟩
      exact hx b a' rfl h1

theorem found_foldl (l : List Seen) : Found ignore l (l.foldl (seenStep ignore) CallGraph.empty) := by
  induction l using List.reverseRecOn with
  | nil =>
    refine ⟨fun f => ?_, fun a b => ?_, fun a => ?_, by simp [CallGraph.empty]⟩
    · simp [CallGraph.empty, LastDef]
    · simp [CallGraph.empty]
    · simp [CallGraph.empty]
  | append_singleton l x ih =>
    rw [List.foldl_append, List.foldl_cons, List.foldl_nil]
    exact found_step ignore ih x

end

/-- **C132** (edges): the graph has the edge from `a` to `b` exactly if somewhere `b` is called by its name and the last definition that starts
before this call, in all files read so far, is that of `a`, and neither name is ignored. -/
theorem C132_edges (ignore : Option (List String)) (files : List Ast) (a b : String) :
    (a, b) ∈ (analyzeCode ignore files).edges ↔
      ∃ p s, seenAll files = p ++ .call b :: s ∧ LastDef p a ∧ a ∉ ignore.getD [] ∧ b ∉ ignore.getD [] ∧ a ≠ "" ∧ b ≠ "" := by
  unfold analyzeCode
  rw [visitAll_seen]
  exact (found_foldl _ _).edges a b

/-- **C132** (nodes): the nodes are the defined functions that are not ignored and the called functions of the edges, each once. -/
theorem C132_nodes (ignore : Option (List String)) (files : List Ast) :
    (analyzeCode ignore files).nodes.Nodup ∧ (analyzeCode ignore files).edges.Nodup ∧
    ∀ a, a ∈ (analyzeCode ignore files).nodes ↔
      (.def_ a ∈ seenAll files ∧ a ∉ ignore.getD []) ∨ ∃ b, (b, a) ∈ (analyzeCode ignore files).edges := by
  unfold analyzeCode
  rw [visitAll_seen]
  have h := found_foldl (ignore.getD []) (seenAll files)
  exact ⟨h.nodup.1, h.nodup.2, h.nodes⟩

theorem lastDef_append {p q : List Seen} {f : String} (h : LastDef (p ++ q) f) : LastDef q f ∨ (LastDef p f ∧ ∀ h, .def_ h ∉ q) := by
  induction q using List.reverseRecOn generalizing f with
  | nil => exact Or.inr ⟨by simpa using h, by simp⟩
  | append_singleton q x ih =>
    rw [← List.append_assoc] at h
    cases x with
    | def_ g =>
      rw [lastDef_snoc_def] at h
      exact Or.inl (lastDef_snoc_def.2 h)
    | call g =>
      rw [lastDef_snoc_call] at h
      rcases ih h with h | ⟨h1, h2⟩
      · exact Or.inl (lastDef_snoc_call.2 h)
      · exact Or.inr ⟨h1, fun f hf => by
          rcases List.mem_append.1 hf with hf | hf
          · exact h2 f hf
          · simp at hf⟩

/-- **C132** (flat files): if the files are lists of functions without inner functions, the edges are the calls in the functions. -/
theorem C132_flat (ignore : Option (List String)) (fs : List (String × List Ast)) (hflat : ∀ f ∈ fs, ∀ h, .def_ h ∉ seenAll f.2) (a b : String) :
    (a, b) ∈ (analyzeCode ignore (fs.map fun f => .fn f.1 f.2)).edges ↔
      (∃ kids, (a, kids) ∈ fs ∧ .call b ∈ seenAll kids) ∧ a ∉ ignore.getD [] ∧ b ∉ ignore.getD [] ∧ a ≠ "" ∧ b ≠ "" := by
  rw [C132_edges]
  have key : (∃ p s, seenAll (fs.map fun f => Ast.fn f.1 f.2) = p ++ .call b :: s ∧ LastDef p a) ↔ ∃ kids, (a, kids) ∈ fs ∧ .call b ∈ seenAll kids := by
    induction fs using List.reverseRecOn with
    | nil => simp [seenAll]
    | append_singleton fs f ih =>
      have hs : ∀ l l' : List Ast, seenAll (l ++ l') = seenAll l ++ seenAll l' := by
        intro l l'
        induction l with
        | nil => simp [seenAll]
        | cons t l ih => rw [List.cons_append, seenAll, seenAll, ih, List.append_assoc]
      have hone : seenAll [Ast.fn f.1 f.2] = .def_ f.1 :: seenAll f.2 := by simp [seenAll, seen]
      have ih := ih (fun g hg => hflat g (by simp [hg]))
      rw [List.map_append, hs, List.map_cons, List.map_nil, hone]
      constructor
      · rintro ⟨p, s, h1, h2⟩
        rcases List.append_eq_append_iff.1 h1 with ⟨q, rfl, h3⟩ | ⟨q, h3, h4⟩
        · rcases q with _ | ⟨x, q⟩
          · simp at h3
          · simp only [List.cons_append, List.cons.injEq] at h3
            obtain ⟨rfl, h3⟩ := h3
            have hq : ∀ h, .def_ h ∉ q := fun h hh => hflat f (by simp) h (by rw [h3]; simp [hh])
            have : a = f.1 := by
              rcases lastDef_append h2 with h | ⟨_, h⟩
              · obtain ⟨u, v, h4, h5⟩ := h
                rcases u with _ | ⟨y, u⟩
                · simp only [List.nil_append, List.cons.injEq, Seen.def_.injEq] at h4
                  exact h4.1.symm
                · simp only [List.cons_append, List.cons.injEq] at h4
                  exact absurd (by rw [h4.2]; simp) (hq a)
              · exact absurd (by simp) (h f.1)
            exact ⟨f.2, by simp [this], by rw [h3]; simp⟩
        · rcases q with _ | ⟨x, q⟩
          · simp at h4
          · simp only [List.cons_append, List.cons.injEq] at h4
            obtain ⟨rfl, h4⟩ := h4
            obtain ⟨kids, h5, h6⟩ := ih.1 ⟨p, q, h3, h2⟩
            exact ⟨kids, by simp [h5], h6⟩
      · rintro ⟨kids, h1, h2⟩
        rcases List.mem_append.1 h1 with h1 | h1
        · obtain ⟨p, s, h3, h4⟩ := ih.2 ⟨kids, h1, h2⟩
          exact ⟨p, s ++ .def_ f.1 :: seenAll f.2, by rw [h3]; simp, h4⟩
        · simp at h1
          subst h1
          obtain ⟨u, v, h3⟩ := List.append_of_mem h2
          refine ⟨seenAll (fs.map fun f => Ast.fn f.1 f.2) ++ .def_ a :: u, v, by rw [h3]; simp, seenAll (fs.map fun f => Ast.fn f.1 f.2), u, rfl, ?_⟩
          intro h hh
          exact hflat (a, kids) (by simp) h (by rw [h3]; simp [hh])
  constructor
  · rintro ⟨p, s, h1, h2, h3⟩
    exact ⟨key.1 ⟨p, s, h1, h2⟩, h3⟩
  · rintro ⟨h1, h2⟩
    obtain ⟨p, s, h3, h4⟩ := key.2 h1
    exact ⟨p, s, h3, h4, h2⟩

/-- Calls after an inner function are attributed to it, and calls outside of functions to the last function:
`def outer(): (def inner(): pass); helper()` and then `main()`. -/
theorem C132_inner : (analyzeCode none [.node [.fn "outer" [.fn "inner" [], .call (some "helper") []], .call (some "main") []]]).edges =
    [("inner", "helper"), ("inner", "main")] := by decide +kernel

/-- `def f(): g(); h(len(x))`, `def k(): f()` with `len` and `k` ignored. -/
example : (analyzeCode (some ["len", "k"]) [.fn "f" [.call (some "g") [], .call (some "h") [.call (some "len") []]], .fn "k" [.call (some "f") []]]) =
    ⟨none, ["f", "g", "h"], [("f", "g"), ("f", "h")]⟩ := by decide +kernel

end Verif
