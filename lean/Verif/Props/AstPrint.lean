import Verif.AstPrint
import Verif.Props.Ast
import Verif.Filter
/-!
# C64: the printed form of an AST

Specification (`AstPrint.lean`): `Ast.lines` (the nodes, parents before their children, with depths), `Ast.view` (what a node shows:
rule, alternative, merged rule, token text; and the same for its children).
-/

namespace Verif.Props
open Verif

/-- **C64**: for every tree and callback the text is made of one piece per node, parents before their children and children in order: the
indentation of its depth, its line, and what the callback says about it. -/
theorem C64_lines (input : List Byte) (f : Ast → Nat → List Byte) (t : Ast) :
    astToS input (some f) t = (t.lines 0).flatMap fun x => indent x.1 ++ x.2.info.headline input ++ f x.2 (x.1 + 1) :=
  core_lines input f t 0

/-- **C64**: the same without a callback. -/
theorem C64_lines_plain (input : List Byte) (t : Ast) :
    astToS input none t = (t.lines 0).flatMap fun x => indent x.1 ++ x.2.info.headline input := by
  unfold astToS
  rw [core_none, core_lines]
  simp

/-- **C64**: two trees without line ends in their tokens are printed alike exactly if they show the same: same shape, rules, alternatives,
merged rules and token texts. -/
theorem C64_print_determines_tree {input input' : List Byte} {t t' : Ast} (h : t.OneLine input) (h' : t'.OneLine input') :
    astToS input none t = astToS input' none t' ↔ t.view input = t'.view input' := by
  unfold astToS
  rw [core_pre, core_pre]
  constructor
  · intro e
    have e' := print_inj (view_fine input t 0 h) (view_fine input' t' 0 h') e
    refine (pre_inj (t.view input) 0 (r := []) (r' := []) ?_ ?_ (by rw [List.append_nil, List.append_nil, e'])).1
    · intro x hx; cases hx
    · intro x hx; cases hx
  · intro e
    rw [e]

/-- All nodes have proper names. -/
def ProperNames (t : Ast) : Prop := t.All fun n => NameLike n.info.name ∧ NameLike n.info.origName

theorem oneLine_of {input : List Byte} (hi : 10 ∉ input) : ∀ (t : Ast), ProperNames t → t.OneLine input := by
  have key : ∀ (x : AInfo), 10 ∉ x.tokenText input := fun x h => hi (List.mem_of_mem_drop (List.mem_of_mem_take h))
  intro t
  exact go key t
where
  go (key : ∀ (x : AInfo), 10 ∉ x.tokenText input) : ∀ (t : Ast), ProperNames t → t.OneLine input
    | .node x ns, h => by
      rw [Ast.OneLine]
      unfold ProperNames at h
      rw [Ast.All] at h
      exact ⟨h.1.1, h.1.2, fun _ => key x, goL key ns h.2⟩
  goL (key : ∀ (x : AInfo), 10 ∉ x.tokenText input) : ∀ (ns : List Ast), Ast.AllL (fun n => NameLike n.info.name ∧ NameLike n.info.origName) ns →
      Ast.OneLineL input ns
    | [], _ => by rw [Ast.OneLineL]; trivial
    | n :: ns, h => by
      rw [Ast.AllL] at h
      rw [Ast.OneLineL]
      exact ⟨go key n h.1, goL key ns h.2⟩

/-- **C64**: if the inputs are single lines, so are the tokens. -/
theorem C64_single_line_inputs {input input' : List Byte} (hi : 10 ∉ input) (hi' : 10 ∉ input') {t t' : Ast} (h : ProperNames t) (h' : ProperNames t') :
    astToS input none t = astToS input' none t' ↔ t.view input = t'.view input' :=
  C64_print_determines_tree (oneLine_of hi t h) (oneLine_of hi' t' h')

theorem oneLineL_iff (input : List Byte) (ns : List Ast) : Ast.OneLineL input ns ↔ ∀ n ∈ ns, n.OneLine input := by
  induction ns with
  | nil => simp [Ast.OneLineL]
  | cons n ns ih => simp [Ast.OneLineL, ih]

/-- **C64**: optimising keeps trees printable, so the printed form of the optimised tree determines it. -/
theorem C64_optimised (o : Optim) {input : List Byte} (t : Ast) (h : t.OneLine input) : (optTree o t).OneLine input := by
  revert h
  refine Ast.optInd (o := o) (P := fun t => t.OneLine input → (optTree o t).OneLine input) ?_ ?_ t
  · intro x ns hk ih h
    rw [optTree_keep hk]
    rw [Ast.OneLine, oneLineL_iff] at h ⊢
    refine ⟨h.1, h.2.1, h.2.2.1, fun n hn => ?_⟩
    obtain ⟨m, hm, rfl⟩ := List.mem_map.1 hn
    exact ih m hm (h.2.2.2 m hm)
  · intro x n hk ih h
    rw [optTree_collapse hk]
    rw [Ast.OneLine, Ast.OneLineL] at h
    have hn := ih h.2.2.2.1
    revert hn
    generalize optTree o n = m
    cases m with
    | node c cs =>
      intro hn
      rw [Ast.OneLine] at hn ⊢
      exact ⟨hn.1, h.1, hn.2.2.1, hn.2.2.2⟩

/-! ## Examples -/

/-- `S { A/1 { T "7" } B "x" }` as nodes. -/
def prInfo (nm : Byte) (cc c : Nat) (tok : Option (Nat × Nat)) : AInfo := mkInfo (1, 1) [nm] tok.isSome (tok.getD (0, 0)) 0 0 cc c false

def prTree : Ast := .node (prInfo 83 0 0 none) [.node (prInfo 65 2 1 none) [.node (prInfo 84 0 0 (some (0, 1))) []], .node (prInfo 66 0 0 (some (1, 1))) []]

/-- It is printed as
```
+ S
  + A/1
    - T (7)
  - B (x)
```
and, optimised, as
```
+ S
  - A/1[T] (7)
  - B (x)
``` -/
example : astToS (asciiBytes "7x") none prTree = asciiBytes "+ S\n  + A/1\n    - T (7)\n  - B (x)\n" ∧
    astToS (asciiBytes "7x") none (optTree ⟨true, []⟩ prTree) = asciiBytes "+ S\n  - A/1[T] (7)\n  - B (x)\n" := by decide +kernel

/-- It meets the hypotheses. -/
example : (10 : Byte) ∉ asciiBytes "7x" ∧ ProperNames prTree := by
  refine ⟨by decide +kernel, ?_⟩
  simp [ProperNames, prTree, Ast.All, Ast.AllL, Ast.info, NameLike, prInfo, mkInfo]

/-- **C64**, the condition is needed: a token with a line end in it can look like two nodes. -/
theorem C64_line_end_in_token : ∃ (input : List Byte) (t t' : Ast), ProperNames t ∧ ProperNames t' ∧ t.nodes.length = 1 ∧ t'.nodes.length = 2 ∧
    astToS input none t = astToS input none t' := by
  refine ⟨asciiBytes "a)\n  - B (b", .node (prInfo 83 0 0 none) [.node (prInfo 65 0 0 (some (0, 11))) []],
    .node (prInfo 83 0 0 none) [.node (prInfo 65 0 0 (some (0, 1))) [], .node (prInfo 66 0 0 (some (10, 1))) []], ?_, ?_, rfl, rfl, by decide +kernel⟩ <;>
  simp [ProperNames, Ast.All, Ast.AllL, Ast.info, NameLike, prInfo, mkInfo]

end Verif.Props
