import Verif.Engine
import Verif.LineInfo
/-!
# The AST (peglib.h 6475-6660, 7004-7050)

`Ast` is the tree a `shared_ptr<Ast>` stands for, without the parent links; `Heap` has the links.  `optTree` is what
`AstOptimizer::optimize` computes as a tree; `optHeap` is the function as written, on a heap of nodes with parent links.
`AstProofs.lean` shows that the second computes the first, leaves all existing nodes alone and sets the parent links right.
-/

namespace Verif

/-- peglib.h 6482-6534: the data members of `AstBase` but `nodes` and `parent`.  Strings are byte lists, the token is an
(offset, length) pair of the input, as in `Frame`.  The `path` is not modelled. -/
structure AInfo where
  line : Nat
  column : Nat
  name : List Byte
  position : Nat
  length : Nat
  choiceCount : Nat
  choice : Nat
  origName : List Byte
  origChoiceCount : Nat
  origChoice : Nat
  tag : UInt32
  origTag : UInt32
  isToken : Bool
  preserve : Bool
  token : Nat × Nat
  deriving DecidableEq, Repr

/-- peglib.h 6480-6528: `AstBase` without the parent. -/
inductive Ast where
  | node (info : AInfo) (nodes : List Ast)

/-- peglib.h 6480-6528: the members other than the children. -/
def Ast.info : Ast → AInfo
  | .node x _ => x

/-- peglib.h 6480-6528: `nodes`. -/
def Ast.nodes : Ast → List Ast
  | .node _ ns => ns

/-- peglib.h 6482-6491 and 6493-6503, the constructors for inner nodes and tokens. -/
def mkInfo (lc : Nat × Nat) (name : List Byte) (isToken : Bool) (token : Nat × Nat) (pos len cc c : Nat) (preserve : Bool) : AInfo where
  line := lc.1
  column := lc.2
  name := name
  position := pos
  length := len
  choiceCount := cc
  choice := c
  origName := name
  origChoiceCount := cc
  origChoice := c
  tag := str2tag name
  origTag := str2tag name
  isToken := isToken
  preserve := preserve
  token := token

/-- peglib.h 6505-6515, the constructor used when a node is collapsed: everything from `x` but the given members. -/
def AInfo.under (x : AInfo) (origName : List Byte) (pos len cc c : Nat) : AInfo :=
  { x with position := pos, length := len, origName := origName, origChoiceCount := cc, origChoice := c, origTag := str2tag origName }

/-- The members of `Definition` read by the AST action (peglib.h 3291-3304: `no_ast_opt`, `ast_name`). -/
structure AstOpts where
  noAstOpt : Nat → Bool := fun _ => false
  astName : Nat → List Byte := fun _ => []

/-- peglib.h 600-604 `SemanticValues::token(0)`. -/
def Frame.tokenSpan {V : Type} (f : Frame V) : Nat × Nat := f.tokens.head?.getD f.sv

/-- peglib.h 6624-6658 the action `add_ast_action` installs for rule `r`.  `vs.transform` (616-626) throws `bad_any_cast` for an
empty value; the model drops such values (theorem C49 shows there are none). -/
def astAction (input : List Byte) (o : AstOpts) (r : Nat) (d : Def) (f : Frame Ast) : Ast :=
  let lc := LineInfo.lineInfo input f.sv.1
  let name := if (o.astName r).isEmpty then d.name else o.astName r
  if d.isToken then .node (mkInfo lc name true f.tokenSpan f.sv.1 f.sv.2 f.choiceCount f.choice (o.noAstOpt r)) []
  else .node (mkInfo lc name false (0, 0) f.sv.1 f.sv.2 f.choiceCount f.choice (o.noAstOpt r)) (f.vals.filterMap id)

/-- peglib.h 7004-7009 `enable_ast` on a grammar without actions of its own. -/
def enableAst (cfg : Cfg Ast) (o : AstOpts) : Cfg Ast :=
  { cfg with action := fun r => (cfg.rules[r]?).map fun d => fun f dt _ => (some (astAction cfg.input o r d f), dt) }

/-- peglib.h 6582-6583 the members of `AstOptimizer`. -/
structure Optim where
  mode : Bool
  rules : List (List Byte)

/-- peglib.h 6588-6590 -/
def Optim.opt (o : Optim) (name : List Byte) : Bool :=
  let found := o.rules.contains name
  if o.mode then !found else found

/-- peglib.h 6592-6598: what becomes of the collapsed node `x` whose optimised child has data `c`. -/
def AInfo.collapse (x c : AInfo) : AInfo :=
  c.under x.name (if c.preserve then c.position else x.position) (if c.preserve then c.length else x.length) x.choiceCount x.choice

mutual
/-- peglib.h 6585-6613 `AstOptimizer::optimize`, without parent links. -/
def optTree (o : Optim) : Ast → Ast
  | .node x ns =>
    match ns with
    | [n] =>
      if o.opt x.name then
        match optTree o n with
        | .node c cs => .node (x.collapse c) cs
      else .node x [optTree o n]
    | ns => .node x (optTrees o ns)

/-- peglib.h 6606-6613: the loop over the children. -/
def optTrees (o : Optim) : List Ast → List Ast
  | [] => []
  | n :: ns => optTree o n :: optTrees o ns
end

/-! ## With parent links -/

/-- peglib.h 6480-6528: A node in memory: data, addresses of the children, address of the parent (`weak_ptr`, `none` when not set). -/
structure HNode where
  info : AInfo
  nodes : List Nat
  parent : Option Nat
  deriving DecidableEq, Repr

/-- Model only: the nodes in memory, an address is an index (peglib.h 6480-6528). -/
abbrev Heap := List HNode

/-- peglib.h 6599-6601, 6653-6655: `node->parent = ast` for all children. -/
def setParents (h : Heap) (ns : List Nat) (p : Nat) : Heap :=
  ns.foldl (fun h n => h.modify n fun x => { x with parent := some p }) h

/-- peglib.h 6607-6610: optimise the children one by one and append them to `ast`'s nodes. -/
def optKids (rec : Heap → Nat → Option Nat → Option (Nat × Heap)) (ast : Nat) : Heap → List Nat → Option (Nat × Heap)
  | h, [] => some (ast, h)
  | h, a :: ns =>
    match rec h a (some ast) with
    | none => none
    | some (c, h1) => optKids rec ast (h1.modify ast fun x => { x with nodes := x.nodes ++ [c] }) ns

/-- peglib.h 6604-6612 -/
def optKeep (rec : Heap → Nat → Option Nat → Option (Nat × Heap)) (h : Heap) (x : HNode) (parent : Option Nat) :
    Option (Nat × Heap) :=
  optKids rec h.length (h ++ [⟨x.info, [], parent⟩]) x.nodes

/-- peglib.h 6592-6603 -/
def optCollapse (rec : Heap → Nat → Option Nat → Option (Nat × Heap)) (h : Heap) (x : HNode) (a : Nat) (parent : Option Nat) :
    Option (Nat × Heap) :=
  match rec h a parent with
  | none => none
  | some (ca, h1) =>
    match h1[ca]? with
    | none => none
    | some c =>
      some (h1.length, setParents (h1 ++ [⟨x.info.collapse c.info, c.nodes, c.parent⟩]) c.nodes h1.length)

/-- peglib.h 6585-6613 `AstOptimizer::optimize(original, parent)`: returns the new node's address.  `make_shared` appends a node to
the heap.  `n` bounds the depth of the tree. -/
def optHeap (o : Optim) : Nat → Heap → Nat → Option Nat → Option (Nat × Heap)
  | 0, _, _, _ => none
  | n + 1, h, orig, parent =>
    match h[orig]? with
    | none => none
    | some x =>
      match x.nodes with
      | [a] => if o.opt x.info.name then optCollapse (optHeap o n) h x a parent else optKeep (optHeap o n) h x parent
      | _ => optKeep (optHeap o n) h x parent

/-- peglib.h 7040-7050 `get_no_ast_opt_rules` and 7012-7015 `optimize_ast`: the optimiser used for a grammar. -/
def optimizer (rules : List Def) (o : AstOpts) (mode : Bool) : Optim where
  mode := mode
  rules := ((List.range rules.length).filter o.noAstOpt).map fun r =>
    if (o.astName r).isEmpty then ((rules[r]?).map (·.name)).getD [] else o.astName r

end Verif
