import Verif.AstBuild
import Verif.Props.Derive
/-!
# C39, C49: the AST
-/

namespace Verif.Props
open Verif

/-! ## C39: optimisation -/

/-- The data of a leaf: everything but position, length and the `original_*` members. -/
def leafData (x : AInfo) : List Byte × UInt32 × Bool × (Nat × Nat) × (Nat × Nat) × (Nat × Nat) :=
  (x.name, x.tag, x.isToken, x.token, (x.line, x.column), (x.choiceCount, x.choice))

mutual
/-- The leaves of a tree from left to right. -/
def leaves : Ast → List (List Byte × UInt32 × Bool × (Nat × Nat) × (Nat × Nat) × (Nat × Nat))
  | .node x ns =>
    match ns with
    | [] => [leafData x]
    | n :: ns => leaves n ++ leavesL ns

def leavesL : List Ast → List (List Byte × UInt32 × Bool × (Nat × Nat) × (Nat × Nat) × (Nat × Nat))
  | [] => []
  | n :: ns => leaves n ++ leavesL ns
end

theorem leavesL_eq (ns : List Ast) : leavesL ns = ns.flatMap leaves := by
  induction ns with
  | nil => simp [leavesL]
  | cons n ns ih => simp [leavesL, ih]

theorem leaves_nonempty {x : AInfo} {ns : List Ast} (h : ns ≠ []) : leaves (.node x ns) = ns.flatMap leaves := by
  cases ns with
  | nil => exact absurd rfl h
  | cons n ns => simp [leaves, leavesL_eq]

/-- **C39**: the leaves (tokens) and their data are kept, in order. -/
theorem C39_leaves_kept (o : Optim) (t : Ast) : leaves (optTree o t) = leaves t := by
  refine Ast.optInd (o := o) (P := fun t => leaves (optTree o t) = leaves t) ?_ ?_ t
  · intro x ns h ih
    rw [optTree_keep h]
    cases ns with
    | nil => simp [leaves]
    | cons n ns =>
      rw [leaves_nonempty (by simp), leaves_nonempty (by simp), List.flatMap_map]
      rw [List.flatMap_def, List.flatMap_def, List.map_congr_left ih]
  · intro x n h ih
    rw [optTree_collapse h, leaves_nonempty (x := x) (by simp)]
    simp only [List.flatMap_cons, List.flatMap_nil, List.append_nil]
    rw [← ih]
    cases optTree o n with
    | node c cs =>
      cases cs with
      | nil => simp [leaves, Ast.nodes, Ast.info, AInfo.collapse, AInfo.under, leafData]
      | cons a as => simp [leaves, Ast.nodes, Ast.info]

/-- **C39**: afterwards no node with exactly one child has a name that may be collapsed. -/
theorem C39_nothing_left (o : Optim) (t : Ast) : (optTree o t).All fun n => ¬ (o.opt n.info.name = true ∧ n.nodes.length = 1) :=
  optTree_settled o t

/-- **C39**: optimising twice is optimising once; all members of all nodes stay. -/
theorem C39_idempotent (o : Optim) (t : Ast) : optTree o (optTree o t) = optTree o t :=
  optTree_of_settled _ (optTree_settled o t)

/-- **C39**: a tree without collapsible nodes is returned unchanged. -/
theorem C39_unchanged (o : Optim) (t : Ast) (h : t.All fun n => ¬ (o.opt n.info.name = true ∧ n.nodes.length = 1)) :
    optTree o t = t := optTree_of_settled t h

/-- A chain of nodes with one child each, on top of `t`. -/
def stack : List AInfo → Ast → Ast
  | [], t => t
  | x :: xs, t => .node x [stack xs t]

/-- What a chain `x :: xs` of collapsed nodes above a kept node `y` becomes: the members of `y`, with the outermost name and choice
as the original ones; position and length are those of `x`, unless `y`'s rule is declared `no_ast_opt`. -/
def outermost (x y : AInfo) : AInfo :=
  { y with
    origName := x.name, origTag := str2tag x.name, origChoice := x.choice, origChoiceCount := x.choiceCount
    position := if y.preserve then y.position else x.position
    length := if y.preserve then y.length else x.length }

/-- **C39**: which nodes are collapsed, and into what. -/
theorem C39_chain (o : Optim) (x : AInfo) (xs : List AInfo) (y : AInfo) (ns : List Ast) (hx : ∀ z ∈ x :: xs, o.opt z.name = true)
    (hy : ¬ (o.opt y.name = true ∧ ns.length = 1)) :
    optTree o (stack (x :: xs) (.node y ns)) = .node (outermost x y) (ns.map (optTree o)) ∧
    optTree o (.node y ns) = .node y (ns.map (optTree o)) := by
  have hk : optTree o (.node y ns) = .node y (ns.map (optTree o)) := optTree_keep hy
  refine ⟨?_, hk⟩
  have key : ∀ (xs : List AInfo) (x : AInfo), (∀ z ∈ x :: xs, o.opt z.name = true) →
      optTree o (stack (x :: xs) (.node y ns)) = .node (outermost x y) (ns.map (optTree o)) := by
    intro xs
    induction xs with
    | nil =>
      intro x hx
      simp only [stack]
      rw [optTree_collapse (hx x (by simp)), hk]
      rfl
    | cons x' xs ih =>
      intro x hx
      rw [stack, optTree_collapse (hx x (by simp)), ih x' fun z hz => hx z (by simp at hz ⊢; exact Or.inr hz)]
      simp only [Ast.info, Ast.nodes, AInfo.collapse, AInfo.under, outermost]
      congr 2 <;> (split <;> simp_all)
  exact key xs x hx

/-- Every node is either kept or the top of such a chain. -/
theorem C39_chain_covers (o : Optim) (t : Ast) : ∃ xs y ns, t = stack xs (.node y ns) ∧ (∀ z ∈ xs, o.opt z.name = true) ∧
    ¬ (o.opt y.name = true ∧ ns.length = 1) := by
  refine Ast.optInd (o := o) (P := fun t => ∃ xs y ns, t = stack xs (.node y ns) ∧ (∀ z ∈ xs, o.opt z.name = true) ∧
    ¬ (o.opt y.name = true ∧ ns.length = 1)) ?_ ?_ t
  · intro x ns h _
    exact ⟨[], x, ns, rfl, by simp, h⟩
  · intro x n h ⟨xs, y, ns, e, h1, h2⟩
    exact ⟨x :: xs, y, ns, by rw [e, stack], by simpa using ⟨h, h1⟩, h2⟩

/-- Every node's text contains its children's texts, in order and without overlap. -/
def Nested (t : Ast) : Prop := t.All fun n => Ordered n.start n.stop n.nodes

theorem ordered_shrink {f : Ast → Ast} : ∀ (ns : List Ast) {i i' j j' : Nat}, i' ≤ i → j ≤ j' →
    (∀ n ∈ ns, n.start ≤ (f n).start ∧ (f n).stop ≤ n.stop) → Ordered i j ns → Ordered i' j' (ns.map f)
  | [], i, i', j, j', h1, h2, _, h => by simp only [List.map_nil, Ordered] at h ⊢; omega
  | n :: ns, i, i', j, j', h1, h2, hf, h => by
    simp only [List.map_cons, Ordered] at h ⊢
    obtain ⟨k1, k2⟩ := hf n (by simp)
    exact ⟨by omega, ordered_shrink ns k2 h2 (fun m hm => hf m (by simp [hm])) h.2⟩

theorem ordered_le : ∀ (ns : List Ast) {i j : Nat}, Ordered i j ns → i ≤ j
  | [], _, _, h => h
  | n :: ns, i, j, h => by
    have := ordered_le ns h.2
    have h1 := h.1
    unfold Ast.start at h1
    unfold Ast.stop at this
    omega

/-- **C39**: optimisation keeps texts nested, and the text of the tree stays inside the original's. -/
theorem C39_nested (o : Optim) (t : Ast) (h : Nested t) :
    Nested (optTree o t) ∧ t.start ≤ (optTree o t).start ∧ (optTree o t).stop ≤ t.stop := by
  revert h
  refine Ast.optInd (o := o) (P := fun t => Nested t → Nested (optTree o t) ∧ t.start ≤ (optTree o t).start ∧
    (optTree o t).stop ≤ t.stop) ?_ ?_ t
  · intro x ns h ih hn
    rw [optTree_keep h]
    unfold Nested at hn ih ⊢
    simp only [Ast.All, Ast.allL_iff] at hn
    obtain ⟨h1, h2⟩ := hn
    refine ⟨?_, Nat.le_refl _, Nat.le_refl _⟩
    simp only [Ast.All, Ast.allL_iff, List.mem_map, forall_exists_index, and_imp, forall_apply_eq_imp_iff₂]
    refine ⟨?_, fun n hn => (ih n hn (h2 n hn)).1⟩
    exact ordered_shrink ns (Nat.le_refl _) (Nat.le_refl _) (fun n hn => (ih n hn (h2 n hn)).2) h1
  · intro x n h ih hn
    rw [optTree_collapse h]
    unfold Nested at hn ih ⊢
    simp only [Ast.All, Ast.allL_iff, List.mem_singleton, forall_eq] at hn
    obtain ⟨⟨g1, g2⟩, h2⟩ := hn
    obtain ⟨h3, h4, h5⟩ := ih h2
    cases hc : optTree o n with
    | node c cs =>
      rw [hc] at h3 h4 h5
      simp only [Ast.All, Ast.info, Ast.nodes] at h3 ⊢
      obtain ⟨h6, h7⟩ := h3
      unfold Ast.start Ast.stop at *
      simp only [Ast.info, Ast.nodes, AInfo.collapse, AInfo.under] at *
      simp only [Ordered] at g2
      cases hp : c.preserve with
      | true =>
        simp only [if_true]
        exact ⟨⟨h6, h7⟩, by omega, by omega⟩
      | false =>
        simp only [Bool.false_eq_true, if_false]
        refine ⟨⟨?_, h7⟩, by omega, by omega⟩
        have := ordered_shrink (f := id) cs (i := c.position) (i' := x.position) (j := c.position + c.length) (j' := x.position + x.length)
          (by omega) (by omega) (fun n _ => ⟨Nat.le_refl _, Nat.le_refl _⟩) h6
        simpa using this

/-- **C39**: the function as written, working on nodes in memory with parent links: if the node at `a` is the root of the tree `t`,
then `optimize(a, p)` returns the root of a new tree that is the optimised tree; its parent is `p`, each node's parent link
leads to its parent, no two of its nodes share an address, all its nodes are new, and no existing node was modified. -/
theorem C39_optimize_memory (o : Optim) (h : Heap) (a : Nat) (p : Option Nat) (t : Ast) (hr : Rep h a t) :
    ∃ a' h' S, optHeap o t.height h a p = some (a', h') ∧ h <+: h' ∧ Linked h' a' p S (optTree o t) ∧
      ∀ s ∈ S, h.length ≤ s ∧ s < h'.length := by
  obtain ⟨a', h', e, r, S, h1, h2⟩ := optHeap_spec o t.height h a p t hr (Nat.le_refl _)
  exact ⟨a', h', S, e, r, h1, h2⟩

/-! ### Examples: the tree of `S <- A; A <- B; B <- '(' N N ')'` optimised, in memory. -/

def exInfo (nm : Byte) (pos len : Nat) (tok : Bool) (pre : Bool := false) : AInfo :=
  mkInfo (1, pos + 1) [nm] tok (pos, len) pos len 0 0 pre

def exTree : Ast := .node (exInfo 83 0 6 false) [.node (exInfo 65 1 4 false) [.node (exInfo 66 1 3 false)
  [.node (exInfo 78 1 1 true) [], .node (exInfo 78 2 1 true) []]]]

def exHeap : Heap := [⟨exInfo 83 0 6 false, [1], none⟩, ⟨exInfo 65 1 4 false, [2], some 0⟩, ⟨exInfo 66 1 3 false, [3, 4], some 1⟩,
  ⟨exInfo 78 1 1 true, [], some 2⟩, ⟨exInfo 78 2 1 true, [], some 2⟩]

def exOpt : Optim := ⟨true, [[81]]⟩

example : Rep exHeap 0 exTree := ⟨[1], none, rfl, 1, [], rfl, ⟨[2], some 0, rfl, 2, [], rfl,
  ⟨[3, 4], some 1, rfl, 3, [4], rfl, ⟨[], some 2, rfl, rfl⟩, 4, [], rfl, ⟨[], some 2, rfl, rfl⟩, rfl⟩, rfl⟩, rfl⟩

example : Nested exTree := by
  simp [Nested, exTree, Ast.All, Ast.AllL, Ordered, Ast.start, Ast.stop, Ast.info, Ast.nodes, exInfo, mkInfo]

example : optTree exOpt exTree = .node (outermost (exInfo 83 0 6 false) (exInfo 66 1 3 false))
    [.node (exInfo 78 1 1 true) [], .node (exInfo 78 2 1 true) []] :=
  (C39_chain exOpt (exInfo 83 0 6 false) [exInfo 65 1 4 false] (exInfo 66 1 3 false) _ (by decide) (by decide)).1

/-- In memory: the new root is node 9, the parent of the two leaves. -/
example : (optHeap exOpt 4 exHeap 0 none).map (fun r => (r.1, r.2.map fun x => (x.nodes, x.parent))) =
    some (9, [([1], none), ([2], some 0), ([3, 4], some 1), ([], some 2), ([], some 2),
      ([6, 7], none), ([], some 9), ([], some 9), ([6, 7], none), ([6, 7], none)]) := by decide +kernel

/-- After collapsing, line and column are those of the kept node while position and length are those of the outermost one: they may
disagree.  Here the position is 0, the column 2. -/
theorem C39_line_is_not_that_of_position : ∃ t, Nested t ∧ (optTree exOpt t).info.position = 0 ∧
    (optTree exOpt t).info.line = 1 ∧ (optTree exOpt t).info.column = 2 ∧ t.All (fun n => n.info.column = n.info.position + 1) := by
  refine ⟨exTree, ?_, by decide, by decide, by decide, ?_⟩ <;>
  simp [Nested, exTree, Ast.All, Ast.AllL, Ordered, Ast.start, Ast.stop, Ast.info, Ast.nodes, exInfo, mkInfo]

/-! ## C49: the tree built by `enable_ast` -/

variable {cfg : Cfg Ast} {n r : Nat} {d : Def} {eoi log : Bool} {dt : Option Ast} {res : Result Ast}

/-- What C49 assumes: no actions, `leave` callbacks or user-defined parsers of one's own that make values, values are collected,
`%whitespace` makes no values, no error recovery. -/
structure AstReady (p : Ope → Bool) (cfg : Cfg Ast) (o : AstOpts) (r : Nat) : Prop where
  der : DerReady p (enableAst cfg o)
  enabled : ∀ d ∈ cfg.rules, d.disableAction = false
  leave : ∀ r, cfg.leave r = none
  user : UserQuiet cfg
  collect : cfg.recognizeOnly = false
  ws : ∀ w, cfg.ws = some w → ∃ e, w = .ws (.ign e)
  start : ∃ d, cfg.rules[r]? = some d ∧ d.isMacro = false ∧ d.ignoreSV = false

/-- **C49**: a successful parse with `enable_ast` delivers a tree.  Its root ends where the match ends; in every node the text lies in
the input, contains the children's texts in order and without overlap, line and column are those of the position, a token node
has no children and its token lies in its text.  The tree is the value of a derivation of the text by the grammar. -/
theorem C49_ast_of_parse (o : AstOpts) (H : AstReady (plainNode false) cfg o r)
    (h : parseCore n (enableAst cfg o) r eoi { dt := dt, logOn := log } = .ok res) (hr : res.ret = true) :
    ∃ t, deliver res = some t ∧ t.stop = res.len ∧ t.All (NodeOk cfg.input (· ≤ cfg.input.length)) ∧
      DerParse (enableAst cfg o) { recov := false } r t.start t.stop (some t) res.st.vs := by
  obtain ⟨d, h1, h2, h3⟩ := H.start
  exact parse_ast (L := plainLg (enableAst cfg o) false) (plainHyp (DShape.of_check (plainNode_ok _ _) H.der.check H.der.slots H.der.user))
    (Nat.zero_le _) (fun _ h => h) rfl H.enabled H.leave H.user H.collect H.ws h1 h2 h3 h hr

/-- **C49** with C48: in UTF-8 text all texts and tokens of all nodes begin and end at character boundaries. -/
theorem C49_ast_utf8 (o : AstOpts) (H : AstReady (utf8Node false) cfg o r) (hu : UserBdry (enableAst cfg o)) (hi : Text cfg.input)
    (h : parseCore n (enableAst cfg o) r eoi { dt := dt, logOn := log } = .ok res) (hr : res.ret = true) :
    ∃ t, deliver res = some t ∧ t.stop = res.len ∧
      t.All (NodeOk cfg.input fun i => i ≤ cfg.input.length ∧ Bdry cfg.input i) := by
  obtain ⟨d, h1, h2, h3⟩ := H.start
  obtain ⟨t, k1, k2, k3, -⟩ := parse_ast (L := utf8Lg (enableAst cfg o) false)
    (utf8Hyp (DShape.of_check (utf8Node_ok _ _) H.der.check H.der.slots H.der.user) hu)
    ⟨Nat.zero_le _, hi⟩ (fun _ h => h.1) rfl H.enabled H.leave H.user H.collect H.ws h1 h2 h3 h hr
  exact ⟨t, k1, k2, k3⟩

mutual
theorem all_mono {p q : Ast → Prop} (h : ∀ t, p t → q t) : ∀ {t : Ast}, t.All p → t.All q
  | .node _ _, h' => by simp only [Ast.All] at h' ⊢; exact ⟨h _ h'.1, allL_mono h h'.2⟩

theorem allL_mono {p q : Ast → Prop} (h : ∀ t, p t → q t) : ∀ {ts : List Ast}, Ast.AllL p ts → Ast.AllL q ts
  | [], _ => by simp only [Ast.AllL]
  | _ :: _, h' => by simp only [Ast.AllL] at h' ⊢; exact ⟨all_mono h h'.1, allL_mono h h'.2⟩
end

/-- **C39** for parsed trees: the optimised tree of a parse keeps the leaves, is nested, and has nothing left to collapse. -/
theorem C39_of_parse (o : AstOpts) (mode : Bool) (H : AstReady (plainNode false) cfg o r)
    (h : parseCore n (enableAst cfg o) r eoi { dt := dt, logOn := log } = .ok res) (hr : res.ret = true) :
    ∃ t, deliver res = some t ∧ leaves (optTree (optimizer cfg.rules o mode) t) = leaves t ∧
      Nested (optTree (optimizer cfg.rules o mode) t) ∧ (optTree (optimizer cfg.rules o mode) t).stop ≤ res.len := by
  obtain ⟨t, h1, h2, h3, -⟩ := C49_ast_of_parse o H h hr
  have := C39_nested (optimizer cfg.rules o mode) t (all_mono (fun _ h => h.kids) h3)
  exact ⟨t, h1, C39_leaves_kept _ _, this.1, h2 ▸ this.2.2⟩

/-! ### Example: the left-recursive grammar of Props/Derive with an AST -/

def deAst (input : List Byte) : Cfg Ast :=
  { input := input, rules := (deCfg input).rules, ws := (deCfg input).ws, packrat := true, defCount := 3
    packratIndex := some [some 0, some 1, none], cachedCount := 2 }

theorem deAstReady (input : List Byte) : AstReady (utf8Node false) (deAst input) {} 0 where
  der := by
    refine ⟨?_, ?_, fun _ _ _ _ => ⟨List.prefix_refl _, List.prefix_refl _, List.prefix_refl _, rfl⟩⟩
    · have : derCheck (utf8Node false) (enableAst (deAst []) {}) = true := by decide +kernel
      exact this
    · exact (deReady false input).slots
  enabled := by
    have : ∀ d ∈ (deCfg []).rules, d.disableAction = false := by decide +kernel
    exact this
  leave := fun _ => rfl
  user := fun _ _ _ _ => ⟨rfl, rfl⟩
  collect := rfl
  ws := fun w h => by cases h; exact ⟨_, rfl⟩
  start := ⟨_, rfl, rfl, rfl⟩

/-- The AST of any UTF-8 text parsed with this grammar. -/
example (input : List Byte) (hi : Text input) (n : Nat) (res : Result Ast)
    (h : parseCore n (enableAst (deAst input) {}) 0 true {} = .ok res) (hr : res.ret = true) :
    ∃ t, deliver res = some t ∧ t.stop = res.len ∧ t.All (NodeOk input fun i => i ≤ input.length ∧ Bdry input i) :=
  C49_ast_utf8 {} (deAstReady input) (fun _ _ _ _ _ _ h _ => by cases h) hi h hr

/-- Name, text and children's names and texts of the delivered tree. -/
def astView (n : Nat) (cfg : Cfg Ast) : Option (List Byte × (Nat × Nat) × List (List Byte × (Nat × Nat))) :=
  match parseCore n cfg 0 true {} with
  | .ok res => (deliver res).map fun t => (t.info.name, (t.start, t.stop), t.nodes.map fun n => (n.info.name, (n.start, n.stop)))
  | _ => none

/-- On "1 + 2": the root is an `E` with two children spanning [0, 5). -/
example : astView 60 (enableAst (deAst [49, 32, 43, 32, 50]) {}) = some ([69], (0, 5), [([69], (0, 2)), ([84], (4, 5))]) := by
  decide +kernel

end Verif.Props
