import Verif.Ast
/-!
# Proofs about the AST optimiser
-/

namespace Verif

/-! ## Trees -/

/-- A node the optimiser removes: exactly one child and not an excepted name. -/
def Collapsible (o : Optim) (t : Ast) : Prop := o.opt t.info.name = true ∧ t.nodes.length = 1

instance (o : Optim) (t : Ast) : Decidable (Collapsible o t) := by unfold Collapsible; infer_instance

mutual
/-- `p` holds at every node of the tree. -/
def Ast.All (p : Ast → Prop) : Ast → Prop
  | .node x ns => p (.node x ns) ∧ Ast.AllL p ns

def Ast.AllL (p : Ast → Prop) : List Ast → Prop
  | [] => True
  | n :: ns => n.All p ∧ Ast.AllL p ns
end

theorem optTrees_eq (o : Optim) (ns : List Ast) : optTrees o ns = ns.map (optTree o) := by
  induction ns with
  | nil => simp only [optTrees, List.map_nil]
  | cons n ns ih => simp only [optTrees, List.map_cons, ih]

theorem optTree_keep {o : Optim} {x : AInfo} {ns : List Ast} (h : ¬ Collapsible o (.node x ns)) :
    optTree o (.node x ns) = .node x (ns.map (optTree o)) := by
  match ns with
  | [] => simp [optTree, optTrees]
  | [n] =>
    have h' : o.opt x.name = false := by
      cases ho : o.opt x.name with
      | false => rfl
      | true => exact absurd ⟨ho, rfl⟩ h
    simp [optTree, h']
  | a :: b :: ns => simp [optTree, optTrees_eq]

theorem optTree_collapse {o : Optim} {x : AInfo} {n : Ast} (h : o.opt x.name = true) :
    optTree o (.node x [n]) = .node (x.collapse (optTree o n).info) (optTree o n).nodes := by
  simp only [optTree, h, if_true]
  cases optTree o n
  rfl

/-- Induction over trees along the optimiser. -/
theorem Ast.optInd {o : Optim} {P : Ast → Prop}
    (keep : ∀ x ns, ¬ Collapsible o (.node x ns) → (∀ n ∈ ns, P n) → P (.node x ns))
    (coll : ∀ x n, o.opt x.name = true → P n → P (.node x [n])) : ∀ t, P t
  | .node x ns => by
    by_cases h : Collapsible o (.node x ns)
    · obtain ⟨h1, h2⟩ := h
      match ns, h2 with
      | [n], _ => exact coll x n h1 (Ast.optInd keep coll n)
    · exact keep x ns h fun n hn => Ast.optInd keep coll n
termination_by t => sizeOf t
decreasing_by
  · simp_wf; omega
  · have := List.sizeOf_lt_of_mem hn
    simp_wf; omega

theorem Ast.allL_iff {p : Ast → Prop} {ns : List Ast} : Ast.AllL p ns ↔ ∀ n ∈ ns, n.All p := by
  induction ns with
  | nil => simp [Ast.AllL]
  | cons n ns ih => simp [Ast.AllL, ih]

theorem collapse_name (x c : AInfo) : (x.collapse c).name = c.name := rfl

/-- No collapsible node is left. -/
theorem optTree_settled (o : Optim) (t : Ast) : (optTree o t).All fun n => ¬ Collapsible o n := by
  refine Ast.optInd (o := o) (P := fun t => (optTree o t).All fun n => ¬ Collapsible o n) ?_ ?_ t
  · intro x ns h ih
    rw [optTree_keep h]
    simp only [Ast.All, Ast.allL_iff, List.mem_map, forall_exists_index, and_imp, forall_apply_eq_imp_iff₂]
    refine ⟨?_, ih⟩
    unfold Collapsible at h ⊢
    simpa [Ast.info, Ast.nodes] using h
  · intro x n h ih
    rw [optTree_collapse h]
    cases hn : optTree o n with
    | node c cs =>
      rw [hn] at ih
      simp only [Ast.All, Ast.info, Ast.nodes] at ih ⊢
      exact ⟨ih.1, ih.2⟩

theorem optTree_of_settled {o : Optim} (t : Ast) (h : t.All fun n => ¬ Collapsible o n) : optTree o t = t := by
  revert h
  refine Ast.optInd (o := o) (P := fun t => (t.All fun n => ¬ Collapsible o n) → optTree o t = t) ?_ ?_ t
  · intro x ns hc ih h
    rw [optTree_keep hc]
    congr 1
    simp only [Ast.All, Ast.allL_iff] at h
    exact (List.map_congr_left fun n hn => ih n hn (h.2 n hn)).trans (List.map_id _)
  · intro x n ho _ h
    simp only [Ast.All] at h
    exact absurd ⟨ho, rfl⟩ h.1

/-! ## Heaps -/

mutual
/-- The node at address `a` is the root of the tree `t`. -/
def Rep (h : Heap) (a : Nat) : Ast → Prop
  | .node x ts => ∃ as p, h[a]? = some ⟨x, as, p⟩ ∧ RepL h as ts

def RepL (h : Heap) (as : List Nat) : List Ast → Prop
  | [] => as = []
  | t :: ts => ∃ b bs, as = b :: bs ∧ Rep h b t ∧ RepL h bs ts
end

mutual
/-- The node at `a` is the root of the tree `t`, its parent link is `p`, the parent links below it are right, and `S` are the
addresses of its nodes, without repetition. -/
def Linked (h : Heap) (a : Nat) (p : Option Nat) (S : List Nat) : Ast → Prop
  | .node x ts => ∃ as S', h[a]? = some ⟨x, as, p⟩ ∧ S = a :: S' ∧ a ∉ S' ∧ LinkedL h as (some a) S' ts

def LinkedL (h : Heap) (as : List Nat) (p : Option Nat) (S : List Nat) : List Ast → Prop
  | [] => as = [] ∧ S = []
  | t :: ts => ∃ b bs S1 S2, as = b :: bs ∧ S = S1 ++ S2 ∧ (∀ s ∈ S1, s ∉ S2) ∧ Linked h b p S1 t ∧ LinkedL h bs p S2 ts
end

mutual
theorem Rep.mono {h h' : Heap} (hp : h <+: h') : ∀ {t : Ast} {a : Nat}, Rep h a t → Rep h' a t
  | .node x ts, a, ⟨as, p, h1, h2⟩ => ⟨as, p, by
      obtain ⟨r, rfl⟩ := hp
      rw [List.getElem?_append_left (List.getElem?_eq_some_iff.mp h1).1]; exact h1, RepL.mono hp h2⟩

theorem RepL.mono {h h' : Heap} (hp : h <+: h') : ∀ {ts : List Ast} {as : List Nat}, RepL h as ts → RepL h' as ts
  | [], _, h1 => h1
  | t :: ts, _, ⟨b, bs, e, h1, h2⟩ => ⟨b, bs, e, Rep.mono hp h1, RepL.mono hp h2⟩
end

mutual
theorem Linked.congr {h h' : Heap} : ∀ {t : Ast} {a : Nat} {p : Option Nat} {S : List Nat}, (∀ s ∈ S, h'[s]? = h[s]?) →
    Linked h a p S t → Linked h' a p S t
  | .node x ts, a, p, S, hs, ⟨as, S', h1, e, h2, h3⟩ => by
    subst e
    exact ⟨as, S', by rw [hs a (by simp)]; exact h1, rfl, h2, LinkedL.congr (fun s hs' => hs s (by simp [hs'])) h3⟩

theorem LinkedL.congr {h h' : Heap} : ∀ {ts : List Ast} {as : List Nat} {p : Option Nat} {S : List Nat},
    (∀ s ∈ S, h'[s]? = h[s]?) → LinkedL h as p S ts → LinkedL h' as p S ts
  | [], _, _, _, _, h1 => h1
  | t :: ts, _, _, _, hs, ⟨b, bs, S1, S2, e, e2, h1, h2, h3⟩ => by
    subst e2
    exact ⟨b, bs, S1, S2, e, rfl, h1, Linked.congr (fun s hs' => hs s (by simp [hs'])) h2,
      LinkedL.congr (fun s hs' => hs s (by simp [hs'])) h3⟩
end

theorem Linked.root {h : Heap} {a : Nat} {p : Option Nat} {S : List Nat} {t : Ast} (hl : Linked h a p S t) :
    ∃ S' as, S = a :: S' ∧ a ∉ S' ∧ h[a]? = some ⟨t.info, as, p⟩ ∧ LinkedL h as (some a) S' t.nodes := by
  cases t with
  | node x ts =>
    obtain ⟨as, S', h1, e, h2, h3⟩ := hl
    exact ⟨S', as, e, h2, h1, h3⟩

theorem LinkedL.heads {h : Heap} {as : List Nat} {p : Option Nat} {S : List Nat} {ts : List Ast} (hl : LinkedL h as p S ts) :
    ∀ b ∈ as, b ∈ S := by
  induction ts generalizing as S with
  | nil => obtain ⟨rfl, rfl⟩ := hl; simp
  | cons t ts ih =>
    obtain ⟨b, bs, S1, S2, rfl, rfl, h1, h2, h3⟩ := hl
    intro c hc
    rcases List.mem_cons.mp hc with rfl | hc
    · obtain ⟨S', as, e, _⟩ := h2.root
      simp [e]
    · exact List.mem_append_right _ (ih h3 c hc)

/-- Changing the parent links of the roots of a list of trees. -/
theorem LinkedL.reparent {h h' : Heap} {p q : Option Nat} {ts : List Ast} {as : List Nat} {S : List Nat} (hl : LinkedL h as p S ts)
    (hin : ∀ s ∈ as, h'[s]? = h[s]?.map fun x => { x with parent := q }) (hout : ∀ s ∈ S, s ∉ as → h'[s]? = h[s]?) :
    LinkedL h' as q S ts := by
  induction ts generalizing as S with
  | nil => exact hl
  | cons t ts ih =>
    obtain ⟨b, bs, S1, S2, rfl, rfl, h1, h2, h3⟩ := hl
    refine ⟨b, bs, S1, S2, rfl, rfl, h1, ?_, ?_⟩
    · cases t with
      | node x ts' =>
        obtain ⟨cs, S', g1, rfl, g2, g3⟩ := h2
        refine ⟨cs, S', ?_, rfl, g2, LinkedL.congr ?_ g3⟩
        · rw [hin b (by simp), g1]; rfl
        · intro s hs
          refine hout s (by simp [hs]) ?_
          intro hc
          rcases List.mem_cons.mp hc with rfl | hc
          · exact g2 hs
          · exact h1 s (by simp [hs]) (h3.heads s hc)
    · refine ih h3 (fun s hs => hin s (by simp [hs])) ?_
      intro s hs hn
      refine hout s (by simp [hs]) ?_
      intro hc
      rcases List.mem_cons.mp hc with rfl | hc
      · obtain ⟨S', as, e, _⟩ := h2.root
        exact h1 s (by simp [e]) hs
      · exact hn hc

theorem LinkedL.snoc {h : Heap} {p : Option Nat} {ts : List Ast} {as : List Nat} {S S' : List Nat} {b : Nat} {t : Ast}
    (h1 : LinkedL h as p S ts) (h2 : Linked h b p S' t) (hd : ∀ s ∈ S, s ∉ S') : LinkedL h (as ++ [b]) p (S ++ S') (ts ++ [t]) := by
  induction ts generalizing as S with
  | nil =>
    obtain ⟨rfl, rfl⟩ := h1
    exact ⟨b, [], S', [], rfl, by simp, by simp, h2, rfl, rfl⟩
  | cons t' ts ih =>
    obtain ⟨c, cs, S1, S2, rfl, rfl, g1, g2, g3⟩ := h1
    refine ⟨c, cs ++ [b], S1, S2 ++ S', rfl, by simp, ?_, g2, ih g3 fun s hs => hd s (by simp [hs])⟩
    intro s hs hc
    rcases List.mem_append.mp hc with hc | hc
    · exact g1 s hs hc
    · exact hd s (by simp [hs]) hc

theorem setParents_get (h : Heap) (ns : List Nat) (p s : Nat) :
    (setParents h ns p)[s]? = if s ∈ ns then h[s]?.map fun x => { x with parent := some p } else h[s]? := by
  unfold setParents
  induction ns generalizing h with
  | nil => simp
  | cons n ns ih =>
    rw [List.foldl_cons, ih, List.getElem?_modify]
    by_cases hn : n = s
    · subst hn
      simp only [List.mem_cons, true_or, if_true]
      cases h[n]? <;> simp
    · have : ¬ s = n := fun h => hn h.symm
      cases h[s]? <;> simp [hn, this]

theorem setParents_length (h : Heap) (ns : List Nat) (p : Nat) : (setParents h ns p).length = h.length := by
  unfold setParents
  induction ns generalizing h with
  | nil => rfl
  | cons n ns ih => rw [List.foldl_cons, ih, List.length_modify]

theorem prefix_of_get {h h' : Heap} (hl : h.length ≤ h'.length) (hg : ∀ s, s < h.length → h'[s]? = h[s]?) : h <+: h' := by
  rw [List.prefix_iff_eq_take]
  refine List.ext_getElem? fun s => ?_
  by_cases hs : s < h.length
  · rw [List.getElem?_take_of_lt hs, hg s hs]
  · rw [List.getElem?_eq_none (by omega), List.getElem?_eq_none (by rw [List.length_take]; omega)]

theorem prefix_get {h h' : Heap} (hp : h <+: h') {s : Nat} (hs : s < h.length) : h'[s]? = h[s]? := by
  obtain ⟨r, rfl⟩ := hp
  exact List.getElem?_append_left hs

mutual
/-- Height of a tree. -/
def Ast.height : Ast → Nat
  | .node _ ts => 1 + Ast.heightL ts

def Ast.heightL : List Ast → Nat
  | [] => 0
  | t :: ts => max t.height (Ast.heightL ts)
end

/-- What one call of `optimize` guarantees. -/
structure OptRes (h : Heap) (p : Option Nat) (t : Ast) (a' : Nat) (h' : Heap) : Prop where
  old : h <+: h'
  tree : ∃ S, Linked h' a' p S t ∧ ∀ s ∈ S, h.length ≤ s ∧ s < h'.length

/-- **The optimiser on a heap.** -/
theorem optHeap_spec (o : Optim) : ∀ (n : Nat) (h : Heap) (a : Nat) (p : Option Nat) (t : Ast), Rep h a t → t.height ≤ n →
    ∃ a' h', optHeap o n h a p = some (a', h') ∧ OptRes h p (optTree o t) a' h' := by
  intro n
  induction n with
  | zero =>
    intro h a p t _ hh
    cases t
    simp only [Ast.height] at hh
    omega
  | succ n ih =>
    -- the loop over the children
    have kids : ∀ (ts : List Ast) (as : List Nat) (h0 h : Heap) (ast : Nat) (x : AInfo) (p : Option Nat) (done : List Ast)
        (ds S : List Nat), h0 <+: h → RepL h0 as ts → Ast.heightL ts ≤ n → h0.length = ast →
        h[ast]? = some ⟨x, ds, p⟩ → LinkedL h ds (some ast) S done → (∀ s ∈ S, ast < s ∧ s < h.length) →
        ∃ h', optKids (optHeap o n) ast h as = some (ast, h') ∧ h0 <+: h' ∧
          ∃ ds' S', h'[ast]? = some ⟨x, ds', p⟩ ∧ LinkedL h' ds' (some ast) S' (done ++ optTrees o ts) ∧
            ∀ s ∈ S', ast < s ∧ s < h'.length := by
      intro ts
      induction ts with
      | nil =>
        intro as h0 h ast x p done ds S hp hr _ _ hx hl hs
        obtain rfl : as = [] := hr
        exact ⟨h, rfl, hp, ds, S, hx, by simpa only [optTrees, List.append_nil] using hl, hs⟩
      | cons t ts iht =>
        intro as h0 h ast x p done ds S hp hr hh hast hx hl hs
        obtain ⟨b, bs, rfl, hb, hbs⟩ := hr
        simp only [Ast.heightL] at hh
        obtain ⟨c, h1, e1, r1, Sc, hc, hSc⟩ := ih h b (some ast) t (hb.mono hp) (by omega)
        have hxlt : ast < h.length := (List.getElem?_eq_some_iff.mp hx).1
        have hle := r1.length_le
        have hx1 : h1[ast]? = some ⟨x, ds, p⟩ := by rw [prefix_get r1 hxlt]; exact hx
        simp only [optKids, e1]
        generalize hh2 : h1.modify ast (fun x => { x with nodes := x.nodes ++ [c] }) = h2
        have hlen : h2.length = h1.length := by rw [← hh2, List.length_modify]
        have hget : ∀ s, s ≠ ast → h2[s]? = h1[s]? := by
          intro s hs'
          rw [← hh2, List.getElem?_modify]
          have : ¬ ast = s := fun e => hs' e.symm
          cases h1[s]? <;> simp [this]
        have hx2 : h2[ast]? = some ⟨x, ds ++ [c], p⟩ := by
          rw [← hh2, List.getElem?_modify, hx1]; simp
        have hp2 : h0 <+: h2 := by
          refine prefix_of_get (by have := hp.length_le; omega) fun s hs' => ?_
          rw [hget s (by omega), prefix_get r1 (by have := hp.length_le; omega), prefix_get hp hs']
        have hl2 : LinkedL h2 (ds ++ [c]) (some ast) (S ++ Sc) (done ++ [optTree o t]) := by
          refine LinkedL.snoc (LinkedL.congr ?_ hl) (Linked.congr ?_ hc) ?_
          · intro s hs'
            have := hs s hs'
            rw [hget s (by omega), prefix_get r1 (by omega)]
          · intro s hs'
            have := hSc s hs'
            exact hget s (by omega)
          · intro s hs' hc'
            have := hs s hs'
            have := hSc s hc'
            omega
        obtain ⟨h', e2, hp', ds', S', g1, g2, g3⟩ := iht bs h0 h2 ast x p (done ++ [optTree o t]) (ds ++ [c]) (S ++ Sc) hp2 hbs
          (by omega) hast hx2 hl2 (by
            intro s hs'
            rcases List.mem_append.mp hs' with hs' | hs'
            · have := hs s hs'; omega
            · have := hSc s hs'; omega)
        refine ⟨h', e2, hp', ds', S', g1, ?_, g3⟩
        simpa only [optTrees, List.append_assoc, List.cons_append, List.nil_append] using g2
    intro h a p t hr hh
    cases t with
    | node x ts =>
      obtain ⟨as, q, hx, has⟩ := hr
      simp only [Ast.height] at hh
      simp only [optHeap, hx]
      have keep : ¬ Collapsible o (.node x ts) → ∃ a' h', optKeep (optHeap o n) h ⟨x, as, q⟩ p = some (a', h') ∧
          OptRes h p (optTree o (.node x ts)) a' h' := by
        intro hc
        obtain ⟨h', e, hp', ds', S', g1, g2, g3⟩ := kids ts as h (h ++ [⟨x, [], p⟩]) h.length x p [] [] [] (List.prefix_append _ _)
          has (by omega) rfl (by simp) ⟨rfl, rfl⟩ (by simp)
        refine ⟨h.length, h', e, hp', h.length :: S', ?_, ?_⟩
        · rw [optTree_keep hc, ← optTrees_eq]
          exact ⟨ds', S', g1, rfl, fun hm => by have := g3 _ hm; omega, by simpa using g2⟩
        · intro s hs
          rcases List.mem_cons.mp hs with rfl | hs
          · exact ⟨Nat.le_refl _, (List.getElem?_eq_some_iff.mp g1).1⟩
          · have := g3 s hs; omega
      match ts, has with
      | [], has =>
        obtain rfl : as = [] := has
        exact keep (by simp [Collapsible, Ast.nodes])
      | [t], has =>
        obtain ⟨b, bs, rfl, hb, hbs⟩ := has
        obtain rfl : bs = [] := hbs
        simp only
        by_cases ho : o.opt x.name = true
        · rw [if_pos ho]
          simp only [Ast.heightL] at hh
          obtain ⟨ca, h1, e1, r1, Sc, hc, hSc⟩ := ih h b p t hb (by omega)
          obtain ⟨S', cs, rfl, hca, hcx, hkids⟩ := hc.root
          simp only [optCollapse, e1, hcx]
          refine ⟨h1.length, _, rfl, ?_, h1.length :: S', ?_, ?_⟩
          · refine prefix_of_get (by rw [setParents_length]; have := r1.length_le; simp; omega) fun s hs => ?_
            have hle := r1.length_le
            rw [setParents_get, if_neg ?_, List.getElem?_append_left (by omega), prefix_get r1 hs]
            intro hm
            have := hSc s (by simp [hkids.heads s hm])
            omega
          · rw [optTree_collapse ho]
            refine ⟨cs, S', ?_, rfl, ?_, LinkedL.reparent hkids ?_ ?_⟩
            · rw [setParents_get, if_neg ?_]
              · simp
              · intro hm
                have := hSc _ (List.mem_cons_of_mem _ (hkids.heads _ hm))
                omega
            · intro hm
              have := hSc _ (List.mem_cons_of_mem _ hm)
              omega
            · intro s hs
              have := hSc _ (List.mem_cons_of_mem _ (hkids.heads _ hs))
              rw [setParents_get, if_pos hs, List.getElem?_append_left (by omega)]
            · intro s hs hn
              have := hSc _ (List.mem_cons_of_mem _ hs)
              rw [setParents_get, if_neg hn, List.getElem?_append_left (by omega)]
          · intro s hs
            have hle := r1.length_le
            rw [setParents_length, List.length_append, List.length_singleton]
            rcases List.mem_cons.mp hs with rfl | hs
            · omega
            · have := hSc _ (List.mem_cons_of_mem _ hs); omega
        · rw [if_neg ho]
          exact keep fun hc => ho hc.1
      | t1 :: t2 :: ts, has =>
        obtain ⟨b1, bs1, rfl, hb1, b2, bs2, rfl, hb2, has2⟩ := has
        exact keep (by simp [Collapsible, Ast.nodes])

end Verif
