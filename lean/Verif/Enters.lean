import Verif.Accepted
/-!
# Which rules are entered where

`Enters cfg K t i r k`: while `t` is tried at position `i`, rule `r` may be entered at position `k`.  An expression is tried only
where everything before it has been derived (`Der`); alternatives, rounds of repetitions and lookaheads may always be tried.  This is
an over-approximation of the calls the engine makes (which tries an alternative only after the earlier ones have failed).
-/

namespace Verif

variable {V : Type}

mutual
/-- The expression and everything inside it (references have no arguments). -/
def Ope.nodes : Ope → List Ope
  | .seq es kw => .seq es kw :: Ope.nodesL es
  | .cho es l fs => .cho es l fs :: Ope.nodesL es
  | .rep e mn mx sp => (.rep e mn mx sp) :: e.nodes
  | .and_ e => (.and_ e) :: e.nodes
  | .not_ e => (.not_ e) :: e.nodes
  | .capScope e => (.capScope e) :: e.nodes
  | .cap nm e => (.cap nm e) :: e.nodes
  | .tok e => (.tok e) :: e.nodes
  | .ign e => (.ign e) :: e.nodes
  | e => [e]

def Ope.nodesL : List Ope → List Ope
  | [] => []
  | e :: es => e.nodes ++ Ope.nodesL es
end

mutual
theorem every_nodes {p : Ope → Bool} : ∀ (e : Ope), e.every p = true → ∀ x ∈ e.nodes, x.every p = true
  | .seq es kw, h, x, hx => by
    simp only [Ope.nodes, List.mem_cons] at hx
    rcases hx with rfl | hx
    · exact h
    · simp only [Ope.every, Bool.and_eq_true] at h; exact everyL_nodes es h.2 x hx
  | .cho es l fs, h, x, hx => by
    simp only [Ope.nodes, List.mem_cons] at hx
    rcases hx with rfl | hx
    · exact h
    · simp only [Ope.every, Bool.and_eq_true] at h; exact everyL_nodes es h.2 x hx
  | .rep e mn mx sp, h, x, hx => by
    simp only [Ope.nodes, List.mem_cons] at hx
    rcases hx with rfl | hx
    · exact h
    · simp only [Ope.every, Bool.and_eq_true] at h; exact every_nodes e h.2 x hx
  | .and_ e, h, x, hx => by
    simp only [Ope.nodes, List.mem_cons] at hx
    rcases hx with rfl | hx
    · exact h
    · simp only [Ope.every, Bool.and_eq_true] at h; exact every_nodes e h.2 x hx
  | .not_ e, h, x, hx => by
    simp only [Ope.nodes, List.mem_cons] at hx
    rcases hx with rfl | hx
    · exact h
    · simp only [Ope.every, Bool.and_eq_true] at h; exact every_nodes e h.2 x hx
  | .capScope e, h, x, hx => by
    simp only [Ope.nodes, List.mem_cons] at hx
    rcases hx with rfl | hx
    · exact h
    · simp only [Ope.every, Bool.and_eq_true] at h; exact every_nodes e h.2 x hx
  | .cap nm e, h, x, hx => by
    simp only [Ope.nodes, List.mem_cons] at hx
    rcases hx with rfl | hx
    · exact h
    · simp only [Ope.every, Bool.and_eq_true] at h; exact every_nodes e h.2 x hx
  | .tok e, h, x, hx => by
    simp only [Ope.nodes, List.mem_cons] at hx
    rcases hx with rfl | hx
    · exact h
    · simp only [Ope.every, Bool.and_eq_true] at h; exact every_nodes e h.2 x hx
  | .ign e, h, x, hx => by
    simp only [Ope.nodes, List.mem_cons] at hx
    rcases hx with rfl | hx
    · exact h
    · simp only [Ope.every, Bool.and_eq_true] at h; exact every_nodes e h.2 x hx
  | .dict .., h, x, hx => by simp only [Ope.nodes, List.mem_singleton] at hx; subst hx; exact h
  | .lit .., h, x, hx => by simp only [Ope.nodes, List.mem_singleton] at hx; subst hx; exact h
  | .cls _, h, x, hx => by simp only [Ope.nodes, List.mem_singleton] at hx; subst hx; exact h
  | .chr _, h, x, hx => by simp only [Ope.nodes, List.mem_singleton] at hx; subst hx; exact h
  | .dot, h, x, hx => by simp only [Ope.nodes, List.mem_singleton] at hx; subst hx; exact h
  | .ref .., h, x, hx => by simp only [Ope.nodes, List.mem_singleton] at hx; subst hx; exact h
  | .usr _, h, x, hx => by simp only [Ope.nodes, List.mem_singleton] at hx; subst hx; exact h
  | .weak _, h, x, hx => by simp only [Ope.nodes, List.mem_singleton] at hx; subst hx; exact h
  | .param .., h, x, hx => by simp only [Ope.nodes, List.mem_singleton] at hx; subst hx; exact h
  | .ws _, h, x, hx => by simp only [Ope.nodes, List.mem_singleton] at hx; subst hx; exact h
  | .bref _, h, x, hx => by simp only [Ope.nodes, List.mem_singleton] at hx; subst hx; exact h
  | .prec .., h, x, hx => by simp only [Ope.nodes, List.mem_singleton] at hx; subst hx; exact h
  | .recov .., h, x, hx => by simp only [Ope.nodes, List.mem_singleton] at hx; subst hx; exact h
  | .cut, h, x, hx => by simp only [Ope.nodes, List.mem_singleton] at hx; subst hx; exact h
  | .null, h, x, hx => by simp only [Ope.nodes, List.mem_singleton] at hx; subst hx; exact h

theorem everyL_nodes {p : Ope → Bool} : ∀ (es : List Ope), Ope.everyL p es = true → ∀ x ∈ Ope.nodesL es, x.every p = true
  | [], _, x, hx => by cases hx
  | e :: es, h, x, hx => by
    simp only [Ope.everyL, Bool.and_eq_true] at h
    simp only [Ope.nodesL, List.mem_append] at hx
    exact hx.elim (every_nodes e h.1 x) (everyL_nodes es h.2 x)
end

mutual
theorem nodes_ok {L : Lg} : ∀ (e : Ope), e.Ok L → ∀ x ∈ e.nodes, x.Ok L
  | .seq es kw, h, x, hx => by
    simp only [Ope.nodes, List.mem_cons] at hx
    rcases hx with rfl | hx
    · exact h
    · simp only [Ope.Ok] at h; exact nodesL_ok es h.2 x hx
  | .cho es l fs, h, x, hx => by
    simp only [Ope.nodes, List.mem_cons] at hx
    rcases hx with rfl | hx
    · exact h
    · simp only [Ope.Ok] at h; exact nodesL_ok es h x hx
  | .rep e mn mx sp, h, x, hx => by
    simp only [Ope.nodes, List.mem_cons] at hx
    rcases hx with rfl | hx
    · exact h
    · simp only [Ope.Ok] at h; exact nodes_ok e h.2 x hx
  | .and_ e, h, x, hx => by
    simp only [Ope.nodes, List.mem_cons] at hx
    rcases hx with rfl | hx
    · exact h
    · simp only [Ope.Ok] at h; exact nodes_ok e h x hx
  | .not_ e, h, x, hx => by
    simp only [Ope.nodes, List.mem_cons] at hx
    rcases hx with rfl | hx
    · exact h
    · simp only [Ope.Ok] at h; exact nodes_ok e h x hx
  | .capScope e, h, x, hx => by
    simp only [Ope.nodes, List.mem_cons] at hx
    rcases hx with rfl | hx
    · exact h
    · simp only [Ope.Ok] at h; exact nodes_ok e h x hx
  | .cap nm e, h, x, hx => by
    simp only [Ope.nodes, List.mem_cons] at hx
    rcases hx with rfl | hx
    · exact h
    · simp only [Ope.Ok] at h; exact nodes_ok e h x hx
  | .tok e, h, x, hx => by
    simp only [Ope.nodes, List.mem_cons] at hx
    rcases hx with rfl | hx
    · exact h
    · simp only [Ope.Ok] at h; exact nodes_ok e h x hx
  | .ign e, h, x, hx => by
    simp only [Ope.nodes, List.mem_cons] at hx
    rcases hx with rfl | hx
    · exact h
    · simp only [Ope.Ok] at h; exact nodes_ok e h x hx
  | .dict .., h, x, hx => by simp only [Ope.nodes, List.mem_singleton] at hx; subst hx; exact h
  | .lit .., h, x, hx => by simp only [Ope.nodes, List.mem_singleton] at hx; subst hx; exact h
  | .cls _, h, x, hx => by simp only [Ope.nodes, List.mem_singleton] at hx; subst hx; exact h
  | .chr _, h, x, hx => by simp only [Ope.nodes, List.mem_singleton] at hx; subst hx; exact h
  | .dot, h, x, hx => by simp only [Ope.nodes, List.mem_singleton] at hx; subst hx; exact h
  | .ref .., h, x, hx => by simp only [Ope.nodes, List.mem_singleton] at hx; subst hx; exact h
  | .usr _, h, x, hx => by simp only [Ope.nodes, List.mem_singleton] at hx; subst hx; exact h
  | .weak _, h, x, hx => by simp only [Ope.nodes, List.mem_singleton] at hx; subst hx; exact h
  | .param .., h, x, hx => by simp only [Ope.nodes, List.mem_singleton] at hx; subst hx; exact h
  | .ws _, h, x, hx => by simp only [Ope.nodes, List.mem_singleton] at hx; subst hx; exact h
  | .bref _, h, x, hx => by simp only [Ope.nodes, List.mem_singleton] at hx; subst hx; exact h
  | .prec .., h, x, hx => by simp only [Ope.nodes, List.mem_singleton] at hx; subst hx; exact h
  | .recov .., h, x, hx => by simp only [Ope.nodes, List.mem_singleton] at hx; subst hx; exact h
  | .cut, h, x, hx => by simp only [Ope.nodes, List.mem_singleton] at hx; subst hx; exact h
  | .null, h, x, hx => by simp only [Ope.nodes, List.mem_singleton] at hx; subst hx; exact h

theorem nodesL_ok {L : Lg} : ∀ (es : List Ope), Ope.OkL L es → ∀ x ∈ Ope.nodesL es, x.Ok L
  | [], _, x, hx => by cases hx
  | e :: es, h, x, hx => by
    simp only [Ope.nodesL, List.mem_append] at hx
    exact hx.elim (nodes_ok e h.1 x) (nodesL_ok es h.2 x)
end

mutual
theorem holeFree_clean {z : Ope → Bool} {t : Nat → Bool} : ∀ (e : Ope), e.every (cleanNode z t) = true → holeFree z t e = true
  | .seq es kw, hc => by simp only [Ope.every, Bool.and_eq_true] at hc; simp only [holeFree]; exact holeFreeL_clean es hc.2
  | .cho es _ _, hc => by simp only [Ope.every, Bool.and_eq_true] at hc; simp only [holeFree]; exact holeFreeL_clean es hc.2
  | .rep e mn _ _, hc => by
    simp only [Ope.every, Bool.and_eq_true, cleanNode, Bool.or_eq_true] at hc
    simp only [holeFree, Bool.or_eq_true, Bool.and_eq_true]
    exact hc.1.imp id fun h => ⟨h, holeFree_clean e hc.2⟩
  | .and_ e, hc => rfl
  | .not_ e, hc => rfl
  | .capScope e, hc => by simp only [Ope.every, Bool.and_eq_true] at hc; simp only [holeFree]; exact holeFree_clean e hc.2
  | .cap nm e, hc => by simp only [Ope.every, Bool.and_eq_true] at hc; simp only [holeFree]; exact holeFree_clean e hc.2
  | .tok e, hc => by simp only [Ope.every, Bool.and_eq_true] at hc; simp only [holeFree]; exact holeFree_clean e hc.2
  | .ign e, hc => by simp only [Ope.every, Bool.and_eq_true] at hc; simp only [holeFree]; exact holeFree_clean e hc.2
  | .dict .., _ => rfl
  | .lit .., _ => rfl
  | .cls _, hc => by simpa only [Ope.every, cleanNode, holeFree] using hc
  | .chr _, hc => by simpa only [Ope.every, cleanNode, holeFree] using hc
  | .dot, hc => by simpa only [Ope.every, cleanNode, holeFree] using hc
  | .ref .., _ => rfl
  | .usr _, hc => by simp [Ope.every, cleanNode] at hc
  | .weak _, hc => by simp [Ope.every, cleanNode] at hc
  | .param .., hc => by simp [Ope.every, cleanNode] at hc
  | .ws _, hc => by simp [Ope.every, cleanNode] at hc
  | .bref _, hc => by simp [Ope.every, cleanNode] at hc
  | .prec .., hc => by simp [Ope.every, cleanNode] at hc
  | .recov .., hc => by simp [Ope.every, cleanNode] at hc
  | .cut, hc => by simp [Ope.every, cleanNode] at hc
  | .null, hc => by simp [Ope.every, cleanNode] at hc

theorem holeFreeL_clean {z : Ope → Bool} {t : Nat → Bool} : ∀ (es : List Ope), Ope.everyL (cleanNode z t) es = true →
    holeFreeL z t es = true
  | [], _ => rfl
  | e :: es, hc => by
    simp only [Ope.everyL, Bool.and_eq_true] at hc
    simp only [holeFreeL, holeFree_clean e hc.1, holeFreeL_clean es hc.2, Bool.and_self]
end

inductive Enters (cfg : Cfg V) (K : DCtx) : DTask V → Nat → Nat → Nat → Prop where
  -- rules
  | ref {r nm as i} : Enters cfg K (.ope (.ref r nm as)) i r i
  | inside {q d nm as i r k} : cfg.rules[q]? = some d → Enters cfg K (.ope d.ope) i r k → Enters cfg K (.ope (.ref q nm as)) i r k
  | ruleSkip {q d nm as c i f j f' r k} : cfg.rules[q]? = some d → d.noWs = true → Der cfg K ⟨c, []⟩ (.ope d.ope) i f j f' →
      Enters cfg K .skip j r k → Enters cfg K (.ope (.ref q nm as)) i r k
  -- sequences, choices, repetitions
  | seq {es kw i r k} : Enters cfg K (.seqL es) i r k → Enters cfg K (.ope (.seq es kw)) i r k
  | head {e es i r k} : Enters cfg K (.ope e) i r k → Enters cfg K (.seqL (e :: es)) i r k
  | tail {e es c i f j f' r k} : Der cfg K ⟨c, []⟩ (.ope e) i f j f' → Enters cfg K (.seqL es) j r k →
      Enters cfg K (.seqL (e :: es)) i r k
  | cho {es l fs e i r k} : e ∈ es → Enters cfg K (.ope e) i r k → Enters cfg K (.ope (.cho es l fs)) i r k
  | rep {e mn mx sp n c i f j f' r k} : Der cfg K ⟨c, []⟩ (.reps e n) i f j f' → Enters cfg K (.ope e) j r k →
      Enters cfg K (.ope (.rep e mn mx sp)) i r k
  -- operators around one expression
  | and {e i r k} : Enters cfg K (.ope e) i r k → Enters cfg K (.ope (.and_ e)) i r k
  | not {e i r k} : Enters cfg K (.ope e) i r k → Enters cfg K (.ope (.not_ e)) i r k
  | capScope {e i r k} : Enters cfg K (.ope e) i r k → Enters cfg K (.ope (.capScope e)) i r k
  | cap {nm e i r k} : Enters cfg K (.ope e) i r k → Enters cfg K (.ope (.cap nm e)) i r k
  | ign {e i r k} : Enters cfg K (.ope e) i r k → Enters cfg K (.ope (.ign e)) i r k
  | tok {e i r k} : Enters cfg K (.ope e) i r k → Enters cfg K (.ope (.tok e)) i r k
  -- white space after tokens
  | tokSkip {e c i f j f' r k} : Der cfg K ⟨c, []⟩ (.ope e) i f j f' → Enters cfg K .skip j r k → Enters cfg K (.ope (.tok e)) i r k
  | lit {s ic i r k} : litMatch s ic (cfg.rest i) = true → Enters cfg K .skip (i + s.length) r k → Enters cfg K (.ope (.lit s ic)) i r k
  | dict {wl ic n c i r k} : (Trie.build wl ic).matchText (cfg.rest i) = (n, c) → n ≠ 0 → Enters cfg K .skip (i + n) r k →
      Enters cfg K (.ope (.dict wl ic)) i r k
  | skip {e i r k} : cfg.ws = some (.ws e) → Enters cfg K (.ope e) i r k → Enters cfg K .skip i r k

/-- Rule `r` may be called where an expression starts. -/
def LeftIn (rules : List Def) (t : Nat → Bool) (ls : List Nat) (r : Nat) : Prop := ∃ q ∈ ls, q = r ∨ LeftReach rules t q r

theorem LeftIn.mono {rules : List Def} {t : Nat → Bool} {ls ls' : List Nat} {r : Nat} (h : LeftIn rules t ls r)
    (hs : ∀ q ∈ ls, q ∈ ls') : LeftIn rules t ls' r := let ⟨q, h1, h2⟩ := h; ⟨q, hs q h1, h2⟩

theorem leftsCho_mem {t : Nat → Bool} {es : List Ope} {e : Ope} (he : e ∈ es) : ∀ q ∈ lefts t e, q ∈ leftsCho t es := by
  induction es with
  | nil => cases he
  | cons a es ih =>
    intro q hq
    rw [leftsCho]
    rcases List.mem_cons.mp he with rfl | he
    · exact List.mem_append_left _ hq
    · exact List.mem_append_right _ (ih he q hq)

/-- The expressions a task consists of. -/
def DTask.all (p : Ope → Bool) : DTask V → Prop
  | .ope e => e.every p = true
  | .seqL es => Ope.everyL p es = true
  | _ => True

/-- What an entry at the starting position says. -/
def LeftTask (rules : List Def) (t : Nat → Bool) (r : Nat) : DTask V → Prop
  | .ope e => LeftIn rules t (lefts t e) r
  | .seqL es => LeftIn rules t (leftsSeq t es) r
  | _ => True

theorem everyL_mem {p : Ope → Bool} {es : List Ope} {e : Ope} (h : Ope.everyL p es = true) (he : e ∈ es) : e.every p = true := by
  induction es with
  | nil => cases he
  | cons a es ih =>
    simp only [Ope.everyL, Bool.and_eq_true] at h
    rcases List.mem_cons.mp he with rfl | he
    · exact h.1
    · exact ih h.2 he

/-- No white space is skipped before something has been consumed. -/
def noEarlySkip (t : Nat → Bool) : Ope → Bool
  | .lit s _ => !s.isEmpty
  | .tok e => !cbe t e
  | _ => true

/-- What the entry theorem needs of a grammar. -/
structure EntHyp (cfg : Cfg V) (L : Lg) (z : Ope → Bool) (t : Nat → Bool) : Prop where
  der : DHyp cfg L
  zero : ∀ i e g, L.al i → e.single = some g → g (cfg.rest i) = some 0 → z e = true
  fix : ∀ (r : Nat) (d : Def), cfg.rules[r]? = some d → t r = cbe t d.ope
  clean : ∀ (r : Nat) (d : Def), cfg.rules[r]? = some d → d.ope.every (cleanNode z t) = true
  /-- if white space is skipped, then only after something has been consumed -/
  skip : cfg.ws ≠ none → ∀ (r : Nat) (d : Def), cfg.rules[r]? = some d → d.ope.every (noEarlySkip t) = true ∧ (d.noWs = true → t r = false)
  ws : ∀ e, cfg.ws = some (.ws e) → e.every (cleanNode z t) = true ∧ e.every (noEarlySkip t) = true

theorem clean_bodyOk {L : Lg} {z : Ope → Bool} {t : Nat → Bool} {e : Ope} (hb : BodyOk L e) (hc : e.every (cleanNode z t) = true) :
    e.Ok L := by
  rcases hb with h | ⟨a, b, info, q, rfl, -, -⟩
  · exact h
  · simp only [Ope.every, cleanNode, Bool.false_and, Bool.false_eq_true] at hc

section
variable {cfg : Cfg V} {L : Lg} {z : Ope → Bool} {t : Nat → Bool}

theorem EntHyp.tbl (H : EntHyp cfg L z t) (r : Nat) (d : Def) (hd : cfg.rules[r]? = some d) (hm : mayEmpty z t d.ope = true) :
    t r = true := by
  rw [H.fix r d hd]
  exact mayEmpty_cbe _ (holeFree_clean _ (H.clean r d hd)) hm

theorem EntHyp.empty (H : EntHyp cfg L z t) {c : Option Nat} {e : Ope} {i : Nat} {f f' : Frame V} (ho : e.Ok L) (hi : L.al i)
    (hc : e.every (cleanNode z t) = true) (h : Der cfg L.K ⟨c, []⟩ (.ope e) i f i f') : cbe t e = true :=
  mayEmpty_cbe _ (holeFree_clean _ hc) (Der.empty H.der H.zero H.tbl h (by intro e he; cases he) (.inl ho) hi rfl)

theorem EntHyp.al (H : EntHyp cfg L z t) {c : Option Nat} {tk : DTask V} {i j : Nat} {f f' : Frame V} (ho : tk.Ok L) (hi : L.al i)
    (h : Der cfg L.K ⟨c, []⟩ tk i f j f') : L.al j := H.der.closed _ _ _ _ _ _ (by intro e he; cases he) ho hi h

/-- **Entries move right**, and those at the starting position are the ones `lefts` lists. -/
theorem Enters.left (H : EntHyp cfg L z t) {tk : DTask V} {i r k : Nat} (h : Enters cfg L.K tk i r k) (ho : tk.Ok L) (hi : L.al i)
    (hc : tk.all (cleanNode z t)) (hs : cfg.ws ≠ none → tk.all (noEarlySkip t)) : i ≤ k ∧ (k = i → LeftTask cfg.rules t r tk) := by
  induction h with
  | ref => exact ⟨Nat.le_refl _, fun _ => ⟨_, List.mem_singleton.mpr rfl, .inl rfl⟩⟩
  | inside hd h ih =>
    rename_i q d nm as i r k
    have hcl := H.clean q d hd
    obtain ⟨h1, h2⟩ := ih (H.der.body q d hd) hi hcl (fun hw => (H.skip hw q d hd).1)
    refine ⟨h1, fun e => ?_⟩
    obtain ⟨p, hp, hr⟩ := h2 e
    refine ⟨q, List.mem_singleton.mpr rfl, .inr ?_⟩
    rcases hr with rfl | hr
    · exact .edge hd hp
    · exact .trans (.edge hd hp) hr
  | ruleSkip hd hn hD h ih =>
    rename_i q d nm as c i f j f' r k
    have hcl := H.clean q d hd
    have hok := clean_bodyOk (H.der.body q d hd) hcl
    obtain ⟨h1, -⟩ := ih trivial (H.al (tk := .ope d.ope) (H.der.body q d hd) hi hD) trivial (fun _ => trivial)
    have hle := hD.le
    have hlt : i < j := by
      rcases Nat.lt_or_ge i j with h' | h'
      · exact h'
      · have : j = i := by omega
        subst this
        have hw : cfg.ws ≠ none := by intro e; cases h with | skip h' _ => rw [e] at h'; cases h'
        have := H.empty hok hi hcl hD
        rw [← H.fix q d hd, (H.skip hw q d hd).2 hn] at this; cases this
    exact ⟨by omega, fun e => by omega⟩
  | seq h ih =>
    rename_i es kw i r k
    exact ih (by rcases ho with ho | ⟨_, _, _, _, e, _⟩; exact ho.2; cases e) hi
      (by simp only [DTask.all, Ope.every, Bool.and_eq_true] at hc ⊢; exact hc.2)
      (fun hw => by have := hs hw; simp only [DTask.all, Ope.every, Bool.and_eq_true] at this ⊢; exact this.2)
  | head h ih =>
    rename_i e es i r k
    simp only [DTask.all, Ope.everyL, Bool.and_eq_true] at hc hs
    obtain ⟨h1, h2⟩ := ih (.inl ho.1) hi hc.1 (fun hw => (hs hw).1)
    exact ⟨h1, fun e => (h2 e).mono fun q hq => by rw [leftsSeq]; exact List.mem_append_left _ hq⟩
  | tail hD h ih =>
    rename_i e es c i f j f' r k
    simp only [DTask.all, Ope.everyL, Bool.and_eq_true] at hc hs
    have hle := hD.le
    obtain ⟨h1, h2⟩ := ih ho.2 (H.al (tk := .ope e) (.inl ho.1) hi hD) hc.2 (fun hw => (hs hw).2)
    refine ⟨by omega, fun e' => ?_⟩
    have hji : j = i := by omega
    subst hji
    have := H.empty ho.1 hi hc.1 hD
    exact (h2 e').mono fun q hq => by rw [leftsSeq, if_pos this]; exact List.mem_append_right _ hq
  | cho he h ih =>
    rename_i es l fs e i r k
    simp only [DTask.all, Ope.every, Bool.and_eq_true] at hc hs
    obtain ⟨h1, h2⟩ := ih (by rcases ho with ho | ⟨_, _, _, _, e, _⟩; exact .inl (okL_iff.mp ho e he); cases e) hi
      (everyL_mem hc.2 he) (fun hw => everyL_mem (hs hw).2 he)
    exact ⟨h1, fun e => (h2 e).mono (leftsCho_mem he)⟩
  | rep hD h ih =>
    rename_i e mn mx sp n c i f j f' r k
    simp only [DTask.all, Ope.every, Bool.and_eq_true] at hc hs
    have hok : e.Ok L := by rcases ho with ho | ⟨_, _, _, _, e, _⟩; exact ho.2; cases e
    have hle := hD.le
    obtain ⟨h1, h2⟩ := ih (.inl hok) (H.al (tk := .reps e n) hok hi hD) hc.2 (fun hw => (hs hw).2)
    refine ⟨by omega, fun e' => ?_⟩
    have hji : j = i := by omega
    subst hji
    exact h2 e'
  | and h ih | not h ih | capScope h ih | cap h ih | ign h ih | tok h ih =>
    simp only [DTask.all, Ope.every, Bool.and_eq_true] at hc hs
    exact ih (by rcases ho with ho | ⟨_, _, _, _, e, _⟩; exact .inl ho; cases e) hi hc.2 (fun hw => (hs hw).2)
  | tokSkip hD h ih =>
    rename_i e c i f j f' r k
    simp only [DTask.all, Ope.every, Bool.and_eq_true, noEarlySkip] at hc hs
    have hok : e.Ok L := by rcases ho with ho | ⟨_, _, _, _, e, _⟩; exact ho; cases e
    have hle := hD.le
    obtain ⟨h1, -⟩ := ih trivial (H.al (tk := .ope e) (.inl hok) hi hD) trivial (fun _ => trivial)
    have hlt : i < j := by
      rcases Nat.lt_or_ge i j with h' | h'
      · exact h'
      · have : j = i := by omega
        subst this
        have hw : cfg.ws ≠ none := by intro e; cases h with | skip h' _ => rw [e] at h'; cases h'
        have h3 := H.empty hok hi hc.2 hD
        have h4 := (hs hw).1
        rw [h3] at h4; cases h4
    exact ⟨by omega, fun e => by omega⟩
  | lit hm h ih =>
    rename_i s ic i r k
    have hw : cfg.ws ≠ none := by intro e; cases h with | skip h' _ => rw [e] at h'; cases h'
    have hD : Der cfg L.K ⟨none, []⟩ (.ope (.lit s ic)) i {} (i + s.length) {} := .lit hm .noSkip
    obtain ⟨h1, -⟩ := ih trivial (H.al ho hi hD) trivial (fun _ => trivial)
    have h3 := hs hw
    simp only [DTask.all, Ope.every, noEarlySkip, Bool.not_eq_true', List.isEmpty_eq_false_iff] at h3
    have := List.length_pos_iff.mpr h3
    exact ⟨by omega, fun e => by omega⟩
  | dict hm hn h ih =>
    rename_i wl ic n c i r k
    have hD : Der cfg L.K ⟨none, []⟩ (.ope (.dict wl ic)) i {} (i + n) _ := .dict hm hn .noSkip
    obtain ⟨h1, -⟩ := ih trivial (H.al ho hi hD) trivial (fun _ => trivial)
    exact ⟨by omega, fun e => by omega⟩
  | skip hw h ih =>
    rename_i e i r k
    obtain ⟨k1, k2⟩ := H.ws _ hw
    exact ⟨(ih (.inl (by have := (H.der.ws _ hw).1; simpa only [Ope.Ok] using this)) hi k1 (fun _ => k2)).1, fun _ => trivial⟩

/-- A rule that cannot call itself at its start is not entered again where it is being evaluated. -/
theorem Enters.not_again (H : EntHyp cfg L z t) {r : Nat} {d : Def} (hd : cfg.rules[r]? = some d)
    (hl : ¬ LeftReach cfg.rules t r r) {i : Nat} (hi : L.al i) : ¬ Enters cfg L.K (.ope d.ope) i r i := by
  intro h
  obtain ⟨p, hp, hr⟩ := (h.left H (H.der.body r d hd) hi (H.clean r d hd) (fun hw => (H.skip hw r d hd).1)).2 rfl
  rcases hr with rfl | hr
  · exact hl (.edge hd hp)
  · exact hl (.trans (.edge hd hp) hr)

end

end Verif
