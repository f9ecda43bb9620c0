import Verif.PrecPeg
import Verif.Props.Refine
/-!
# C34: precedence climbing builds the right tree

The specification is `ETree.Respects` (PrecTree) and the flat reading of the input as operands and operators (`Reads` below).
-/

namespace Verif.Props
open Verif CharClass

variable {V : Type} {P : PX V}

/-- The input from `i` to `j` is the operand `x` followed by the operators and operands `l`. -/
def Reads (P : PX V) (i : Nat) (κ : Caps) (x : Piece V) (l : List (OpInfo (Piece V) × Piece V)) (j : Nat) (κ' : Caps) : Prop :=
  x.start = i ∧ ∃ κ1, P.Operand x κ κ1 ∧ P.Tail x.stop κ1 l j κ'

/-- No operator of the table follows. -/
def NoOperator (P : PX V) (j : Nat) (κ : Caps) : Prop := ∀ o κ', o.data.start = j → ¬ P.Operator o κ κ'

/-- **C34**: for every sequence of operands and operators there is exactly one tree that respects levels and associativity. -/
theorem C34_one_tree {α ω : Type} (x : α) (l : List (OpInfo ω × α)) :
    ∃ t : ETree α ω, (t.Respects ∧ t.first = x ∧ t.tail = l) ∧ ∀ u : ETree α ω, u.Respects → u.first = x → u.tail = l → u = t :=
  ETree.exists_unique x l

/-- **C34**: if a precedence expression matches `[i, j)`, then the input is read as operands and operators from `i` to `j`, no further
operator of the table follows, and the value is that of the tree that respects levels and associativity. -/
theorem C34_value_is_that_of_the_tree (hP : P.Ok) {i j : Nat} {κ : Caps} {c : Bool} {s : PSt V}
    (h : Peg P.G P.v P.m (.ope P.ope) i ⟨κ, {}⟩ (.ok j c s)) :
    ∃ t : ETree (Piece V) (Piece V), Reads P i κ t.first t.tail j s.caps ∧ NoOperator P j s.caps ∧ t.Respects ∧
      s.vs.vals = [P.value t] ∧ ∀ u : ETree (Piece V) (Piece V), u.Respects → u.first = t.first → u.tail = t.tail → u = t := by
  have h' : Peg P.G P.v P.m (.prec (.ref P.a P.anm []) (.ref P.q P.nm []) P.info P.r 0) i ⟨κ, {}⟩ (.ok j c s) := by
    cases h with
    | one_ok h => simp [PX.ope, Ope.single] at h
    | prec h => exact h
  obtain ⟨t, κ1, sv, h1, h2, h3, h4, -, h6, h7⟩ := PX.says_all h' rfl hP rfl rfl rfl rfl rfl rfl rfl
  exact ⟨t, ⟨h1, κ1, h2, h3⟩, fun o κ' ho hop => Nat.not_lt_zero _ (h7 o κ' ho hop), h4, by rw [h6]; rfl,
    fun u k1 k2 k3 => ETree.respects_unique k1 h4 k2 k3⟩

/-- **C34**: conversely, if the input can be read as operands and operators from `i` to `j`, and what follows is no operator of the
table, then the expression matches `[i, j)` with the value of the tree that respects levels and associativity. -/
theorem C34_every_sequence_is_parsed (hP : P.Ok) {i j : Nat} {κ κ' : Caps} {x : Piece V} {l : List (OpInfo (Piece V) × Piece V)}
    (h : Reads P i κ x l j κ') (hj : P.Halts 0 j κ') (t : ETree (Piece V) (Piece V)) (ht : t.Respects) (hx : t.first = x)
    (hl : t.tail = l) : ∃ c s, Peg P.G P.v P.m (.ope P.ope) i ⟨κ, {}⟩ (.ok j c s) ∧ s.caps = κ' ∧ s.vs.vals = [P.value t] := by
  subst hx hl
  obtain ⟨rfl, κ1, h1, h2⟩ := h
  have hmono : ∀ n, P.Halts n j κ' := by
    intro n
    rcases hj with h | ⟨h, h' | ⟨k, cb, sb, c, s1, a, b, d⟩⟩
    · exact .inl h
    · exact .inr ⟨h, .inl h'⟩
    · exact .inr ⟨h, .inr ⟨k, cb, sb, c, s1, a, b, fun l as e => absurd (d l as e) (Nat.not_lt_zero _)⟩⟩
  obtain ⟨sv, key⟩ := PX.climb hP t 0 κ κ1 κ' j ht (fun _ _ => Nat.zero_le _) h1 h2 (fun o _ => hmono _)
  obtain ⟨c0, hloop⟩ := (hmono 0).loop hP (s := ⟨κ', P.frame t sv⟩) (start := t.first.start)
  obtain ⟨c, hp⟩ := key _ hloop
  exact ⟨c || c0, ⟨κ', P.frame t sv⟩, .prec hp, rfl, rfl⟩

/-- **C34**: the expression fails only if there is no operand, or an operator of the table without an operand on its right. -/
theorem C34_fails_only_without_operand (hP : P.Ok) {i : Nat} {κ : Caps} {c : Bool}
    (h : Peg P.G P.v P.m (.ope P.ope) i ⟨κ, {}⟩ (.fail c)) :
    P.NoOperand i κ ∨ ∃ x l j κ', Reads P i κ x l j κ' ∧ P.Dangling j κ' := by
  have h' : Peg P.G P.v P.m (.prec (.ref P.a P.anm []) (.ref P.q P.nm []) P.info P.r 0) i ⟨κ, {}⟩ (.fail c) := by
    cases h with
    | one_fail h => simp [PX.ope, Ope.single] at h
    | prec h => exact h
  rcases PX.says_all h' rfl hP rfl rfl rfl rfl rfl rfl rfl with h | ⟨x, κ1, l, j, κ', h1, h2, h3, h4⟩
  · exact .inl h
  · exact .inr ⟨x, l, j, κ', ⟨h1, κ1, h2, h3⟩, h4⟩

theorem operand_det {x y : Piece V} {κ κ1 κ2 : Caps} (hs : x.start = y.start) (h : P.Operand x κ κ1) (h' : P.Operand y κ κ2) :
    x = y ∧ κ1 = κ2 := by
  obtain ⟨c, h⟩ := h
  obtain ⟨c', h'⟩ := h'
  rw [hs] at h
  have e := h.det h'
  simp only [PRes.ok.injEq, PSt.mk.injEq, Frame.mk.injEq, List.cons.injEq, and_true] at e
  obtain ⟨e1, -, e3, e4⟩ := e
  cases x; cases y
  simp only at hs e1 e4
  exact ⟨by rw [hs, e1, e4], e3⟩

theorem operator_det {x y : OpInfo (Piece V)} {κ κ1 κ2 : Caps} (hs : x.data.start = y.data.start) (h : P.Operator x κ κ1)
    (h' : P.Operator y κ κ2) : x = y ∧ κ1 = κ2 := by
  obtain ⟨-, cb, sb, c, as, a1, a2, a3, a4⟩ := h
  obtain ⟨-, cb', sb', c', as', b1, b2, b3, b4⟩ := h'
  rw [hs] at a1 a2 a3
  have e := a2.det b2
  simp only [PRes.ok.injEq, PSt.mk.injEq, Frame.mk.injEq, List.cons.injEq, and_true] at e
  obtain ⟨e1, -, e3, e4⟩ := e
  have e' := a1.det b1
  simp only [PRes.ok.injEq] at e'
  rw [e1, e'.2.2, b3] at a3
  simp only [Option.some.injEq, Prod.mk.injEq] at a3
  rw [← a3.2, ← b4] at a4
  rcases x with ⟨_, _, _, _, _⟩
  rcases y with ⟨_, _, _, _, _⟩
  simp only at hs e1 e4 a3 a4
  exact ⟨by rw [hs, e1, e4, a3.1, a4], e3⟩

/-- A flat reading passes over another one. -/
theorem tail_past {i j k : Nat} {κ κ1 κ2 : Caps} {l l' : List (OpInfo (Piece V) × Piece V)} (h : P.Tail i κ l j κ1)
    (hd : P.Dangling j κ1) (h' : P.Tail i κ l' k κ2) (hn : NoOperator P k κ2) : False := by
  induction h generalizing l' with
  | nil =>
    obtain ⟨o, κ', ho, hop, c, hno⟩ := hd
    cases h' with
    | nil => exact hn o κ' ho hop
    | cons a b c' d e =>
      obtain ⟨rfl, rfl⟩ := operator_det (a.trans ho.symm) b hop
      obtain ⟨c2, d⟩ := d
      rw [c'] at d
      cases hno.det d
  | cons a b c d _ ih =>
    cases h' with
    | nil => exact hn _ _ a b
    | cons a' b' c' d' e' =>
      obtain ⟨rfl, rfl⟩ := operator_det (a.trans a'.symm) b b'
      obtain ⟨rfl, rfl⟩ := operand_det (c.trans c'.symm) d d'
      exact ih hd e'

/-- **C34**: an operator of the table without an operand on its right makes the whole expression fail: the operands and operators in
front of it are not accepted either. -/
theorem C34_missing_operand_fails_all (hP : P.Ok) {i j : Nat} {κ κ' : Caps} {x : Piece V} {l : List (OpInfo (Piece V) × Piece V)}
    (h : Reads P i κ x l j κ') (hd : P.Dangling j κ') {y : PRes V} (hy : Peg P.G P.v P.m (.ope P.ope) i ⟨κ, {}⟩ y) :
    ∃ c, y = .fail c := by
  cases y with
  | fail c => exact ⟨c, rfl⟩
  | ok k c s =>
    obtain ⟨t, ⟨h1, κ1, h2, h3⟩, hn, -⟩ := C34_value_is_that_of_the_tree hP hy
    obtain ⟨g1, κ2, g2, g3⟩ := h
    obtain ⟨rfl, rfl⟩ := operand_det (g1.trans h1.symm) g2 h2
    exact (tail_past g3 hd h3 hn).elim

/-! ## The engine -/

variable {cfg : Cfg V} {C : Cert} {al : Nat → Prop}

/-- The precedence rule `r` of `cfg`. -/
def precRule (cfg : Cfg V) (r a : Nat) (anm : List Byte) (da : Def) (q : Nat) (nm : List Byte) (dq : Def)
    (info : List (List Byte × Nat × Byte)) : PX V :=
  { G := cfg.gram, v := {}, m := {}, a := a, anm := anm, da := da, q := q, nm := nm, dq := dq, info := info, r := r }

/-- White space, as the loader sets it up, leaves no values. -/
theorem skip_vs (hws : ∀ w, cfg.ws = some w → ∃ e, w = .ws (.ign e)) {v : Env} {m : Mode} {i j : Nat} {s s' : PSt V} {c : Bool}
    (h : Peg cfg.gram v m .skip i s (.ok j c s')) : s'.vs = s.vs := by
  cases h with
  | skip_tok => rfl
  | skip_none => rfl
  | skip_ws _ hw h =>
    obtain ⟨e, rfl⟩ := hws _ hw
    cases h with
    | one_ok h => simp [Ope.single] at h
    | ws_in => rfl
    | ws_out _ h =>
      cases h with
      | one_ok h => simp [Ope.single] at h
      | ign_ok h => rfl

/-- **C34** for the program: a parse that starts with a precedence rule finishes; it succeeds exactly with what is read as operands
and operators, and delivers the value of the tree that respects levels and associativity.  (Without predicate and leave hook on the
rule itself.) -/
theorem C34_parse_builds_right_tree_partial {r a q : Nat} {anm nm : List Byte} {d da dq : Def} {info : List (List Byte × Nat × Byte)}
    (h : Ready cfg C al r) (hws : ∀ w, cfg.ws = some w → ∃ e, w = .ws (.ign e)) (hd : cfg.rules[r]? = some d) (ho : d.ope = .prec (.ref a anm []) (.ref q nm []) info r)
    (hn : d.noWs = false) (hv : d.ignoreSV = false) (hp : cfg.predicate r = none) (hlv : cfg.leave r = none)
    (ha : cfg.rules[a]? = some da) (hq : cfg.rules[q]? = some dq) (eoi : Bool) (dt : Option V) (log : Bool) :
    ∃ n res, parseCore n cfg r eoi { dt := dt, logOn := log } = .ok res ∧
      (res.ret = true → ∃ (i : Nat) (c : Bool) (s : PSt V) (κ : Caps) (t : ETree (Piece V) (Piece V)),
        Peg cfg.gram {} {} .skip 0 {} (.ok i c s) ∧ Reads (precRule cfg r a anm da q nm dq info) i s.caps t.first t.tail res.len κ ∧
        NoOperator (precRule cfg r a anm da q nm dq info) res.len κ ∧ t.Respects ∧
        res.st.vs.vals = [(precRule cfg r a anm da q nm dq info).value t]) ∧
      (res.ret = false → (∃ c, Peg cfg.gram {} {} .skip 0 {} (.fail c)) ∨
        ∃ (i : Nat) (c : Bool) (s : PSt V), Peg cfg.gram {} {} .skip 0 {} (.ok i c s) ∧
          ((precRule cfg r a anm da q nm dq info).NoOperand i s.caps ∨
          ∃ x l j κ, Reads (precRule cfg r a anm da q nm dq info) i s.caps x l j κ ∧
            ((precRule cfg r a anm da q nm dq info).Dangling j κ ∨ eoi = true ∧ j < cfg.input.length ∧
              NoOperator (precRule cfg r a anm da q nm dq info) j κ))) := by
  obtain ⟨x, n, res, hx, h1, h2, -, h4⟩ := parseCore_peg h eoi dt log
  obtain ⟨d', hd', hmac⟩ := h.rule
  rw [hd] at hd'; cases hd'
  have hlr : d.isLR = false := by
    cases hl : d.isLR with
    | false => rfl
    | true =>
      have := (h.cert.lr r d hd hmac hl {} h.mode).2
      rw [Cert.lrOk, ho] at this
      cases this
  have hpo := (h.cert.body r d hd hmac hlr {} h.mode).1
  have hip : d.ope.isPrec = true := by rw [ho]; rfl
  rw [hip, if_pos rfl, ho] at hpo
  simp only [Cert.precOk, Bool.and_eq_true, Bool.not_eq_true', hasValue, actionOff, ha, hq, hd, Option.map_some, Option.getD_some,
    beq_iff_eq] at hpo
  obtain ⟨⟨⟨⟨⟨⟨⟨⟨⟨⟨⟨⟨⟨-, hreco⟩, -⟩, -⟩, hoff⟩, -⟩, hva⟩, hvq⟩, -⟩, -⟩, -⟩, -⟩, -⟩, -⟩ := hpo
  have hP : (precRule cfg r a anm da q nm dq info).Ok := ⟨ha, hva.1, hva.2, hq, hvq.1, hvq.2⟩
  have hope : (precRule cfg r a anm da q nm dq info).ope = d.ope := ho.symm
  have hgp : cfg.gram.predicate r = none := by simp [Cfg.gram, hp]
  have hgl : cfg.gram.leave r = none := by simp [Cfg.gram, hlv]
  refine ⟨n, res, h1, ?_, ?_⟩
  · intro hret
    cases x with
    | none => rw [h2] at hret; cases hret
    | some p =>
      obtain ⟨e1, e2⟩ := h4 p.1 p.2 rfl
      cases hx with
      | @ok i c s j c' s' k1 k2 k3 =>
        simp only at e1 e2
        cases k2 with
        | lr_ok g1 gl =>
          have g1' : cfg.rules[r]? = some _ := g1
          rw [hd] at g1'; cases g1'; rw [hlr] at gl; cases gl
        | rule_pred _ _ _ g => rw [hgp] at g; cases g
        | @rule_ok _ _ _ _ d'' _ _ _ _ s2 g1 _ g2 g3 =>
          have g1' : cfg.rules[r]? = some d'' := g1
          rw [hd] at g1'; cases g1'
          have hbody : Peg cfg.gram {} {} (.ope (precRule cfg r a anm da q nm dq info).ope) i ⟨s.caps, {}⟩ (.ok j c' s2) := by
            rw [hope]
            generalize hy : PRes.ok j c' s2 = y at g2
            cases g2 with
            | body _ g => exact g
            | body_ok g => rw [hn] at g; cases g
            | body_fail g => rw [hn] at g; cases g
          obtain ⟨t, t1, t2, t3, t4, -⟩ := C34_value_is_that_of_the_tree hP hbody
          refine ⟨i, c, s, _, t, k1, by rw [e1]; exact t1, by rw [e1]; exact t2, t3, ?_⟩
          rw [e2 hreco]
          have hs : s.vs = {} := skip_vs hws k1
          have hval : ruleValue cfg.gram r d i j (ruleFrame r d i j s2.vs) none = (precRule cfg r a anm da q nm dq info).value t := by
            have hvals : (ruleFrame r d i j s2.vs).vals = [(precRule cfg r a anm da q nm dq info).value t] := by
              rw [← t4]; unfold ruleFrame; split <;> rfl
            unfold ruleValue
            rw [hgl, hoff, hvals]
            cases cfg.gram.action r <;> rfl
          simp only [pushValue, hv, hval, hs]
          rfl
  · intro hret
    cases x with
    | some p => rw [h2] at hret; cases hret
    | none =>
      cases hx with
      | noSkip k => exact .inl ⟨_, k⟩
      | @noRule i c s c' k1 k2 =>
        refine .inr ⟨i, c, s, k1, ?_⟩
        cases k2 with
        | lr_fail g1 gl =>
          have g1' : cfg.rules[r]? = some _ := g1
          rw [hd] at g1'; cases g1'; rw [hlr] at gl; cases gl
        | rule_reject _ _ _ g => rw [hgp] at g; cases g
        | rule_fail g1 _ g2 =>
          have g1' : cfg.rules[r]? = some _ := g1
          rw [hd] at g1'; cases g1'
          have hbody : Peg cfg.gram {} {} (.ope (precRule cfg r a anm da q nm dq info).ope) i ⟨s.caps, {}⟩ (.fail c') := by
            rw [hope]
            generalize hy : PRes.fail c' = y at g2
            cases g2 with
            | body _ g => exact g
            | body_ok g => rw [hn] at g; cases g
            | body_fail g => rw [hn] at g; cases g
          rcases C34_fails_only_without_operand hP hbody with g | ⟨x, l, j, κ, g, g'⟩
          · exact .inl g
          · exact .inr ⟨x, l, j, κ, g, .inl g'⟩
      | @rest i c s j c' s' k1 k2 k3 k4 =>
        refine .inr ⟨i, c, s, k1, .inr ?_⟩
        cases k2 with
        | lr_ok g1 gl =>
          have g1' : cfg.rules[r]? = some _ := g1
          rw [hd] at g1'; cases g1'; rw [hlr] at gl; cases gl
        | rule_pred _ _ _ g => rw [hgp] at g; cases g
        | @rule_ok _ _ _ _ d'' _ _ _ _ s2 g1 _ g2 g3 =>
          have g1' : cfg.rules[r]? = some d'' := g1
          rw [hd] at g1'; cases g1'
          have hbody : Peg cfg.gram {} {} (.ope (precRule cfg r a anm da q nm dq info).ope) i ⟨s.caps, {}⟩ (.ok j c' s2) := by
            rw [hope]
            generalize hy : PRes.ok j c' s2 = y at g2
            cases g2 with
            | body _ g => exact g
            | body_ok g => rw [hn] at g; cases g
            | body_fail g => rw [hn] at g; cases g
          obtain ⟨t, t1, t2, t3, t4, -⟩ := C34_value_is_that_of_the_tree hP hbody
          exact ⟨_, _, j, _, t1, .inr ⟨k3, k4, t2⟩⟩

/-! ## A concrete grammar

`E <- A (O A)* { precedence L + - L * / R ^ }   A <- '(' E ')' / < [0-9] >   O <- < [-+*/^] >   %whitespace <- ' '*`, on every input.
The action of `E` brackets its operands. -/

def pxRules : List Def :=
  [{ name := [69], disableAction := true,
     ope := .prec (.ref 1 [65] []) (.ref 2 [79] [])
       [([43], 1, 76), ([45], 1, 76), ([42], 2, 76), ([47], 2, 76), ([94], 3, 82)] 0 },
   { name := [65], ope := .cho [.seq [.lit [40] false, .ref 0 [69] [], .lit [41] false] none,
                               .tok (.cls ⟨[(48, 57)], false, false⟩)] false [] },
   { name := [79], ope := .tok (.cls ⟨[(45, 45), (43, 43), (42, 42), (47, 47), (94, 94)], false, false⟩) }]

def pxCfg (input : List Byte) : Cfg (List Byte) :=
  { input := input, rules := pxRules, ws := some (.ws (.ign (.rep (.lit [32] false) 0 none none)))
    action := fun r => if r = 0 then some fun f _ _ => (some (40 :: f.vals.flatMap (fun v => v.getD []) ++ [41]), none) else
      some fun f _ _ => (f.vals.head?.getD (some (f.token input)), none) }

def pxCert : Cert :=
  { rank := fun r => if r = 0 then 2 else if r = 1 then 1 else 0, null := fun _ => false, leak := fun _ => false,
    modes := fun _ m => m == {}, top := 3, capless := true }

theorem pxReady (input : List Byte) : Ready (pxCfg input) pxCert (fun _ => True) 0 where
  cert := by
    refine CertOk.of_check ?_ (slotsOk_of rfl) (fun _ _ _ _ => ⟨List.prefix_refl _, List.prefix_refl _, List.prefix_refl _, rfl⟩)
      ?_ (AlOk.trivial _ _ rfl (fun _ _ h => by cases h)) (fun h => by cases h) ?_ ?_ ?_
    · rfl
    · refine ⟨?_, fun r p h => (by cases h), fun r l h => (by cases h)⟩
      intro r a h f d pd
      simp only [pxCfg] at h
      split at h <;> (cases h; rfl)
    · exact noLR_of (show ∀ d ∈ pxRules, d.isLR = false by decide)
    · intro r d m hd _ hp
      exact bare_nodeOk (fun _ _ h => by cases h) _ (by
        have : ∀ d ∈ pxRules, d.ope.isPrec = false → d.ope.bare = true := by decide
        exact this d (List.mem_of_getElem? hd) hp)
    · intro e he
      cases he
      exact bare_nodeOk (fun _ _ h => by cases h) _ rfl
  word := by intro _ _ w h; cases h
  start := trivial
  rule := ⟨_, rfl, rfl⟩
  mode := rfl

/-- The hypotheses of `C34_parse_builds_right_tree_partial` hold for this grammar and every input. -/
example (input : List Byte) (eoi log : Bool) (dt : Option (List Byte)) :=
  C34_parse_builds_right_tree_partial (pxReady input) (d := pxRules[0]) (da := pxRules[1]) (dq := pxRules[2])
    (fun w h => ⟨_, by cases h; rfl⟩) rfl rfl rfl rfl rfl rfl rfl rfl eoi dt log

/-- `1-2-3*4^5^6` is read as `((1-2)-(3*(4^(5^6))))`. -/
example : (match parseCore 1000 (pxCfg [49, 45, 50, 45, 51, 42, 52, 94, 53, 94, 54]) 0 true { dt := none, logOn := false } with
    | .ok res => (res.ret, res.st.vs.vals)
    | _ => (false, [])) =
    (true, [some [40, 40, 49, 45, 50, 41, 45, 40, 51, 42, 40, 52, 94, 40, 53, 94, 54, 41, 41, 41, 41]]) := by decide +kernel

/-- `S <- [a-z] E ';' / [a-m] E '.'   E <- A (O A)* { precedence L + }   A <- O 'x' / O 'y' / < [0-9] >   O <- < '+' >`.  The packrat
filter (peglib.h 4753-4915) memoises `O` alone: it is the only rule that two alternatives of a choice call at the same place. -/
def staleCfg (packrat : Bool) (input : List Byte) : Cfg (List Byte) :=
  { input := input
    rules := [
      { name := [83], ope := .cho [.seq [.cls ⟨[(97, 122)], false, false⟩, .ref 1 [69] [], .lit [59] false] none,
                                  .seq [.cls ⟨[(97, 109)], false, false⟩, .ref 1 [69] [], .lit [46] false] none] false [] },
      { name := [69], disableAction := true, ope := .prec (.ref 2 [65] []) (.ref 3 [79] []) [([43], 1, 76)] 1 },
      { name := [65], ope := .cho [.seq [.ref 3 [79] [], .lit [120] false] none, .seq [.ref 3 [79] [], .lit [121] false] none,
                                  .tok (.cls ⟨[(48, 57)], false, false⟩)] false [] },
      { name := [79], ope := .tok (.lit [43] false) }]
    packrat := packrat, defCount := 4, packratIndex := some [none, none, none, some 0], cachedCount := 1 }

/-- **C34, C15 are false with packrat parsing if the operator rule is memoised**: a memoised operator does not report its token, so
`a1+2.` is rejected with packrat parsing and accepted without. -/
theorem C34_packrat_loses_operator_witness :
    (match parseCore 1000 (staleCfg false [97, 49, 43, 50, 46]) 0 true { dt := none, logOn := false } with
      | .ok res => some res.ret | _ => none) = some true ∧
    (match parseCore 1000 (staleCfg true [97, 49, 43, 50, 46]) 0 true { dt := none, logOn := false } with
      | .ok res => some res.ret | _ => none) = some false := by decide +kernel

/-- `1+` is rejected as a whole, even where a prefix would do. -/
example : (match parseCore 1000 (pxCfg [49, 43]) 0 false { dt := none, logOn := false } with
    | .ok res => some res.ret
    | _ => none) = some false := by decide +kernel

end Verif.Props
