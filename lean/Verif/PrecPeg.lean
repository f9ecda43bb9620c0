import Verif.PrecTree
import Verif.PegDet
/-!
# Precedence climbing builds the tree of the specification

`PX` bundles a precedence rule.  `Operand`, `Operator`, `Tail`: the flat reading of the input as operands and operators.
-/

namespace Verif
open CharClass

variable {V : Type}

abbrev Caps := List (List Byte × List Byte)

/-- A precedence rule `r <- a (q a)*` with its table, in grammar `G`, with macro arguments `v` in scope and in mode `m`.  `da` and
`dq` are the rules of operands and operators. -/
structure PX (V : Type) where
  G : Gram V
  v : Env
  m : Mode
  a : Nat
  anm : List Byte
  da : Def
  q : Nat
  nm : List Byte
  dq : Def
  info : List (List Byte × Nat × Byte)
  r : Nat

/-- Operands and operators are rules with values. -/
structure PX.Ok (P : PX V) : Prop where
  a : P.G.rules[P.a]? = some P.da
  aMacro : P.da.isMacro = false
  aVal : P.da.ignoreSV = false
  q : P.G.rules[P.q]? = some P.dq
  qMacro : P.dq.isMacro = false
  qVal : P.dq.ignoreSV = false

/-- The precedence operator. -/
def PX.ope (P : PX V) : Ope := .prec (.ref P.a P.anm []) (.ref P.q P.nm []) P.info P.r

/-- A matched operand or operator: where, and its value. -/
structure Piece (V : Type) where
  start : Nat
  stop : Nat
  val : Option V

namespace PX
variable (P : PX V)

/-- The operand rule matches `x`. -/
def Operand (x : Piece V) (κ κ' : Caps) : Prop :=
  ∃ c, Peg P.G P.v P.m (.ope (.ref P.a P.anm [])) x.start ⟨κ, {}⟩
    (.ok x.stop c ⟨κ', { vals := [x.val], tags := [str2tag P.da.name] }⟩)

/-- The operand rule does not match at `i`. -/
def NoOperand (i : Nat) (κ : Caps) : Prop := ∃ c, Peg P.G P.v P.m (.ope (.ref P.a P.anm [])) i ⟨κ, {}⟩ (.fail c)

/-- The operator rule matches `o`, and its token is in the table. -/
def Operator (o : OpInfo (Piece V)) (κ κ' : Caps) : Prop :=
  o.data.start < P.G.input.length ∧ ∃ cb sb c as,
    Peg P.G {} P.m (.body P.dq) o.data.start ⟨κ, {}⟩ (.ok o.data.stop cb sb) ∧
    Peg P.G P.v P.m (.ope (.ref P.q P.nm [])) o.data.start ⟨κ, {}⟩
      (.ok o.data.stop c ⟨κ', { vals := [o.data.val], tags := [str2tag P.dq.name] }⟩) ∧
    P.info.lookup ((ruleFrame P.q P.dq o.data.start o.data.stop sb.vs).token P.G.input) = some (o.level, as) ∧
    o.left = (as == 76)

/-- Operators and operands in turn, one behind the other, from `i` to `j`. -/
inductive Tail : Nat → Caps → List (OpInfo (Piece V) × Piece V) → Nat → Caps → Prop where
  | nil {j κ} : Tail j κ [] j κ
  | cons {i κ o κ1 x κ2 l j κ3} : o.data.start = i → P.Operator o κ κ1 → x.start = o.data.stop → P.Operand x κ1 κ2 →
      Tail x.stop κ2 l j κ3 → Tail i κ ((o, x) :: l) j κ3

/-- No operator of level `mp` or more follows. -/
def Stops (mp : Nat) (j : Nat) (κ : Caps) : Prop := ∀ o κ', o.data.start = j → P.Operator o κ κ' → o.level < mp

/-- The value of a tree: the rule's action is applied to left operand, operator and right operand; without action, the first of
them. -/
def value : ETree (Piece V) (Piece V) → Option V
  | .leaf x => x.val
  | .node l o r =>
    match P.G.action P.r with
    | some act =>
      act { vals := [value l, o.data.val, value r], tags := [str2tag P.da.name],
            sv := (l.first.start, ((r.tail.getLast?.map Prod.snd).getD r.first).stop - l.first.start) } none
    | none => value l

/-- The scope that holds the value of a tree. -/
def frame (t : ETree (Piece V) (Piece V)) (sv : Nat × Nat) : Frame V :=
  { vals := [P.value t], tags := [str2tag P.da.name], sv := sv }

/-- Levels and associativity allow `o` behind an expression that ends with `p` below it. -/
def Above (o p : OpInfo (Piece V)) : Prop := o.level < p.level ∨ (p.level = o.level ∧ p.left = true)

/-- An operator without right operand at `j`. -/
def Dangling (j : Nat) (κ : Caps) : Prop := ∃ o κ', o.data.start = j ∧ P.Operator o κ κ' ∧ P.NoOperand o.data.stop κ'

/-- Where the last operand of a tree ends. -/
def lastStop (t : ETree (Piece V) (Piece V)) : Nat := ((t.tail.getLast?.map Prod.snd).getD t.first).stop

theorem Tail.append {i j k : Nat} {κ κ1 κ2 : Caps} {l l' : List (OpInfo (Piece V) × Piece V)} (h : P.Tail i κ l j κ1)
    (h' : P.Tail j κ1 l' k κ2) : P.Tail i κ (l ++ l') k κ2 := by
  induction h with
  | nil => exact h'
  | cons a b c d _ ih => exact .cons a b c d (ih h')

theorem Tail.last {i j : Nat} {κ κ1 : Caps} {l : List (OpInfo (Piece V) × Piece V)} (h : P.Tail i κ l j κ1) :
    (l.getLast?.map (fun x => x.2.stop)).getD i = j := by
  induction h with
  | nil => rfl
  | @cons i κ o κ1 x κ2 l j κ3 a b c d _ ih =>
    rw [← ih]
    cases l with
    | nil => rfl
    | cons y l =>
      simp only [List.getLast?_cons_cons]
      cases hh : (y :: l).getLast? with
      | none => simp at hh
      | some z => rfl

theorem tail_lastStop {t : ETree (Piece V) (Piece V)} {j : Nat} {κ κ1 : Caps} (h : P.Tail t.first.stop κ t.tail j κ1) :
    lastStop t = j := by
  rw [← Tail.last P h, lastStop]
  cases t.tail.getLast? <;> rfl

variable {P}

theorem ref_frame {G : Gram V} {v : Env} {m : Mode} {q : Nat} {nm : List Byte} {d : Def} (hd : G.rules[q]? = some d)
    (hmac : d.isMacro = false) (hig : d.ignoreSV = false) {i : Nat} {κ : Caps} {s' : PSt V} {j : Nat} {c : Bool}
    (h : Peg G v m (.ope (.ref q nm [])) i ⟨κ, {}⟩ (.ok j c s')) :
    ∃ w, s' = ⟨s'.caps, { vals := [w], tags := [str2tag d.name] }⟩ := by
  cases h with
  | one_ok h => simp [Ope.single] at h
  | ref hd' hm' h =>
    rw [hd] at hd'; cases hd'
    cases h with
    | rule_ok hd' => rw [hd] at hd'; cases hd'; exact ⟨_, by simp only [pushValue, hig]; rfl⟩
    | rule_pred hd' => rw [hd] at hd'; cases hd'; exact ⟨_, by simp only [pushValue, hig]; rfl⟩
    | lr_ok h1 h2 h3 h4 h5 h6 h7 =>
      rw [hd] at h1; cases h1
      obtain ⟨w, hw⟩ := lr_vals hd h2 (.lr_ok hd h2 h3 h4 h5 h6 h7)
      refine ⟨w, ?_⟩
      simp only [pushValue, hig] at hw
      simp only
      rw [hw]; rfl
  | call hd' hm' => rw [hd] at hd'; cases hd'; rw [hmac] at hm'; cases hm'

/-- What the soundness theorem says about each task. -/
def Says (P : PX V) (v : Env) (m : Mode) : PTask → Nat → PSt V → PRes V → Prop
  | .prec a b info r mp, i, s, x => v = P.v → m = P.m → a = .ref P.a P.anm [] → b = .ref P.q P.nm [] → info = P.info → r = P.r →
    s.vs = {} →
    match x with
    | .ok j _ s' => ∃ t κ sv, t.first.start = i ∧ P.Operand t.first s.caps κ ∧ P.Tail t.first.stop κ t.tail j s'.caps ∧ t.Respects ∧
        (∀ o ∈ t.ops, mp ≤ o.level) ∧ s'.vs = P.frame t sv ∧ P.Stops mp j s'.caps
    | .fail _ => P.NoOperand i s.caps ∨ ∃ x κ l j κ', x.start = i ∧ P.Operand x s.caps κ ∧ P.Tail x.stop κ l j κ' ∧ P.Dangling j κ'
  | .precL a b info r mp start, i, s, x => v = P.v → m = P.m → a = .ref P.a P.anm [] → b = .ref P.q P.nm [] → info = P.info →
    r = P.r → ∀ t κ sv, t.first.start = start → P.Tail t.first.stop κ t.tail i s.caps → t.Respects → (∀ o ∈ t.ops, mp ≤ o.level) →
    s.vs = P.frame t sv → (∀ o κ', o.data.start = i → P.Operator o s.caps κ' → ∀ p ∈ t.ops, Above o p) →
    match x with
    | .ok j _ s' => ∃ t' sv', t'.first = t.first ∧ P.Tail t.first.stop κ t'.tail j s'.caps ∧ t'.Respects ∧
        (∀ o ∈ t'.ops, mp ≤ o.level) ∧ s'.vs = P.frame t' sv' ∧ P.Stops mp j s'.caps
    | .fail _ => ∃ l j κ', P.Tail i s.caps l j κ' ∧ P.Dangling j κ'
  | _, _, _, _ => True

theorem pst_eta {s : PSt V} (h : s.vs = {}) : s = ⟨s.caps, {}⟩ := by cases s; simp only at h; rw [h]

theorem above_of_stops {o p : OpInfo (Piece V)} (h : o.level < nextLevel p.level as) (e : p.left = (as == 76)) : Above o p := by
  unfold nextLevel at h
  unfold Above
  by_cases ha : as = 76
  · rw [if_pos ha] at h
    by_cases hl : o.level < p.level
    · exact .inl hl
    · exact .inr ⟨by omega, by rw [e, ha]; rfl⟩
  · rw [if_neg ha] at h
    exact .inl h

theorem le_nextLevel (l : Nat) (as : Byte) : l ≤ nextLevel l as := by
  unfold nextLevel; split <;> omega

/-- The node for a new operator. -/
theorem value_node {l r : ETree (Piece V) (Piece V)} {o : OpInfo (Piece V)} {k : Nat} (hk : lastStop r = k) (sv : Nat × Nat) :
    ∃ sv'', precFrame P.G P.r l.first.start k { P.frame l sv with vals := (P.frame l sv).vals ++ [o.data.val, P.value r] } =
      P.frame (.node l o r) sv'' := by
  subst hk
  unfold precFrame frame
  simp only [value]
  cases hact : P.G.action P.r with
  | none => exact ⟨sv, rfl⟩
  | some act => exact ⟨_, rfl⟩

theorem says_all {G : Gram V} {v : Env} {m : Mode} {task : PTask} {i : Nat} {s : PSt V} {x : PRes V} (h : Peg G v m task i s x)
    (hG : G = P.G) (hP : P.Ok) : Says P v m task i s x := by
  induction h with
  | @prec_fail G v m a b info r mp i s c h ih =>
    subst hG
    rintro rfl rfl rfl rfl rfl rfl hs
    left
    rw [pst_eta hs] at h
    exact ⟨c, h⟩
  | @prec_atom G v m a b info r mp i s j c s' x h h' ih ih' =>
    subst hG
    rintro rfl rfl rfl rfl rfl rfl hs
    rw [pst_eta hs] at h
    obtain ⟨w, hw⟩ := ref_frame hP.a hP.aMacro hP.aVal h
    have hop : P.Operand ⟨i, j, w⟩ s.caps s'.caps := ⟨c, by rw [← hw]; exact h⟩
    have key := ih' rfl rfl rfl rfl rfl rfl rfl (.leaf ⟨i, j, w⟩) s'.caps (0, 0) rfl .nil trivial (fun o ho => by cases ho)
      (by rw [hw]; rfl) (fun _ _ _ _ p hp => by cases hp)
    cases x with
    | fail c' =>
      obtain ⟨l, k, κ', h1, h2⟩ := key
      exact .inr ⟨⟨i, j, w⟩, s'.caps, l, k, κ', rfl, hop, h1, h2⟩
    | ok k c' s2 =>
      obtain ⟨t, sv, h1, h2, h3, h4, h5, h6⟩ := key
      refine ⟨t, s'.caps, sv, by rw [h1]; rfl, by rw [h1]; exact hop, by rw [h1]; exact h2, h3, h4, h5, h6⟩
  | @prec_eof G v m a b info r mp start i s h =>
    subst hG
    rintro rfl rfl rfl rfl rfl rfl t κ sv h1 h2 h3 h4 h5 h6
    refine ⟨t, sv, rfl, h2, h3, h4, h5, ?_⟩
    intro o κ' ho hop
    have := hop.1
    omega
  | @prec_noOp G v m a b info r mp start i s c h h' ih =>
    subst hG
    rintro rfl rfl rfl rfl rfl rfl t κ sv h1 h2 h3 h4 h5 h6
    refine ⟨t, sv, rfl, h2, h3, h4, h5, ?_⟩
    intro o κ' ho hop
    obtain ⟨-, cb, sb, c', as, -, k, -⟩ := hop
    rw [ho] at k
    cases h'.det k
  | @prec_stop G v m a q nm d info r mp start i s j cb sb c s1 h hd hb hr hl ihb ihr =>
    subst hG
    rintro rfl rfl rfl hq rfl rfl t κ sv h1 h2 h3 h4 h5 h6
    cases hq
    refine ⟨t, sv, rfl, h2, h3, h4, h5, ?_⟩
    intro o κ' ho hop
    obtain ⟨-, cb', sb', c', as, k1, -, k3, -⟩ := hop
    rw [hP.q] at hd; cases hd
    subst ho
    have e := k1.det hb
    simp only [PRes.ok.injEq] at e
    obtain ⟨e1, -, e3⟩ := e
    rw [e1, e3] at k3
    exact hl _ _ k3
  | @prec_noRhs G v m a q nm d info r mp start i s j cb sb c s1 l as c' h hd hb hr hl hmp h' ihb ihr ih' =>
    subst hG
    rintro rfl rfl rfl hq rfl rfl t κ sv h1 h2 h3 h4 h5 h6
    cases hq
    rw [hP.q] at hd; cases hd
    obtain ⟨w, hw⟩ := ref_frame hP.q hP.qMacro hP.qVal hr
    have hop : P.Operator ⟨l, as == 76, ⟨i, j, w⟩⟩ s.caps s1.caps :=
      ⟨h, cb, sb, c, as, hb, by rw [← hw]; exact hr, hl, rfl⟩
    rcases ih' rfl rfl rfl rfl rfl rfl rfl rfl with h | ⟨x, κ1, tl, k, κ2, k1, k2, k3, k4⟩
    · exact ⟨[], i, s.caps, .nil, ⟨l, as == 76, ⟨i, j, w⟩⟩, s1.caps, rfl, hop, h⟩
    · exact ⟨_, k, κ2, .cons rfl hop k1 k2 k3, k4⟩
  | @prec_more G v m a q nm d info r mp start i s j cb sb c s1 l as c' k s2 ov ovs rv rvs x h hd hb hr hl hmp h' hov hrv hx ihb ihr ih' ihx =>
    subst hG
    rintro rfl rfl rfl hq rfl rfl t κ sv h1 h2 h3 h4 h5 h6
    cases hq
    rw [hP.q] at hd; cases hd
    obtain ⟨w, hw⟩ := ref_frame hP.q hP.qMacro hP.qVal hr
    have hwo : ov = w ∧ ovs = [] := by
      rw [hw] at hov
      simp only [List.cons.injEq] at hov
      exact ⟨hov.1.symm, hov.2.symm⟩
    obtain ⟨rfl, rfl⟩ := hwo
    have hop : P.Operator ⟨l, as == 76, ⟨i, j, ov⟩⟩ s.caps s1.caps :=
      ⟨h, cb, sb, c, as, hb, by rw [← hw]; exact hr, hl, rfl⟩
    obtain ⟨tr, κ1, svr, k1, k2, k3, k4, k5, k6, k7⟩ := ih' rfl rfl rfl rfl rfl rfl rfl rfl
    have hrv' : rv = P.value tr := by
      rw [k6] at hrv
      simp only [frame, List.cons.injEq] at hrv
      exact hrv.1.symm
    subst hrv'
    let o : OpInfo (Piece V) := ⟨l, as == 76, ⟨i, j, ov⟩⟩
    obtain ⟨sv', hsv⟩ := value_node (P := P) (l := t) (r := tr) (o := o) (tail_lastStop P k3) sv
    have htail : P.Tail i s.caps ((o, tr.first) :: tr.tail) k s2.caps := .cons rfl hop k1 k2 k3
    have hab : ∀ p ∈ t.ops, Above o p := h6 o s1.caps rfl hop
    have key := ihx rfl rfl rfl rfl rfl rfl rfl (.node t o tr) κ sv' h1 (Tail.append P h2 htail)
      ⟨h3, k4, hab, fun p hp => by
        have := k5 p hp
        show l < p.level ∨ (p.level = l ∧ (as == 76) = false)
        unfold nextLevel at this
        by_cases ha : as = 76
        · rw [if_pos ha] at this; exact .inl (by omega)
        · rw [if_neg ha] at this
          by_cases hlt : l < p.level
          · exact .inl hlt
          · exact .inr ⟨by omega, by simpa using ha⟩⟩
      (by
        intro p hp
        simp only [ETree.ops, List.mem_append, List.mem_cons] at hp
        rcases hp with hp | rfl | hp
        · exact h4 p hp
        · exact hmp
        · exact Nat.le_trans hmp (Nat.le_trans (le_nextLevel l as) (k5 p hp)))
      (by rw [← hsv, ← h1, ← h5])
      (by
        intro o' κ' ho' hop' p hp
        have hst : o'.level < nextLevel l as := k7 o' κ' ho' hop'
        have hao : Above o' o := above_of_stops (p := o) hst rfl
        simp only [ETree.ops, List.mem_append, List.mem_cons] at hp
        rcases hp with hp | rfl | hp
        · rcases hab p hp with a | ⟨a, a'⟩ <;> rcases hao with b | ⟨b, b'⟩
          · exact .inl (by omega)
          · exact .inl (by omega)
          · exact .inl (by omega)
          · exact .inr ⟨by omega, a'⟩
        · exact hao
        · have := k5 p hp
          exact .inl (by omega))
    cases x with
    | fail c'' =>
      obtain ⟨tl, j', κ', q1, q2⟩ := key
      exact ⟨_, j', κ', Tail.append P htail q1, q2⟩
    | ok j' c'' s3 => exact key
  | _ => trivial

/-! ## Every flat reading is parsed -/

/-- Reading goes no further at `j`, with operators of level at least `mp`: the end of the input, or no operator, or one that is not
in the table or of a lower level. -/
def Halts (P : PX V) (mp j : Nat) (κ : Caps) : Prop :=
  P.G.input.length ≤ j ∨ j < P.G.input.length ∧
  ((∃ c, Peg P.G P.v P.m (.ope (.ref P.q P.nm [])) j ⟨κ, {}⟩ (.fail c)) ∨
  ∃ k cb sb c s1, Peg P.G {} P.m (.body P.dq) j ⟨κ, {}⟩ (.ok k cb sb) ∧
    Peg P.G P.v P.m (.ope (.ref P.q P.nm [])) j ⟨κ, {}⟩ (.ok k c s1) ∧
    ∀ l as, P.info.lookup ((ruleFrame P.q P.dq j k sb.vs).token P.G.input) = some (l, as) → l < mp)

theorem Halts.loop (hP : P.Ok) {mp j start : Nat} {s : PSt V} (h : P.Halts mp j s.caps) :
    ∃ c, Peg P.G P.v P.m (.precL (.ref P.a P.anm []) (.ref P.q P.nm []) P.info P.r mp start) j s (.ok j c s) := by
  rcases h with h | ⟨h, ⟨c, h'⟩ | ⟨k, cb, sb, c, s1, h1, h2, h3⟩⟩
  · exact ⟨_, .prec_eof h⟩
  · exact ⟨_, .prec_noOp h h'⟩
  · exact ⟨_, .prec_stop h hP.q h1 h2 h3⟩

/-- Behind an operator's left operand stands an operator of a lower level. -/
theorem Operator.halts {o : OpInfo (Piece V)} {κ κ' : Caps} {mp : Nat} (h : P.Operator o κ κ') (hl : o.level < mp) :
    P.Halts mp o.data.start κ := by
  obtain ⟨h0, cb, sb, c, as, h1, h2, h3, -⟩ := h
  refine .inr ⟨h0, .inr ⟨_, cb, sb, c, _, h1, h2, fun l as' h => ?_⟩⟩
  rw [h3] at h
  cases h
  exact hl

/-- The lowest level allowed on the right of `o`. -/
def next (o : OpInfo (Piece V)) : Nat := if o.left then o.level + 1 else o.level

theorem next_eq {o : OpInfo (Piece V)} {as : Byte} (h : o.left = (as == 76)) : nextLevel o.level as = next o := by
  unfold nextLevel next
  rw [h]
  by_cases ha : as = 76
  · rw [if_pos ha, if_pos (by rw [ha]; rfl)]
  · rw [if_neg ha, if_neg (by simpa using ha)]

theorem lt_next {o p : OpInfo (Piece V)} (h : Above o p) : o.level < next p := by
  unfold next
  rcases h with h | ⟨h, h'⟩
  · split <;> omega
  · rw [if_pos h']; omega

theorem Tail.split {i j : Nat} {κ κ1 : Caps} {l l' : List (OpInfo (Piece V) × Piece V)} (h : P.Tail i κ (l ++ l') j κ1) :
    ∃ k κ', P.Tail i κ l k κ' ∧ P.Tail k κ' l' j κ1 := by
  induction l generalizing i κ with
  | nil => exact ⟨i, κ, .nil, h⟩
  | cons y l ih =>
    cases h with
    | cons a b c d e =>
      obtain ⟨k, κ', h1, h2⟩ := ih e
      exact ⟨k, κ', .cons a b c d h1, h2⟩

theorem climb (hP : P.Ok) : ∀ (t : ETree (Piece V) (Piece V)) (mp : Nat) (κ0 κ κ1 : Caps) (j : Nat), t.Respects →
    (∀ o ∈ t.ops, mp ≤ o.level) → P.Operand t.first κ0 κ → P.Tail t.first.stop κ t.tail j κ1 → (∀ o ∈ t.ops, P.Halts (next o) j κ1) →
    ∃ sv, ∀ x : PRes V, Peg P.G P.v P.m (.precL (.ref P.a P.anm []) (.ref P.q P.nm []) P.info P.r mp t.first.start) j ⟨κ1, P.frame t sv⟩ x →
      ∃ c, Peg P.G P.v P.m (.prec (.ref P.a P.anm []) (.ref P.q P.nm []) P.info P.r mp) t.first.start ⟨κ0, {}⟩ (x.orCut c)
  | .leaf y, mp, κ0, κ, κ1, j, _, _, hop, htl, _ => by
    cases htl
    obtain ⟨c, hop⟩ := hop
    exact ⟨(0, 0), fun x hx => ⟨c, .prec_atom hop hx⟩⟩
  | .node l o r, mp, κ0, κ, κ1, j, hresp, hmp, hop, htl, hh => by
    obtain ⟨h1, h2, h3, h4⟩ := hresp
    simp only [ETree.tail] at htl
    obtain ⟨k, κ2, ht1, ht2⟩ := Tail.split htl
    cases ht2 with
    | @cons _ _ _ κ3 _ κ4 _ _ _ e1 e2 e3 e4 e5 =>
      subst e1
      obtain ⟨svl, IHl⟩ := climb hP l mp κ0 κ κ2 o.data.start h1 (fun p hp => hmp p (by simp [ETree.ops, hp])) hop ht1
        (fun p hp => e2.halts (lt_next (h3 p hp)))
      have hr4 : ∀ p ∈ r.ops, next o ≤ p.level := by
        intro p hp
        unfold next
        rcases h4 p hp with a | ⟨a, a'⟩
        · split <;> omega
        · rw [if_neg (by rw [a']; simp)]; omega
      obtain ⟨svr, IHr⟩ := climb hP r (next o) κ3 κ4 κ1 j h2 hr4 e4 e5 (fun p hp => hh p (by simp [ETree.ops, hp]))
      obtain ⟨cr, hloop⟩ := (hh o (by simp [ETree.ops])).loop hP (s := ⟨κ1, P.frame r svr⟩) (start := r.first.start)
      obtain ⟨cr', hrhs⟩ := IHr _ hloop
      obtain ⟨sv, hsv⟩ := value_node (P := P) (l := l) (r := r) (o := o) (tail_lastStop P e5) svl
      refine ⟨sv, fun x hx => ?_⟩
      obtain ⟨h0, cb, sb, c, as, g1, g2, g3, g4⟩ := e2
      have hmo : mp ≤ o.level := hmp o (by simp [ETree.ops])
      rw [e3] at hrhs
      have hmore := Peg.prec_more (G := P.G) (v := P.v) (m := P.m) (a := .ref P.a P.anm []) (r := P.r) (start := l.first.start)
        (s := ⟨κ2, P.frame l svl⟩) (s1 := ⟨κ3, { vals := [o.data.val], tags := [str2tag P.dq.name] }⟩)
        (s2 := ⟨κ1, P.frame r svr⟩) (rv := P.value r) (rvs := []) h0 hP.q g1 g2 g3 hmo
        (by rw [next_eq g4]; exact hrhs) rfl rfl (x := x) (by
          have e : (⟨κ1, precFrame P.G P.r l.first.start j { P.frame l svl with vals := (P.frame l svl).vals ++ [o.data.val, P.value r] }⟩ :
            PSt V) = ⟨κ1, P.frame (.node l o r) sv⟩ := by rw [hsv]
          show Peg P.G P.v P.m _ j ⟨κ1, precFrame P.G P.r l.first.start j { P.frame l svl with vals := (P.frame l svl).vals ++ [o.data.val, P.value r] }⟩ x
          rw [e]; exact hx)
      obtain ⟨c2, hfin⟩ := IHl _ hmore
      refine ⟨c2 || (c || (cr' || cr)), ?_⟩
      have : (x.orCut (c || (cr' || cr))).orCut c2 = x.orCut (c2 || (c || (cr' || cr))) := by
        cases x <;> simp [PRes.orCut, Bool.or_assoc]
      rw [← this]
      exact hfin

end PX
end Verif
