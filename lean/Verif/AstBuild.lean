import Verif.Ast
import Verif.AstProofs
import Verif.Utf8Der
/-!
# The tree built by the AST actions
-/

namespace Verif
open Out

def Ast.start (t : Ast) : Nat := t.info.position
def Ast.stop (t : Ast) : Nat := t.info.position + t.info.length

/-- The trees stand one after the other between `i` and `j`. -/
def Ordered (i j : Nat) : List Ast → Prop
  | [] => i ≤ j
  | t :: ts => i ≤ t.start ∧ Ordered t.stop j ts

/-- What is expected of a node as built: its text lies in the input, begins and ends at positions satisfying `al`, contains its
token and its children in order and without overlap; line and column are those of its position; the name and choice are its own;
a token has no children. -/
structure NodeOk (input : List Byte) (al : Nat → Prop) (t : Ast) : Prop where
  inside : t.stop ≤ input.length
  alStart : al t.start
  alStop : al t.stop
  kids : Ordered t.start t.stop t.nodes
  place : (t.info.line, t.info.column) = LineInfo.lineInfo input t.start
  own : t.info.origName = t.info.name ∧ t.info.origChoice = t.info.choice ∧ t.info.origChoiceCount = t.info.choiceCount
  tag : t.info.tag = str2tag t.info.name
  leaf : t.info.isToken = true → t.nodes = [] ∧ t.start ≤ t.info.token.1 ∧ t.info.token.1 + t.info.token.2 ≤ t.stop ∧
    al t.info.token.1 ∧ al (t.info.token.1 + t.info.token.2)

/-- The value of a stretch of text: a well-built tree whose root spans exactly that text. -/
def AstInv (input : List Byte) (al : Nat → Prop) (i j : Nat) (v : Option Ast) : Prop :=
  ∃ t, v = some t ∧ t.start = i ∧ t.stop = j ∧ t.All (NodeOk input al)

/-- User-defined parsers leave values and tokens alone. -/
def UserQuiet (cfg : Cfg Ast) : Prop :=
  ∀ id i f dt, (cfg.user id i f dt).2.1.vals = f.vals ∧ (cfg.user id i f dt).2.1.tokens = f.tokens

theorem chain_ordered {input : List Byte} {al : Nat → Prop} {i j : Nat} {vs : List (Option Ast)}
    (h : Chain al (AstInv input al) i j vs) : Ordered i j (vs.filterMap id) ∧ ∀ t ∈ vs.filterMap id, t.All (NodeOk input al) := by
  induction h with
  | nil h => exact ⟨h, by simp⟩
  | cons h1 h2 h3 h4 h5 h6 ih =>
    obtain ⟨t, rfl, h7, h8, h9⟩ := h5
    simp only [List.filterMap_cons, id_eq, Ordered, List.mem_cons, forall_eq_or_imp]
    exact ⟨⟨by omega, by rw [h8]; exact ih.1⟩, h9, ih.2⟩

/-- **The AST actions establish the invariant.** -/
theorem astInv_valInv {cfg : Cfg Ast} {o : AstOpts} {L : Lg} (hr : L.K.recov = false)
    (hd : ∀ d ∈ cfg.rules, d.disableAction = false) (hl : ∀ r, cfg.leave r = none) (hu : UserQuiet cfg)
    (hlen : ∀ i, L.al i → i ≤ cfg.input.length) : ValInv (enableAst cfg o) L (AstInv cfg.input L.al) where
  act := by
    intro r a f dt pd i j ha hsv hij hi hj hf
    simp only [enableAst, Option.map_eq_some_iff] at ha
    obtain ⟨d, hd, rfl⟩ := ha
    refine ⟨_, rfl, ?_⟩
    have hsv1 : f.sv.1 = i := by rw [hsv]
    have hsv2 : f.sv.2 = j - i := by rw [hsv]
    have hstop : f.sv.1 + f.sv.2 = j := by omega
    have hjl := hlen j hj
    unfold astAction
    simp only
    generalize (if (o.astName r).isEmpty = true then d.name else o.astName r) = name
    by_cases htok : d.isToken = true
    · rw [if_pos htok]
      refine ⟨hsv1, hstop, ⟨?_, hsv1 ▸ hi, (show L.al (f.sv.1 + f.sv.2) by rw [hstop]; exact hj), ?_, rfl, ⟨rfl, rfl, rfl⟩, rfl, ?_⟩, by simp only [Ast.AllL]⟩
      · show f.sv.1 + f.sv.2 ≤ _; omega
      · show f.sv.1 ≤ f.sv.1 + f.sv.2; omega
      · intro _
        show [] = [] ∧ f.sv.1 ≤ f.tokenSpan.1 ∧ f.tokenSpan.1 + f.tokenSpan.2 ≤ f.sv.1 + f.sv.2 ∧ _
        refine ⟨rfl, ?_⟩
        unfold Frame.tokenSpan
        cases ht : f.tokens with
        | nil =>
          simp only [List.head?_nil, Option.getD_none]
          exact ⟨Nat.le_refl _, Nat.le_refl _, hsv1 ▸ hi, hstop ▸ hj⟩
        | cons t ts =>
          simp only [List.head?_cons, Option.getD_some]
          obtain ⟨h1, h2, h3, h4⟩ := hf.toks t (by simp [ht])
          exact ⟨by omega, by omega, h3, h4⟩
    · rw [if_neg htok]
      obtain ⟨c1, c2⟩ := chain_ordered hf.vals
      refine ⟨hsv1, hstop, ⟨?_, hsv1 ▸ hi, (show L.al (f.sv.1 + f.sv.2) by rw [hstop]; exact hj), ?_, rfl, ⟨rfl, rfl, rfl⟩, rfl, ?_⟩, Ast.allL_iff.mpr c2⟩
      · show f.sv.1 + f.sv.2 ≤ _; omega
      · show Ordered f.sv.1 (f.sv.1 + f.sv.2) _
        rw [hstop, hsv1]; exact c1
      · intro h; cases h
  noact := by
    rintro ⟨r, d, h1, h2, h3⟩
    exfalso
    rcases h3 with h3 | h3
    · have h1' : cfg.rules[r]? = some d := h1
      simp [enableAst, h1'] at h3
    · rw [hd d (List.mem_of_getElem? h1)] at h3; cases h3
  recov := by intro h; rw [hr] at h; cases h
  leave := by
    intro r l i j v dt h
    have h' : cfg.leave r = some l := h
    rw [hl] at h'; cases h'
  user := by
    intro id i f dt k b _ h1 h2 hi hk hf
    obtain ⟨e1, e2⟩ := hu id i f dt
    have : Fr L.al (AstInv cfg.input L.al) b (i + k) f := hf.mono (by omega)
    exact ⟨by show Chain _ _ _ _ (cfg.user id i f dt).2.1.vals; rw [e1]; exact this.vals,
      by show ∀ t ∈ (cfg.user id i f dt).2.1.tokens, _; rw [e2]; exact this.toks⟩

/-- White space leaves no values. -/
theorem skip_frame {V : Type} {cfg : Cfg V} {K : DCtx} {E : DEnv} {i : Nat} {f : Frame V} {j : Nat} {f' : Frame V}
    (hw : ∀ w, cfg.ws = some w → ∃ e, w = .ws (.ign e)) (hr : cfg.recognizeOnly = false)
    (h : Der cfg K E .skip i f j f') : f' = f := by
  generalize ht : (DTask.skip : DTask V) = t at h
  cases h with
  | noSkip => rfl
  | @skip E w i f j f' h1 h2 =>
    obtain ⟨e, rfl⟩ := hw w h1
    generalize ht : (DTask.ope (.ws (.ign e)) : DTask V) = t at h2
    cases h2 with
    | wsIn => rfl
    | ws h3 =>
      cases ht
      generalize ht : (DTask.ope (.ign e) : DTask V) = t at h3
      cases h3 with
      | ign => rfl
      | one h => cases ht; cases h
      | anyFrame h => rw [hr] at h; cases h
      | _ => cases ht
    | one h => cases ht; cases h
    | anyFrame h => rw [hr] at h; cases h
    | _ => cases ht
  | anyFrame h => rw [hr] at h; cases h
  | _ => cases ht

/-- A derivation of a rule with a value. -/
theorem Der.rule_inv {V : Type} {cfg : Cfg V} {K : DCtx} {E : DEnv} {r : Nat} {v : Option V} {i : Nat} {f : Frame V} {j : Nat}
    {f' : Frame V} (hr : cfg.recognizeOnly = false) (h : Der cfg K E (.rule r v) i f j f') :
    ∃ d g pd v0, cfg.rules[r]? = some d ∧ d.isMacro = false ∧ Der cfg K ⟨some r, []⟩ (.body d) i {} j g ∧
      PredVal cfg r (ruleFrame r d i j g) pd ∧ ActVal cfg K r d (ruleFrame r d i j g) pd v0 ∧ LeaveVal cfg r i j v0 v := by
  generalize ht : (DTask.rule r v : DTask V) = t at h
  cases h with
  | rule h1 h2 h3 h4 h5 h6 => cases ht; exact ⟨_, _, _, _, h1, h2, h3, h4, h5, h6⟩
  | anyFrame h => rw [hr] at h; cases h
  | ruleReco h => rw [hr] at h; cases h
  | _ => cases ht

/-- The tree delivered by a successful parse. -/
theorem parse_ast {cfg : Cfg Ast} {o : AstOpts} {L : Lg} (H : DHyp (enableAst cfg o) L) (h0 : L.al 0)
    (hlen : ∀ i, L.al i → i ≤ cfg.input.length) (hrec : L.K.recov = false)
    (hd : ∀ d ∈ cfg.rules, d.disableAction = false) (hl : ∀ r, cfg.leave r = none) (hu : UserQuiet cfg)
    (hr : cfg.recognizeOnly = false) (hw : ∀ w, cfg.ws = some w → ∃ e, w = .ws (.ign e))
    {n r : Nat} {eoi : Bool} {dt : Option Ast} {log : Bool} {res : Result Ast} {d : Def} (hd' : cfg.rules[r]? = some d)
    (hm : d.isMacro = false) (hi : d.ignoreSV = false)
    (h : parseCore n (enableAst cfg o) r eoi { dt := dt, logOn := log } = .ok res) (hret : res.ret = true) :
    ∃ t, deliver res = some t ∧ t.stop = res.len ∧ t.All (NodeOk cfg.input L.al) ∧ DerParse (enableAst cfg o) L.K r t.start t.stop (some t) res.st.vs := by
  obtain ⟨i, v, hD, h2, h3, -⟩ := parseCore_D H h0 (by intro d'' h''; rw [show (enableAst cfg o).rules[r]? = some d from hd'] at h''; cases h''; exact hm) h hret
  have hD' := hD
  obtain ⟨d', g, h4, h5, h6, h7, h8⟩ := hD
  rw [show (enableAst cfg o).rules[r]? = some d from hd'] at h4
  cases h4
  have hE : DEnv.Ok L {} := by intro e he; cases he
  have hai : L.al i := H.closed _ .skip _ _ _ _ hE trivial h0 h6
  have HV := astInv_valInv (o := o) (L := L) hrec hd hl hu hlen
  have hval : AstInv cfg.input L.al i res.len v := by
    obtain ⟨d'', g', pd, v0, k1, k2, k3, k4, k5, k6⟩ := h7.rule_inv (cfg := enableAst cfg o) hr
    have hb : (DTask.body d'' : DTask Ast).Ok L := H.body r _ k1
    have hE' : DEnv.Ok L ⟨some r, []⟩ := by intro e he; cases he
    have haj := H.closed _ (.body d'') _ _ _ _ hE' hb hai k3
    have hg := (Der.vals H HV hr k3 hE' hb hai).1 i rfl (Fr.empty i)
    have hsv : (ruleFrame r d'' i res.len g').sv = (i, res.len - i) := by unfold ruleFrame; split <;> rfl
    have hF : Fr L.al (AstInv cfg.input L.al) i res.len (ruleFrame r d'' i res.len g') := by
      unfold ruleFrame; split <;> exact ⟨hg.vals, hg.toks⟩
    cases k6 with
    | some hl' => have : cfg.leave r = some _ := hl'; rw [hl] at this; cases this
    | none _ =>
      cases k5 with
      | act ha _ => exact HV.act _ _ _ _ _ _ _ ha hsv h2 hai haj hF
      | first ha =>
        exfalso
        rcases ha with ha | ha
        · have k1' : cfg.rules[r]? = some d'' := k1
          simp [enableAst, k1'] at ha
        · rw [hd _ (List.mem_of_getElem? k1)] at ha; cases ha
      | recovered hk => rw [hrec] at hk; cases hk
  obtain ⟨t, rfl, e1, e2, hall⟩ := hval
  refine ⟨t, ?_, e2, hall, by rw [e1, e2]; exact hD'⟩
  have hg : g = {} := skip_frame (cfg := enableAst cfg o) hw hr h6
  rcases h8 with h8 | h8
  · rw [show (enableAst cfg o).recognizeOnly = false from hr] at h8; cases h8
  · unfold deliver
    rw [hret, h8, hg]
    simp [pushValue, hi]

end Verif
