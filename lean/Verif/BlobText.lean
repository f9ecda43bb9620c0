import Verif.BlobParser
/-!
# What is computed on demand, for loaded rules

`computed_of_load`: `is_token` and the literal of error reports, which `linkAll` computes from the text and `applyPrec` corrects, are what the visitors
(peglib.h 2462-2524, 4370-4387) say of the operators of the loaded rules.
-/

namespace Verif
open Blob (BOpe BDef)

mutual
/-- A reference has arguments exactly if it is written as a call; parameters are not called. -/
def Src.calls (ps : List (List Byte)) : Src → Bool
  | .seq es => Src.callsL ps es
  | .cho es _ => Src.callsL ps es
  | .rep e _ _ => e.calls ps
  | .and_ _ => true
  | .not_ _ => true
  | .capScope e => e.calls ps
  | .cap _ e => e.calls ps
  | .tok e => e.calls ps
  | .ign e => e.calls ps
  | .ref nm mac as => (mac == !as.isEmpty) && (decide (nm ∉ ps) || !mac) && Src.callsL ps as
  | .recov nm mac as => (mac == !as.isEmpty) && decide (nm ∉ ps) && Src.callsL ps as
  | .dict _ _ => true
  | .lit _ _ => true
  | .cls _ => true
  | .chr _ => true
  | .dot => true
  | .usr _ => true
  | .bref _ => true
  | .cut => true
def Src.callsL (ps : List (List Byte)) : List Src → Bool
  | [] => true
  | e :: es => e.calls ps && Src.callsL ps es
end

/-- The rules of `rs` are macros where those of `ds` are. -/
def MacrosOf (ds : List SDef) (rs : List Def) : Prop := ∀ (r : Nat) (d : SDef), ds[r]? = some d → ((rs[r]?).map Def.isMacro).getD false = d.head.isMacro

/-- A checked reference to a rule. -/
theorem checked_ref {ds : List SDef} {rs : List Def} (hm : MacrosOf ds rs) {ps : List (List Byte)} {nm : List Byte} {mac : Bool} {as : List Src}
    (hc : (match (ruleNamed ds nm).bind fun r => ds[r]? with
        | none => false
        | some d => (if d.head.isMacro then mac && decide (as.length = d.head.params.length) else !mac) && Src.checkL ds ps as) = true) :
    ∃ r, ruleNamed ds nm = some r ∧ ((rs[r]?).map Def.isMacro).getD false = mac ∧ Src.checkL ds ps as = true := by
  cases hr : ruleNamed ds nm with
  | none => rw [hr] at hc; cases hc
  | some r =>
    obtain ⟨d, hd, -⟩ := ruleNamed_some hr
    rw [hr, Option.bind_some, hd] at hc
    dsimp only at hc
    rw [Bool.and_eq_true] at hc
    refine ⟨r, rfl, ?_, hc.2⟩
    rw [hm r d hd]
    cases hk : d.head.isMacro with
    | true => rw [hk, if_pos rfl, Bool.and_eq_true] at hc; exact hc.1.1.symm
    | false =>
      rw [hk, if_neg Bool.false_ne_true] at hc
      cases mac with
      | true => cases hc.1
      | false => rfl

/-- The visitors see the same before and after linking. -/
structure SameScan (rs : List Def) (e : Src) (o : Ope) : Prop where
  tokb : tokScan (o.toB rs) = e.tokScan
  toko : o.tokScan = e.tokScan
  isLit : isLitB (o.toB rs) = e.isLitTok
  lit : ∀ acc, litScan (o.toB rs) acc = e.litScan acc

structure SameScans (rs : List Def) (es : List Src) (os : List Ope) : Prop where
  tokb : tokScanL (Ope.toBL rs os) = Src.tokScanL es
  toko : Ope.tokScanL os = Src.tokScanL es
  isLit : isLitBL (Ope.toBL rs os) = Src.isLitTokL es
  lit : ∀ acc, litScanL (Ope.toBL rs os) acc = Src.litScanL es acc
  empty : os.isEmpty = es.isEmpty

mutual
theorem link_scan {ds : List SDef} {rs : List Def} (hm : MacrosOf ds rs) (ps : List (List Byte)) : ∀ (e : Src), e.check ds ps = true → e.calls ps = true →
    SameScan rs e (e.link ds ps)
  | .seq es, hc, hk => by
    rw [Src.check] at hc; rw [Src.calls] at hk
    have h := linkL_scan hm ps es hc hk
    exact ⟨h.tokb, h.toko, rfl, fun _ => rfl⟩
  | .cho es _, hc, hk => by
    rw [Src.check] at hc; rw [Src.calls] at hk
    have h := linkL_scan hm ps es hc hk
    exact ⟨h.tokb, h.toko, h.isLit, fun _ => rfl⟩
  | .rep e _ _, hc, hk => by
    rw [Src.check] at hc; rw [Src.calls] at hk
    have h := link_scan hm ps e hc hk
    exact ⟨h.tokb, h.toko, rfl, fun _ => rfl⟩
  | .and_ e, hc, hk => ⟨rfl, rfl, rfl, fun _ => rfl⟩
  | .not_ e, hc, hk => ⟨rfl, rfl, rfl, fun _ => rfl⟩
  | .capScope e, hc, hk => by
    rw [Src.check] at hc; rw [Src.calls] at hk
    have h := link_scan hm ps e hc hk
    exact ⟨h.tokb, h.toko, rfl, fun _ => rfl⟩
  | .cap _ e, hc, hk => by
    rw [Src.check] at hc; rw [Src.calls] at hk
    have h := link_scan hm ps e hc hk
    exact ⟨h.tokb, h.toko, rfl, fun _ => rfl⟩
  | .tok e, hc, hk => by
    rw [Src.check] at hc; rw [Src.calls] at hk
    have h := link_scan hm ps e hc hk
    exact ⟨rfl, rfl, rfl, h.lit⟩
  | .ign e, hc, hk => by
    rw [Src.check] at hc; rw [Src.calls] at hk
    have h := link_scan hm ps e hc hk
    exact ⟨h.tokb, h.toko, rfl, h.lit⟩
  | .ref nm mac as, hc, hk => by
    rw [Src.check] at hc
    rw [Src.calls, Bool.and_eq_true, Bool.and_eq_true, beq_iff_eq, Bool.or_eq_true, decide_eq_true_eq] at hk
    rw [Src.link]
    by_cases hp : nm ∈ ps
    · obtain ⟨k, hi⟩ := paramIdx_mem hp
      rw [hi]
      have hmac : mac = false := by
        rcases hk.1.2 with h | h
        · exact absurd hp h
        · cases mac
          · rfl
          · cases h
      subst hmac
      exact ⟨rfl, rfl, rfl, fun _ => rfl⟩
    · rw [if_neg hp] at hc
      have hi : paramIdx ps nm = none := by
        cases hi : paramIdx ps nm with
        | none => rfl
        | some k => exact absurd (List.mem_of_getElem? (paramIdx_some hi)) hp
      obtain ⟨r, h1, h2, h3⟩ := checked_ref hm hc
      rw [hi, h1]
      have h := linkL_scan hm ps as h3 hk.2
      refine ⟨?_, ?_, rfl, fun acc => ?_⟩
      · show (if ((rs[r]?).map Def.isMacro).getD false then tokScanL (Ope.toBL rs (Src.linkL ds ps as)) else (false, true)) = _
        rw [h2, h.tokb]; rfl
      · show (if (Src.linkL ds ps as).isEmpty then (false, true) else Ope.tokScanL (Src.linkL ds ps as)) = if mac then Src.tokScanL as else (false, true)
        rw [h.empty, hk.1.1, h.toko]
        cases as.isEmpty <;> rfl
      · show (if ((rs[r]?).map Def.isMacro).getD false then litScanL (Ope.toBL rs (Src.linkL ds ps as)) acc else acc) = _
        rw [h2, h.lit]; rfl
  | .recov nm mac as, hc, hk => by
    rw [Src.check] at hc
    rw [Src.calls, Bool.and_eq_true, Bool.and_eq_true, beq_iff_eq, decide_eq_true_eq] at hk
    rw [Src.link]
    have hp := hk.1.2
    rw [if_neg hp] at hc
    have hi : paramIdx ps nm = none := by
      cases hi : paramIdx ps nm with
      | none => rfl
      | some k => exact absurd (List.mem_of_getElem? (paramIdx_some hi)) hp
    obtain ⟨r, h1, h2, h3⟩ := checked_ref hm hc
    rw [hi, h1]
    have h := linkL_scan hm ps as h3 hk.2
    refine ⟨?_, ?_, rfl, fun acc => ?_⟩
    · show (if ((rs[r]?).map Def.isMacro).getD false then tokScanL (Ope.toBL rs (Src.linkL ds ps as)) else (false, true)) = _
      rw [h2, h.tokb]; rfl
    · show (if (Src.linkL ds ps as).isEmpty then (false, true) else Ope.tokScanL (Src.linkL ds ps as)) = if mac then Src.tokScanL as else (false, true)
      rw [h.empty, hk.1.1, h.toko]
      cases as.isEmpty <;> rfl
    · show (if ((rs[r]?).map Def.isMacro).getD false then litScanL (Ope.toBL rs (Src.linkL ds ps as)) acc else acc) = _
      rw [h2, h.lit]; rfl
  | .dict _ _, hc, hk => ⟨rfl, rfl, rfl, fun _ => rfl⟩
  | .lit _ _, hc, hk => ⟨rfl, rfl, rfl, fun _ => rfl⟩
  | .cls _, hc, hk => ⟨rfl, rfl, rfl, fun _ => rfl⟩
  | .chr _, hc, hk => ⟨rfl, rfl, rfl, fun _ => rfl⟩
  | .dot, hc, hk => ⟨rfl, rfl, rfl, fun _ => rfl⟩
  | .usr _, hc, hk => ⟨rfl, rfl, rfl, fun _ => rfl⟩
  | .bref _, hc, hk => ⟨rfl, rfl, rfl, fun _ => rfl⟩
  | .cut, hc, hk => ⟨rfl, rfl, rfl, fun _ => rfl⟩
theorem linkL_scan {ds : List SDef} {rs : List Def} (hm : MacrosOf ds rs) (ps : List (List Byte)) : ∀ (es : List Src), Src.checkL ds ps es = true → Src.callsL ps es = true →
    SameScans rs es (Src.linkL ds ps es)
  | [], _, _ => ⟨rfl, rfl, rfl, fun _ => rfl, rfl⟩
  | e :: es, hc, hk => by
    rw [Src.checkL, Bool.and_eq_true] at hc
    rw [Src.callsL, Bool.and_eq_true] at hk
    have h1 := link_scan hm ps e hc.1 hk.1
    have h2 := linkL_scan hm ps es hc.2 hk.2
    refine ⟨?_, ?_, ?_, fun acc => ?_, rfl⟩
    · show ((tokScan _).1 || _, (tokScan _).2 || _) = _
      rw [h1.tokb, h2.tokb]; rfl
    · show ((Ope.tokScan _).1 || _, (Ope.tokScan _).2 || _) = _
      rw [h1.toko, h2.toko]; rfl
    · show (isLitB _ && isLitBL _) = _
      rw [h1.isLit, h2.isLit]; rfl
    · show litScanL _ (litScan _ acc) = _
      rw [h1.lit, h2.lit]; rfl
end

/-- What the text says of a rule is what the visitors say of its operator. -/
theorem link_computed {ds : List SDef} {rs : List Def} (hm : MacrosOf ds rs) {ps : List (List Byte)} {e : Src} (hc : e.check ds ps = true) (hk : e.calls ps = true) :
    tokB ((e.link ds ps).toB rs) = e.isTok ∧ litB ((e.link ds ps).toB rs) = e.litTok := by
  have h := link_scan hm ps e hc hk
  refine ⟨?_, ?_⟩
  · unfold tokB Src.isTok
    rw [h.tokb, h.isLit]
  · unfold litB Src.litTok
    rw [h.lit]
    cases e.litScan none <;> rfl

mutual
/-- peglib.h 2462-2483: the test on operators is the same test. -/
theorem isLitTok_toB (rs : List Def) : ∀ (e : Ope), e.isLitTok = isLitB (e.toB rs)
  | .cho es _ _ => by rw [Ope.isLitTok, Ope.toB, isLitB]; exact isLitTokL_toB rs es
  | .seq _ _ => rfl
  | .rep _ _ _ _ => rfl
  | .and_ _ => rfl
  | .not_ _ => rfl
  | .dict _ _ => rfl
  | .lit _ _ => rfl
  | .cls _ => rfl
  | .chr _ => rfl
  | .dot => rfl
  | .capScope _ => rfl
  | .cap _ _ => rfl
  | .tok _ => rfl
  | .ign _ => rfl
  | .usr _ => rfl
  | .weak _ => rfl
  | .ref _ _ _ => rfl
  | .param _ _ => rfl
  | .ws _ => rfl
  | .bref _ => rfl
  | .prec _ _ _ _ => rfl
  | .recov _ _ _ => rfl
  | .cut => rfl
  | .null => rfl
theorem isLitTokL_toB (rs : List Def) : ∀ (es : List Ope), Ope.isLitTokL es = isLitBL (Ope.toBL rs es)
  | [] => rfl
  | e :: es => by rw [Ope.isLitTokL, Ope.toBL, isLitBL, isLitTok_toB rs e, isLitTokL_toB rs es]
end

/-- The rules before the precedence instructions. -/
structure Draft (rs : List Def) (s : SDef) (ds : List SDef) (d : Def) : Prop where
  ope : d.ope = s.body.link ds s.head.params ∨ (d.ope = .tok (s.body.link ds s.head.params) ∧ (s.body.link ds s.head.params).isLitTok = true)
  tok : d.isToken = s.body.isTok
  lit : d.errLit = s.body.litTok
  mac : d.hasMacroRef = s.head.hasMacroRef
  head : d.ignoreSV = s.head.ignoreSV ∧ d.isMacro = s.head.isMacro ∧ d.params = s.head.params ∧ d.name = s.head.name

theorem tokened_draft {mark : List Def → Nat → Bool} {S : Source} {r : Nat} {d : Def} (rs : List Def) (h : (S.tokened mark)[r]? = some d) :
    ∃ s, S.all[r]? = some s ∧ Draft rs s S.all d := by
  have h1 : ∀ (r : Nat) (d : Def), (S.marked mark)[r]? = some d → ∃ s, S.all[r]? = some s ∧ d.ope = s.body.link S.all s.head.params ∧
      d.isToken = s.body.isTok ∧ d.errLit = s.body.litTok ∧ d.hasMacroRef = s.head.hasMacroRef ∧
      (d.ignoreSV = s.head.ignoreSV ∧ d.isMacro = s.head.isMacro ∧ d.params = s.head.params ∧ d.name = s.head.name) := by
    intro r d h
    have h0 : ∀ (r : Nat) (d : Def), (linkAll S.all)[r]? = some d → ∃ s, S.all[r]? = some s ∧ d.ope = s.body.link S.all s.head.params ∧
        d.isToken = s.body.isTok ∧ d.errLit = s.body.litTok ∧ d.hasMacroRef = s.head.hasMacroRef ∧
      (d.ignoreSV = s.head.ignoreSV ∧ d.isMacro = s.head.isMacro ∧ d.params = s.head.params ∧ d.name = s.head.name) := by
      intro r d h
      cases hs : S.all[r]? with
      | none => unfold linkAll at h; rw [List.getElem?_map, hs] at h; cases h
      | some s => rw [linkAll_get hs] at h; cases h; exact ⟨s, rfl, rfl, rfl, rfl, rfl, rfl, rfl, rfl, rfl⟩
    unfold Source.marked at h
    split at h
    · rw [List.getElem?_mapIdx] at h
      cases hl : (linkAll S.all)[r]? with
      | none => rw [hl] at h; cases h
      | some d0 =>
        rw [hl] at h
        cases h
        obtain ⟨s, e1, e2, e3, e4, e5, e6⟩ := h0 r d0 hl
        exact ⟨s, e1, e2, e3, e4, e5, e6⟩
    · exact h0 r d h
  unfold Source.tokened at h
  split at h
  · rw [List.getElem?_map] at h
    cases hm : (S.marked mark)[r]? with
    | none => rw [hm] at h; cases h
    | some d0 =>
      rw [hm] at h
      cases h
      obtain ⟨s, e1, e2, e3, e4, e5, e6⟩ := h1 r d0 hm
      refine ⟨s, e1, ?_⟩
      unfold tokLit
      split
      · rename_i hl
        rw [e2] at hl
        exact ⟨.inr ⟨by rw [← e2], hl⟩, e3, e4, e5, e6⟩
      · exact ⟨.inl e2, e3, e4, e5, e6⟩
  · obtain ⟨s, e1, e2, e3, e4, e5, e6⟩ := h1 r d h
    exact ⟨s, e1, .inl e2, e3, e4, e5, e6⟩

/-- **Loaded rules have what the visitors say of their operators.** -/
theorem computed_of_load {mark loops : List Def → Nat → Bool} {order : List Nat} {S : Source} (hw : S.Wf) {G : Parser} {a : Nat}
    (h : load mark loops order S = .ok (some (G, a))) (hk : ∀ s ∈ S.all, s.body.calls s.head.params = true) (hm : ∀ s ∈ S.all, s.head.hasMacroRef = false) :
    ∀ d ∈ G.rules, d.Computed G.rules := by
  intro d hd
  have hlo := load_ok hw h
  obtain ⟨-, -, -, -, rs, hp, hrs, -, -, -⟩ := load_inv h
  have hpl : PlainOf rs G.rules := by rw [hrs]; exact setupAll_plain rs order
  have hmo : MacrosOf S.all G.rules := by
    intro r s hs
    have := hlo.heads r
    rw [linkAll_get hs] at this
    cases hr : G.rules[r]? with
    | none => rw [hr] at this; cases this
    | some d' =>
      rw [hr] at this
      simp only [Option.map_some, Option.some.injEq, Def.head3, Prod.mk.injEq] at this
      exact this.2.1
  obtain ⟨r, hr⟩ := List.getElem?_of_mem hd
  have hpr := hpl r
  rw [hr] at hpr
  cases h3 : rs[r]? with
  | none => rw [h3] at hpr; cases hpr
  | some d3 =>
    rw [h3] at hpr
    have hpr := Option.some.inj hpr
    have e1 : d.ope.plain = d3.ope.plain := congrArg Def.ope hpr
    have e2 : d.ope.toB G.rules = d3.ope.toB G.rules := by rw [← toB_plain G.rules d.ope, e1, toB_plain]
    have e3 : d.isToken = d3.isToken := (congrArg Def.isToken hpr :)
    have e4 : d.errLit = d3.errLit := (congrArg Def.errLit hpr :)
    have e5 : d.hasMacroRef = d3.hasMacroRef := (congrArg Def.hasMacroRef hpr :)
    obtain ⟨g1, g2⟩ := precAll_get hp r
    cases ht : (S.tokened mark)[r]? with
    | none => rw [g1 ht] at h3; cases h3
    | some t =>
      obtain ⟨d', f1, f2⟩ := g2 t ht
      rw [h3] at f1
      cases f1
      obtain ⟨s, hs, hdr⟩ := tokened_draft G.rules ht
      have hsm := List.mem_of_getElem? hs
      have hck : s.body.check S.all s.head.params = true := List.all_eq_true.1 hlo.refs s hsm
      have hcomp := link_computed hmo hck (hk s hsm)
      rcases f2 with ⟨-, f2⟩ | ⟨i, -, f2⟩
      · subst f2
        refine ⟨?_, ?_, ?_⟩
        · rw [e3, e2, hdr.tok]
          rcases hdr.ope with e | ⟨e, hl⟩
          · rw [e, hcomp.1]
          · rw [e]
            rw [isLitTok_toB G.rules, (link_scan hmo s.head.params s.body hck (hk s hsm)).isLit] at hl
            unfold Src.isTok
            rw [hl]
            rfl
        · rw [e4, e2, hdr.lit]
          rcases hdr.ope with e | ⟨e, hl⟩
          · rw [e, hcomp.2]
          · rw [e, ← hcomp.2]; rfl
        · rw [e5, hdr.mac, hm s hsm]
      · obtain ⟨x, y, x', t1, t2, k1, k2, sp, nx, ny, q1, q3, -, -, -, q2⟩ := applyPrec_inv f2
        have hx : ∃ e : Src, (x = e.link S.all s.head.params) ∧ e.check S.all s.head.params = true ∧ e.calls s.head.params = true := by
          rcases hdr.ope with e | ⟨e, -⟩
          · rw [e] at q1
            cases hb : s.body with
            | seq es =>
              rw [hb] at q1 hck
              have hk' := hk s hsm
              rw [hb, Src.calls] at hk'
              rw [Src.link] at q1
              rw [Src.check] at hck
              cases es with
              | nil => cases q1
              | cons e0 es0 =>
                rw [Src.checkL, Bool.and_eq_true] at hck
                rw [Src.callsL, Bool.and_eq_true] at hk'
                rw [Src.linkL] at q1
                injection q1 with q1 _
                injection q1 with q1 _
                exact ⟨e0, q1.symm, hck.1, hk'.1⟩
            | ref nm mac as =>
              exfalso
              rw [hb, Src.link] at q1
              split at q1
              · cases q1
              · split at q1 <;> cases q1
            | recov nm mac as =>
              exfalso
              rw [hb, Src.link] at q1
              split at q1
              · cases q1
              · split at q1 <;> cases q1
            | _ => rw [hb] at q1; cases q1
          · rw [e] at q1; cases q1
        obtain ⟨e, rfl, h5, h6⟩ := hx
        have hsc := link_scan hmo s.head.params e h5 h6
        refine ⟨?_, ?_, ?_⟩
        · rw [e3, e2, q2]
          show (_ || _) = (false || (tokScan (Ope.toB G.rules (e.link S.all s.head.params))).1 || !(tokScan (Ope.toB G.rules (e.link S.all s.head.params))).2)
          rw [hsc.tokb, hsc.toko, Bool.false_or]
        · rw [e4, e2, q2]; rfl
        · rw [e5, q2]; exact (hdr.mac.trans (hm s hsm))

end Verif
