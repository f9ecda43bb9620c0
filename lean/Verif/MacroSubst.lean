import Verif.Macro
/-!
# Expansions and environments

`Expands` (substitution) implies `TRel` (arguments resolved by name and passed in an environment) for grammars whose macro arguments have the form
`Ope.flat`.
-/

namespace Verif
open CharClass

mutual
/-- The expression without annotations and label flags. -/
def Ope.bones : Ope → Ope
  | .seq es _ => .seq (Ope.bonesL es) none
  | .cho es _ _ => .cho (Ope.bonesL es) false []
  | .rep e mn mx _ => .rep e.bones mn mx none
  | .and_ e => .and_ e.bones
  | .not_ e => .not_ e.bones
  | .dict w ic => .dict w ic
  | .lit s ic => .lit s ic
  | .cls c => .cls c
  | .chr c => .chr c
  | .dot => .dot
  | .capScope e => .capScope e.bones
  | .cap nm e => .cap nm e.bones
  | .tok e => .tok e.bones
  | .ign e => .ign e.bones
  | .usr id => .usr id
  | .weak r => .weak r
  | .ref r nm as => .ref r nm (Ope.bonesL as)
  | .param k nm => .param k nm
  | .ws e => .ws e.bones
  | .bref nm => .bref nm
  | .prec a b info r => .prec a.bones b.bones info r
  | .recov r nm as => .recov r nm (Ope.bonesL as)
  | .cut => .cut
  | .null => .null

def Ope.bonesL : List Ope → List Ope
  | [] => []
  | e :: es => e.bones :: Ope.bonesL es
end

/-- The number of arguments is right (the program refuses the grammar otherwise, peglib.h 4558-4580). -/
def arityOk (rs : List Def) (r : Nat) (as : List Ope) : Bool :=
  match rs[r]? with
  | some d => !d.isMacro || decide (as.length = d.params.length)
  | none => true

mutual
/-- Macro arguments that are resolved as one expects: `P` are the names of all macro parameters, `ps` those in scope.  Parameters are linked; a
reference is not named like a parameter (of any macro) and its own arguments use no parameters; there are no back references (they
resolve to null pointers). -/
def Ope.flat (rs : List Def) (P ps : List (List Byte)) : Ope → Bool
  | .seq es _ => Ope.flatL rs P ps es
  | .cho es _ _ => Ope.flatL rs P ps es
  | .rep e _ _ _ => e.flat rs P ps
  | .and_ e => e.flat rs P ps
  | .not_ e => e.flat rs P ps
  | .capScope e => e.flat rs P ps
  | .cap _ e => e.flat rs P ps
  | .tok e => e.flat rs P ps
  | .ign e => e.flat rs P ps
  | .dict _ _ => true
  | .lit _ _ => true
  | .cls _ => true
  | .chr _ => true
  | .dot => true
  | .cut => true
  | .param k nm => decide (paramIdx ps nm = some k)
  | .ref r nm as => decide (nm ∉ P) && arityOk rs r as && Ope.flatL rs P [] as
  | .usr _ => false
  | .weak _ => false
  | .ws _ => false
  | .bref _ => false
  | .prec _ _ _ _ => false
  | .recov _ _ _ => false
  | .null => false

def Ope.flatL (rs : List Def) (P ps : List (List Byte)) : List Ope → Bool
  | [] => true
  | e :: es => e.flat rs P ps && Ope.flatL rs P ps es
end

mutual
/-- Rule bodies whose macro arguments are `flat`. -/
def Ope.flatArgs (rs : List Def) (P ps : List (List Byte)) : Ope → Bool
  | .seq es _ => Ope.flatArgsL rs P ps es
  | .cho es _ _ => Ope.flatArgsL rs P ps es
  | .rep e _ _ _ => e.flatArgs rs P ps
  | .and_ e => e.flatArgs rs P ps
  | .not_ e => e.flatArgs rs P ps
  | .capScope e => e.flatArgs rs P ps
  | .cap _ e => e.flatArgs rs P ps
  | .tok e => e.flatArgs rs P ps
  | .ign e => e.flatArgs rs P ps
  | .dict _ _ => true
  | .lit _ _ => true
  | .cls _ => true
  | .chr _ => true
  | .dot => true
  | .cut => true
  | .bref _ => true
  | .param k nm => decide (paramIdx ps nm = some k)
  | .ref r _ as => arityOk rs r as && Ope.flatL rs P ps as
  | .usr _ => false
  | .weak _ => false
  | .ws _ => false
  | .prec _ _ _ _ => false
  | .recov _ _ _ => false
  | .null => false

def Ope.flatArgsL (rs : List Def) (P ps : List (List Byte)) : List Ope → Bool
  | [] => true
  | e :: es => e.flatArgs rs P ps && Ope.flatArgsL rs P ps es
end

theorem lookupArg_idx {ps : List (List Byte)} {nm : List Byte} {k : Nat} (h : paramIdx ps nm = some k) (as : List Ope) :
    lookupArg ps as nm = as[k]? := by
  unfold lookupArg
  induction ps generalizing as k with
  | nil => simp [paramIdx] at h
  | cons p ps ih =>
    unfold paramIdx at h
    rw [List.findIdx?_cons] at h
    by_cases hp : p = nm
    · simp only [hp, decide_true, if_true, Option.some.injEq] at h
      subst h
      cases as with
      | nil => rfl
      | cons a as => simp [hp]
    · simp only [hp, decide_false, Bool.false_eq_true, if_false, Option.map_eq_some_iff] at h
      obtain ⟨k', h1, rfl⟩ := h
      cases as with
      | nil => rfl
      | cons a as =>
        simp only [List.zip_cons_cons, List.find?_cons, hp, decide_false, List.getElem?_cons_succ]
        exact ih h1 as

theorem lookupArg_out {ps : List (List Byte)} {nm : List Byte} (h : nm ∉ ps) (as : List Ope) : lookupArg ps as nm = none := by
  unfold lookupArg
  rw [Option.map_eq_none_iff, List.find?_eq_none]
  intro x hx
  have := (List.of_mem_zip hx).1
  simp only [decide_eq_true_eq]
  intro e
  exact h (e ▸ this)

mutual
theorem closed_subst {rs : List Def} {P : List (List Byte)} (as : List Ope) (e : Ope) (h : e.flat rs P [] = true) : e.subst as = e := by
  cases e with
  | seq es kw => simp only [Ope.flat] at h; simp only [Ope.subst]; rw [closed_substL as es h]
  | cho es l fs => simp only [Ope.flat] at h; simp only [Ope.subst]; rw [closed_substL as es h]
  | rep e a b c => simp only [Ope.flat] at h; simp only [Ope.subst]; rw [closed_subst as e h]
  | and_ e => simp only [Ope.flat] at h; simp only [Ope.subst]; rw [closed_subst as e h]
  | not_ e => simp only [Ope.flat] at h; simp only [Ope.subst]; rw [closed_subst as e h]
  | capScope e => simp only [Ope.flat] at h; simp only [Ope.subst]; rw [closed_subst as e h]
  | cap nm e => simp only [Ope.flat] at h; simp only [Ope.subst]; rw [closed_subst as e h]
  | tok e => simp only [Ope.flat] at h; simp only [Ope.subst]; rw [closed_subst as e h]
  | ign e => simp only [Ope.flat] at h; simp only [Ope.subst]; rw [closed_subst as e h]
  | dict w ic => rfl
  | lit s ic => rfl
  | cls c => rfl
  | chr c => rfl
  | dot  => rfl
  | cut  => rfl
  | param k nm => simp [Ope.flat, paramIdx] at h
  | ref r nm bs => simp only [Ope.flat, Bool.and_eq_true] at h; simp only [Ope.subst]; rw [closed_substL as bs h.2]
  | bref nm => cases h
  | usr _ => cases h
  | weak _ => cases h
  | ws _ => cases h
  | prec _ _ _ _ => cases h
  | recov _ _ _ => cases h
  | null  => cases h

theorem closed_substL {rs : List Def} {P : List (List Byte)} (as : List Ope) (es : List Ope) (h : Ope.flatL rs P [] es = true) : Ope.substL as es = es := by
  cases es with
  | nil => rfl
  | cons e es => simp only [Ope.flatL, Bool.and_eq_true] at h; simp only [Ope.substL]; rw [closed_subst as e h.1, closed_substL as es h.2]
end

mutual
theorem resolve_subst {rs : List Def} {P ps : List (List Byte)} (hp : ∀ p ∈ ps, p ∈ P) (as : List Ope) (e : Ope) (h : e.flat rs P ps = true) : (resolve ps as e).bones = (e.subst as).bones := by
  cases e with
  | seq es kw => simp only [Ope.flat] at h; simp only [resolve, Ope.subst, Ope.bones]; rw [resolve_substL hp as es h]
  | cho es l fs => simp only [Ope.flat] at h; simp only [resolve, Ope.subst, Ope.bones]; rw [resolve_substL hp as es h]
  | rep e a b c => simp only [Ope.flat] at h; simp only [resolve, Ope.subst, Ope.bones]; rw [resolve_subst hp as e h]
  | and_ e => simp only [Ope.flat] at h; simp only [resolve, Ope.subst, Ope.bones]; rw [resolve_subst hp as e h]
  | not_ e => simp only [Ope.flat] at h; simp only [resolve, Ope.subst, Ope.bones]; rw [resolve_subst hp as e h]
  | capScope e => simp only [Ope.flat] at h; simp only [resolve, Ope.subst, Ope.bones]; rw [resolve_subst hp as e h]
  | cap nm e => simp only [Ope.flat] at h; simp only [resolve, Ope.subst, Ope.bones]; rw [resolve_subst hp as e h]
  | tok e => simp only [Ope.flat] at h; simp only [resolve, Ope.subst, Ope.bones]; rw [resolve_subst hp as e h]
  | ign e => simp only [Ope.flat] at h; simp only [resolve, Ope.subst, Ope.bones]; rw [resolve_subst hp as e h]
  | dict w ic => rfl
  | lit s ic => rfl
  | cls c => rfl
  | chr c => rfl
  | dot  => rfl
  | cut  => rfl
  | param k nm => simp only [Ope.flat, decide_eq_true_eq] at h; simp only [resolve, Ope.subst]; rw [lookupArg_idx h]
  | ref r nm bs => 
    simp only [Ope.flat, Bool.and_eq_true, decide_eq_true_eq] at h
    simp only [resolve, Ope.subst]
    rw [lookupArg_out (fun hm => h.1.1 (hp _ hm)), closed_substL as bs h.2]; rfl
  | bref nm => cases h
  | usr _ => cases h
  | weak _ => cases h
  | ws _ => cases h
  | prec _ _ _ _ => cases h
  | recov _ _ _ => cases h
  | null  => cases h

theorem resolve_substL {rs : List Def} {P ps : List (List Byte)} (hp : ∀ p ∈ ps, p ∈ P) (as : List Ope) (es : List Ope) (h : Ope.flatL rs P ps es = true) : Ope.bonesL (resolveList ps as es) = Ope.bonesL (Ope.substL as es) := by
  cases es with
  | nil => rfl
  | cons e es => simp only [Ope.flatL, Bool.and_eq_true] at h; simp only [resolveList, Ope.substL, Ope.bonesL]; rw [resolve_subst hp as e h.1, resolve_substL hp as es h.2]
end

theorem flatL_get {rs : List Def} {P ps : List (List Byte)} {as : List Ope} (h : Ope.flatL rs P ps as = true) {k : Nat} {a : Ope} (hk : as[k]? = some a) :
    a.flat rs P ps = true := by
  induction as generalizing k with
  | nil => simp at hk
  | cons b as ih =>
    simp only [Ope.flatL, Bool.and_eq_true] at h
    cases k with
    | zero => simp only [List.getElem?_cons_zero, Option.some.injEq] at hk; subst hk; exact h.1
    | succ k => exact ih h.2 (by simpa using hk)

mutual
theorem resolve_flat {rs : List Def} {P ps : List (List Byte)} (hp : ∀ p ∈ ps, p ∈ P) {as : List Ope} (ha : Ope.flatL rs P [] as = true ∧ ps.length ≤ as.length) (e : Ope) (h : e.flat rs P ps = true) : (resolve ps as e).flat rs P [] = true := by
  cases e with
  | seq es kw => simp only [Ope.flat] at h; simp only [resolve, Ope.flat]; exact resolve_flatL hp ha es h
  | cho es l fs => simp only [Ope.flat] at h; simp only [resolve, Ope.flat]; exact resolve_flatL hp ha es h
  | rep e a b c => simp only [Ope.flat] at h; simp only [resolve, Ope.flat]; exact resolve_flat hp ha e h
  | and_ e => simp only [Ope.flat] at h; simp only [resolve, Ope.flat]; exact resolve_flat hp ha e h
  | not_ e => simp only [Ope.flat] at h; simp only [resolve, Ope.flat]; exact resolve_flat hp ha e h
  | capScope e => simp only [Ope.flat] at h; simp only [resolve, Ope.flat]; exact resolve_flat hp ha e h
  | cap nm e => simp only [Ope.flat] at h; simp only [resolve, Ope.flat]; exact resolve_flat hp ha e h
  | tok e => simp only [Ope.flat] at h; simp only [resolve, Ope.flat]; exact resolve_flat hp ha e h
  | ign e => simp only [Ope.flat] at h; simp only [resolve, Ope.flat]; exact resolve_flat hp ha e h
  | dict w ic => rfl
  | lit s ic => rfl
  | cls c => rfl
  | chr c => rfl
  | dot  => rfl
  | cut  => rfl
  | param k nm => 
    simp only [Ope.flat, decide_eq_true_eq] at h; simp only [resolve]; rw [lookupArg_idx h]
    have hl : k < as.length := by
      have := (List.getElem?_eq_some_iff.1 (paramIdx_some h)).1
      omega
    rw [List.getElem?_eq_getElem hl]
    exact flatL_get ha.1 (List.getElem?_eq_getElem hl)
  | ref r nm bs => 
    simp only [Ope.flat, Bool.and_eq_true, decide_eq_true_eq] at h
    simp only [resolve]
    rw [lookupArg_out (fun hm => h.1.1 (hp _ hm))]
    simp only [Option.getD_none, Ope.flat, Bool.and_eq_true, decide_eq_true_eq]
    exact h
  | bref nm => cases h
  | usr _ => cases h
  | weak _ => cases h
  | ws _ => cases h
  | prec _ _ _ _ => cases h
  | recov _ _ _ => cases h
  | null  => cases h

theorem resolve_flatL {rs : List Def} {P ps : List (List Byte)} (hp : ∀ p ∈ ps, p ∈ P) {as : List Ope} (ha : Ope.flatL rs P [] as = true ∧ ps.length ≤ as.length) (es : List Ope) (h : Ope.flatL rs P ps es = true) : Ope.flatL rs P [] (resolveList ps as es) = true := by
  cases es with
  | nil => rfl
  | cons e es => simp only [Ope.flatL, Bool.and_eq_true] at h; simp only [resolveList, Ope.flatL, Bool.and_eq_true]; exact ⟨resolve_flat hp ha e h.1, resolve_flatL hp ha es h.2⟩
end

mutual
theorem closed_flat {rs : List Def} {P : List (List Byte)} (ps : List (List Byte)) (e : Ope) (h : e.flat rs P [] = true) : e.flat rs P ps = true := by
  cases e with
  | seq es kw => simp only [Ope.flat] at h ⊢; exact closed_flatL ps es h
  | cho es l fs => simp only [Ope.flat] at h ⊢; exact closed_flatL ps es h
  | rep e a b c => simp only [Ope.flat] at h ⊢; exact closed_flat ps e h
  | and_ e => simp only [Ope.flat] at h ⊢; exact closed_flat ps e h
  | not_ e => simp only [Ope.flat] at h ⊢; exact closed_flat ps e h
  | capScope e => simp only [Ope.flat] at h ⊢; exact closed_flat ps e h
  | cap nm e => simp only [Ope.flat] at h ⊢; exact closed_flat ps e h
  | tok e => simp only [Ope.flat] at h ⊢; exact closed_flat ps e h
  | ign e => simp only [Ope.flat] at h ⊢; exact closed_flat ps e h
  | dict w ic => rfl
  | lit s ic => rfl
  | cls c => rfl
  | chr c => rfl
  | dot  => rfl
  | cut  => rfl
  | param k nm => simp [Ope.flat, paramIdx] at h
  | ref r nm bs => exact h
  | bref nm => cases h
  | usr _ => cases h
  | weak _ => cases h
  | ws _ => cases h
  | prec _ _ _ _ => cases h
  | recov _ _ _ => cases h
  | null  => cases h

theorem closed_flatL {rs : List Def} {P : List (List Byte)} (ps : List (List Byte)) (es : List Ope) (h : Ope.flatL rs P [] es = true) : Ope.flatL rs P ps es = true := by
  cases es with
  | nil => rfl
  | cons e es => simp only [Ope.flatL, Bool.and_eq_true] at h ⊢; exact ⟨closed_flat ps e h.1, closed_flatL ps es h.2⟩
end

mutual
theorem closed_flatArgs {rs : List Def} {P : List (List Byte)} (ps : List (List Byte)) (e : Ope) (h : e.flat rs P [] = true) : e.flatArgs rs P ps = true := by
  cases e with
  | seq es kw => simp only [Ope.flat] at h; simp only [Ope.flatArgs]; exact closed_flatArgsL ps es h
  | cho es l fs => simp only [Ope.flat] at h; simp only [Ope.flatArgs]; exact closed_flatArgsL ps es h
  | rep e a b c => simp only [Ope.flat] at h; simp only [Ope.flatArgs]; exact closed_flatArgs ps e h
  | and_ e => simp only [Ope.flat] at h; simp only [Ope.flatArgs]; exact closed_flatArgs ps e h
  | not_ e => simp only [Ope.flat] at h; simp only [Ope.flatArgs]; exact closed_flatArgs ps e h
  | capScope e => simp only [Ope.flat] at h; simp only [Ope.flatArgs]; exact closed_flatArgs ps e h
  | cap nm e => simp only [Ope.flat] at h; simp only [Ope.flatArgs]; exact closed_flatArgs ps e h
  | tok e => simp only [Ope.flat] at h; simp only [Ope.flatArgs]; exact closed_flatArgs ps e h
  | ign e => simp only [Ope.flat] at h; simp only [Ope.flatArgs]; exact closed_flatArgs ps e h
  | dict w ic => rfl
  | lit s ic => rfl
  | cls c => rfl
  | chr c => rfl
  | dot  => rfl
  | cut  => rfl
  | param k nm => simp [Ope.flat, paramIdx] at h
  | ref r nm bs => simp only [Ope.flat, Bool.and_eq_true] at h; simp only [Ope.flatArgs, Bool.and_eq_true]; exact ⟨h.1.2, closed_flatL ps bs h.2⟩
  | bref nm => cases h
  | usr _ => cases h
  | weak _ => cases h
  | ws _ => cases h
  | prec _ _ _ _ => cases h
  | recov _ _ _ => cases h
  | null  => cases h

theorem closed_flatArgsL {rs : List Def} {P : List (List Byte)} (ps : List (List Byte)) (es : List Ope) (h : Ope.flatL rs P [] es = true) : Ope.flatArgsL rs P ps es = true := by
  cases es with
  | nil => rfl
  | cons e es => simp only [Ope.flatL, Bool.and_eq_true] at h; simp only [Ope.flatArgsL, Bool.and_eq_true]; exact ⟨closed_flatArgs ps e h.1, closed_flatArgsL ps es h.2⟩
end

theorem bonesL_get {as as' : List Ope} (h : Ope.bonesL as = Ope.bonesL as') (k : Nat) : (as[k]?).map Ope.bones = (as'[k]?).map Ope.bones := by
  induction as generalizing as' k with
  | nil => cases as' with
    | nil => rfl
    | cons _ _ => simp [Ope.bonesL] at h
  | cons a as ih => cases as' with
    | nil => simp [Ope.bonesL] at h
    | cons b bs =>
      simp only [Ope.bonesL, List.cons.injEq] at h
      cases k with
      | zero => simpa using h.1
      | succ k => simpa using ih h.2 k

mutual
theorem subst_bones {as as' : List Ope} (h : Ope.bonesL as = Ope.bonesL as') (e : Ope) : (e.subst as).bones = (e.subst as').bones := by
  cases e with
  | param k nm =>
    have := bonesL_get h k
    simp only [Ope.subst]
    cases h1 : as[k]? with
    | none =>
      rw [h1] at this
      cases h2 : as'[k]? with
      | none => rfl
      | some b => rw [h2] at this; cases this
    | some a =>
      rw [h1] at this
      cases h2 : as'[k]? with
      | none => rw [h2] at this; cases this
      | some b => rw [h2] at this; simpa using this
  | seq es kw => simp only [Ope.subst, Ope.bones, subst_bonesL h es]
  | cho es l fs => simp only [Ope.subst, Ope.bones, subst_bonesL h es]
  | ref r nm es => simp only [Ope.subst, Ope.bones, subst_bonesL h es]
  | recov r nm es => simp only [Ope.subst, Ope.bones, subst_bonesL h es]
  | prec a b info r => simp only [Ope.subst, Ope.bones, subst_bones h a, subst_bones h b]
  | rep e a b c => simp only [Ope.subst, Ope.bones, subst_bones h e]
  | cap nm e => simp only [Ope.subst, Ope.bones, subst_bones h e]
  | and_ e => simp only [Ope.subst, Ope.bones, subst_bones h e]
  | not_ e => simp only [Ope.subst, Ope.bones, subst_bones h e]
  | capScope e => simp only [Ope.subst, Ope.bones, subst_bones h e]
  | tok e => simp only [Ope.subst, Ope.bones, subst_bones h e]
  | ign e => simp only [Ope.subst, Ope.bones, subst_bones h e]
  | ws e => simp only [Ope.subst, Ope.bones, subst_bones h e]
  | dict _ _ => simp only [Ope.subst]
  | lit _ _ => simp only [Ope.subst]
  | cls _ => simp only [Ope.subst]
  | chr _ => simp only [Ope.subst]
  | dot  => simp only [Ope.subst]
  | usr _ => simp only [Ope.subst]
  | weak _ => simp only [Ope.subst]
  | bref _ => simp only [Ope.subst]
  | cut  => simp only [Ope.subst]
  | null  => simp only [Ope.subst]

theorem subst_bonesL {as as' : List Ope} (h : Ope.bonesL as = Ope.bonesL as') (es : List Ope) :
    Ope.bonesL (Ope.substL as es) = Ope.bonesL (Ope.substL as' es) := by
  cases es with
  | nil => rfl
  | cons e es => simp only [Ope.substL, Ope.bonesL, subst_bones h e, subst_bonesL h es]
end

/-- What the macro-argument discipline asks of a grammar. -/
structure MacroOk (rs : List Def) (P : List (List Byte)) : Prop where
  params : ∀ (r : Nat) (d : Def), rs[r]? = some d → d.isMacro = true → ∀ p ∈ d.params, p ∈ P
  plain : ∀ (r : Nat) (d : Def), rs[r]? = some d → d.isMacro = false → d.params = []
  bodies : ∀ (r : Nat) (d : Def), rs[r]? = some d → d.ope.flatArgs rs P d.params = true

structure MEnvOk (rs : List Def) (P : List (List Byte)) (v : Env) : Prop where
  params : ∀ p ∈ v.params, p ∈ P
  closed : Ope.flatL rs P [] v.args = true
  len : v.params.length ≤ v.args.length

theorem MEnvOk.call {rs : List Def} {P : List (List Byte)} {v : Env} (hv : MEnvOk rs P v) (hm : MacroOk rs P) {r : Nat} {d : Def} {as : List Ope}
    (hd : rs[r]? = some d) (hx : d.isMacro = true) (ha : arityOk rs r as = true) (hf : Ope.flatL rs P v.params as = true) :
    MEnvOk rs P ⟨d.params, resolveList v.params v.args as⟩ where
  params := hm.params _ _ hd hx
  closed := resolve_flatL hv.params ⟨hv.closed, hv.len⟩ as hf
  len := by
    unfold arityOk at ha
    simp only [hd, hx, Bool.not_true, Bool.false_or, decide_eq_true_eq] at ha
    simp only [resolveList_length]; omega

/-- A parameter is as good as its argument. -/
theorem expand_param {rs : List Def} {P : List (List Byte)} {v : Env} (hv : MEnvOk rs P v) {X X' : Ope}
    (hX : ∀ k nm, X ≠ .param k nm)
    (h : ∀ e : Ope, (∀ k nm, e ≠ .param k nm) → e.flatArgs rs P v.params = true → (e.subst v.args).bones = X.bones → TRel rs v (.ope e) (.ope X'))
    (e : Ope) (he : e.flatArgs rs P v.params = true) (hb : (e.subst v.args).bones = X.bones) : TRel rs v (.ope e) (.ope X') := by
  by_cases hp : ∃ k nm, e = .param k nm
  · obtain ⟨k, nm, rfl⟩ := hp
    simp only [Ope.subst] at hb
    cases hk : v.args[k]? with
    | none =>
      rw [hk] at hb
      exfalso
      cases X <;> simp [Ope.bones] at hb
      exact hX _ _ rfl
    | some a =>
      rw [hk] at hb
      have ha := flatL_get hv.closed hk
      refine .param hk (h a ?_ (closed_flatArgs _ a ha) ?_)
      · rintro k' nm' rfl
        simp [Ope.flat, paramIdx] at ha
      · rw [closed_subst _ a ha]; exact hb
  · exact h e (fun k nm e' => hp ⟨k, nm, e'⟩) he hb

theorem expands_trel {rs : List Def} {P : List (List Byte)} (hm : MacroOk rs P) {X X' : List Ope} (h : Expands rs X X') :
    ∀ v es, MEnvOk rs P v → Ope.flatArgsL rs P v.params es = true → Ope.bonesL (Ope.substL v.args es) = Ope.bonesL X →
      TRel rs v (.seqL es) (.seqL X') := by
  have one : ∀ {v : Env} {x x' : Ope}, MEnvOk rs P v → (∀ k nm, x ≠ .param k nm) →
      (∀ e : Ope, (∀ k nm, e ≠ .param k nm) → e.flatArgs rs P v.params = true → (e.subst v.args).bones = x.bones → TRel rs v (.ope e) (.ope x')) →
      ∀ es, Ope.flatArgsL rs P v.params es = true → Ope.bonesL (Ope.substL v.args es) = Ope.bonesL [x] → TRel rs v (.seqL es) (.seqL [x']) := by
    intro v x x' hv hx h es hes hb
    match es, hes, hb with
    | [], _, hb => simp [Ope.substL, Ope.bonesL] at hb
    | [e], hes, hb =>
      simp only [Ope.flatArgsL, Bool.and_eq_true] at hes
      simp only [Ope.substL, Ope.bonesL, List.cons.injEq] at hb
      exact .cons (expand_param hv hx h e hes.1 hb.1) .nil
    | e :: e1 :: es, _, hb => simp [Ope.substL, Ope.bonesL] at hb
  have un : ∀ {v : Env} {e e' : Ope}, TRel rs v (.seqL [e]) (.seqL [e']) → TRel rs v (.ope e) (.ope e') := by
    intro v e e' h; cases h with | cons h _ => exact h
  induction h with
  | nil =>
    intro v es _ _ hb
    cases es with
    | nil => exact .nil
    | cons e es => simp [Ope.substL, Ope.bonesL] at hb
  | cons _ _ ih1 ih2 =>
    intro v es hv hes hb
    cases es with
    | nil => simp [Ope.substL, Ope.bonesL] at hb
    | cons e es =>
      simp only [Ope.flatArgsL, Bool.and_eq_true] at hes
      simp only [Ope.substL, Ope.bonesL, List.cons.injEq] at hb
      refine .cons (un (ih1 v [e] hv ?_ ?_)) (ih2 v es hv hes.2 hb.2)
      · simp [Ope.flatArgsL, hes.1]
      · simp [Ope.substL, Ope.bonesL, hb.1]
  | @call r nm as d e' h1 h2 _ ih =>
    intro v es hv
    refine one hv (by simp) ?_ es
    intro e hn he hb
    cases e <;> simp only [Ope.subst, Ope.bones, reduceCtorEq] at hb
    · rename_i r' nm' as'
      injection hb with e1 e2 e3
      subst e1; subst e2
      simp only [Ope.flatArgs, Bool.and_eq_true] at he
      refine .call h1 h2 (un (ih _ [d.ope] (hv.call hm h1 h2 he.1 he.2) ?_ ?_))
      · simp only [Ope.flatArgsL, Bool.and_eq_true, and_true]; exact hm.bodies _ _ h1
      · simp only [Ope.substL, Ope.bonesL, List.cons.injEq, and_true]
        exact subst_bones ((resolve_substL hv.params _ _ he.2).trans e3) _
    · exact absurd rfl (hn _ _)
  | @ref r nm as d h1 h2 =>
    intro v es hv
    refine one hv (by simp) ?_ es
    intro e hn he hb
    cases e <;> simp only [Ope.subst, Ope.bones, reduceCtorEq] at hb
    · injection hb with e1 e2 e3
      subst e1; subst e2
      exact .ref h1 h2
    · exact absurd rfl (hn _ _)
  | @leaf e0 h1 =>
    intro v es hv
    refine one hv (by rintro k nm rfl; cases h1) ?_ es
    intro e hn he hb
    have : e = e0 := by
      cases e0 <;> simp only [Ope.leaf, Bool.false_eq_true] at h1 <;> cases e <;> simp only [Ope.subst, Ope.bones, reduceCtorEq] at hb <;>
        first | rfl | exact hb | exact absurd rfl (hn _ _)
    subst this
    exact .leaf h1
  | @seq es es' kw kw' _ ih =>
    intro v es hv
    refine one hv (by simp) ?_ es
    intro e hn he hb
    cases e <;> simp only [Ope.subst, Ope.bones, reduceCtorEq] at hb
    · injection hb with e1
      simp only [Ope.flatArgs] at he
      exact .seq (ih v _ hv he e1)
    · exact absurd rfl (hn _ _)
  | @cho es es' l l' fs fs' _ ih =>
    intro v es hv
    refine one hv (by simp) ?_ es
    intro e hn he hb
    cases e <;> simp only [Ope.subst, Ope.bones, reduceCtorEq] at hb
    · injection hb with e1
      simp only [Ope.flatArgs] at he
      exact .cho (ih v _ hv he e1)
    · exact absurd rfl (hn _ _)
  | @rep e0 e' a b c c' _ ih =>
    intro v es hv
    refine one hv (by simp) ?_ es
    intro e hn he hb
    cases e <;> simp only [Ope.subst, Ope.bones, reduceCtorEq] at hb
    · injection hb with e1 e2 e3
      simp only [Ope.flatArgs] at he
      subst e2; subst e3
      exact .rep (un (ih v [_] hv (by simp [Ope.flatArgsL, he]) (by simp [Ope.substL, Ope.bonesL, e1])))
    · exact absurd rfl (hn _ _)
  | @and_ e0 e' _ ih =>
    intro v es hv
    refine one hv (by simp) ?_ es
    intro e hn he hb
    cases e <;> simp only [Ope.subst, Ope.bones, reduceCtorEq] at hb
    · injection hb with e1
      simp only [Ope.flatArgs] at he
      exact .and_ (un (ih v [_] hv (by simp [Ope.flatArgsL, he]) (by simp [Ope.substL, Ope.bonesL, e1])))
    · exact absurd rfl (hn _ _)
  | @not_ e0 e' _ ih =>
    intro v es hv
    refine one hv (by simp) ?_ es
    intro e hn he hb
    cases e <;> simp only [Ope.subst, Ope.bones, reduceCtorEq] at hb
    · injection hb with e1
      simp only [Ope.flatArgs] at he
      exact .not_ (un (ih v [_] hv (by simp [Ope.flatArgsL, he]) (by simp [Ope.substL, Ope.bonesL, e1])))
    · exact absurd rfl (hn _ _)
  | @capScope e0 e' _ ih =>
    intro v es hv
    refine one hv (by simp) ?_ es
    intro e hn he hb
    cases e <;> simp only [Ope.subst, Ope.bones, reduceCtorEq] at hb
    · injection hb with e1
      simp only [Ope.flatArgs] at he
      exact .capScope (un (ih v [_] hv (by simp [Ope.flatArgsL, he]) (by simp [Ope.substL, Ope.bonesL, e1])))
    · exact absurd rfl (hn _ _)
  | @cap nm e0 e' _ ih =>
    intro v es hv
    refine one hv (by simp) ?_ es
    intro e hn he hb
    cases e <;> simp only [Ope.subst, Ope.bones, reduceCtorEq] at hb
    · injection hb with e2 e1
      simp only [Ope.flatArgs] at he
      subst e2
      exact .cap (un (ih v [_] hv (by simp [Ope.flatArgsL, he]) (by simp [Ope.substL, Ope.bonesL, e1])))
    · exact absurd rfl (hn _ _)
  | @tok e0 e' _ ih =>
    intro v es hv
    refine one hv (by simp) ?_ es
    intro e hn he hb
    cases e <;> simp only [Ope.subst, Ope.bones, reduceCtorEq] at hb
    · injection hb with e1
      simp only [Ope.flatArgs] at he
      exact .tok (un (ih v [_] hv (by simp [Ope.flatArgsL, he]) (by simp [Ope.substL, Ope.bonesL, e1])))
    · exact absurd rfl (hn _ _)
  | @ign e0 e' _ ih =>
    intro v es hv
    refine one hv (by simp) ?_ es
    intro e hn he hb
    cases e <;> simp only [Ope.subst, Ope.bones, reduceCtorEq] at hb
    · injection hb with e1
      simp only [Ope.flatArgs] at he
      exact .ign (un (ih v [_] hv (by simp [Ope.flatArgsL, he]) (by simp [Ope.substL, Ope.bonesL, e1])))
    · exact absurd rfl (hn _ _)

mutual
theorem subst_nil (e : Ope) : (e.subst []).bones = e.bones := by
  cases e with
  | param k nm => simp [Ope.subst]
  | seq es kw => simp only [Ope.subst, Ope.bones, subst_nilL es]
  | cho es l fs => simp only [Ope.subst, Ope.bones, subst_nilL es]
  | ref r nm es => simp only [Ope.subst, Ope.bones, subst_nilL es]
  | recov r nm es => simp only [Ope.subst, Ope.bones, subst_nilL es]
  | prec a b info r => simp only [Ope.subst, Ope.bones, subst_nil a, subst_nil b]
  | rep e a b c => simp only [Ope.subst, Ope.bones, subst_nil e]
  | cap nm e => simp only [Ope.subst, Ope.bones, subst_nil e]
  | and_ e => simp only [Ope.subst, Ope.bones, subst_nil e]
  | not_ e => simp only [Ope.subst, Ope.bones, subst_nil e]
  | capScope e => simp only [Ope.subst, Ope.bones, subst_nil e]
  | tok e => simp only [Ope.subst, Ope.bones, subst_nil e]
  | ign e => simp only [Ope.subst, Ope.bones, subst_nil e]
  | ws e => simp only [Ope.subst, Ope.bones, subst_nil e]
  | dict _ _ => simp only [Ope.subst]
  | lit _ _ => simp only [Ope.subst]
  | cls _ => simp only [Ope.subst]
  | chr _ => simp only [Ope.subst]
  | dot  => simp only [Ope.subst]
  | usr _ => simp only [Ope.subst]
  | weak _ => simp only [Ope.subst]
  | bref _ => simp only [Ope.subst]
  | cut  => simp only [Ope.subst]
  | null  => simp only [Ope.subst]

theorem subst_nilL (es : List Ope) : Ope.bonesL (Ope.substL [] es) = Ope.bonesL es := by
  cases es with
  | nil => rfl
  | cons e es => simp only [Ope.substL, Ope.bonesL, subst_nil e, subst_nilL es]
end

end Verif
