import Verif.DerParse
/-!
# Invariants of semantic values

`Chain`: the values of a scope belong to consecutive stretches of text.  An invariant of values that every action establishes
holds for the values of every match.
-/

namespace Verif
open Out CharClass

variable {V : Type}

/-- The values `vs` belong to consecutive, non-overlapping stretches between `i` and `j` that start and end at positions satisfying
`al`; `Inv a c v` holds for the value `v` of the stretch from `a` to `c`. -/
inductive Chain (al : Nat → Prop) (Inv : Nat → Nat → Option V → Prop) : Nat → Nat → List (Option V) → Prop where
  | nil {i j} : i ≤ j → Chain al Inv i j []
  | cons {i a c j v vs} : i ≤ a → a ≤ c → al a → al c → Inv a c v → Chain al Inv c j vs → Chain al Inv i j (v :: vs)

/-- A scope whose values and tokens lie between `b` and `j`. -/
structure Fr (al : Nat → Prop) (Inv : Nat → Nat → Option V → Prop) (b j : Nat) (f : Frame V) : Prop where
  vals : Chain al Inv b j f.vals
  toks : ∀ t ∈ f.tokens, b ≤ t.1 ∧ t.1 + t.2 ≤ j ∧ al t.1 ∧ al (t.1 + t.2)

/-- A value belonging to some stretch between `i` and `j`. -/
def RV (al : Nat → Prop) (Inv : Nat → Nat → Option V → Prop) (i j : Nat) (v : Option V) : Prop :=
  ∃ a c, i ≤ a ∧ a ≤ c ∧ c ≤ j ∧ al a ∧ al c ∧ Inv a c v

section
variable {al : Nat → Prop} {Inv : Nat → Nat → Option V → Prop}

theorem Chain.le {i j : Nat} {vs : List (Option V)} (h : Chain al Inv i j vs) : i ≤ j := by
  induction h <;> omega

theorem Chain.mono {i j k : Nat} {vs : List (Option V)} (h : Chain al Inv i j vs) (hk : j ≤ k) : Chain al Inv i k vs := by
  induction h with
  | nil h => exact .nil (by omega)
  | cons h1 h2 h3 h4 h5 _ ih => exact .cons h1 h2 h3 h4 h5 (ih hk)

theorem Chain.snoc {i j a c k : Nat} {v : Option V} {vs : List (Option V)} (h : Chain al Inv i j vs) (h1 : j ≤ a) (h2 : a ≤ c)
    (h3 : c ≤ k) (ha : al a) (hc : al c) (hv : Inv a c v) : Chain al Inv i k (vs ++ [v]) := by
  induction h with
  | nil h => exact .cons (by omega) h2 ha hc hv (.nil h3)
  | cons g1 g2 g3 g4 g5 _ ih => exact .cons g1 g2 g3 g4 g5 (ih h1)

theorem Chain.head {i j : Nat} {v : Option V} {vs : List (Option V)} (h : Chain al Inv i j (v :: vs)) : RV al Inv i j v := by
  cases h with
  | cons h1 h2 h3 h4 h5 h6 => exact ⟨_, _, h1, h2, h6.le, h3, h4, h5⟩

theorem Fr.mono {b j k : Nat} {f : Frame V} (h : Fr al Inv b j f) (hk : j ≤ k) : Fr al Inv b k f :=
  ⟨h.vals.mono hk, fun t ht => by obtain ⟨h1, h2, h3⟩ := h.toks t ht; exact ⟨h1, by omega, h3⟩⟩

theorem Fr.push {b j k : Nat} {f : Frame V} {v : Option V} (h : Fr al Inv b j f) (hv : RV al Inv j k v) :
    Fr al Inv b k (f.addVal v) := by
  obtain ⟨a, c, h1, h2, h3, h4, h5, h6⟩ := hv
  exact ⟨h.vals.snoc h1 h2 h3 h4 h5 h6, (h.mono (by omega)).toks⟩

theorem Fr.tok {b i j : Nat} {f : Frame V} (h : Fr al Inv b j f) (hb : b ≤ i) (hi : i ≤ j) (hai : al i) (haj : al j) :
    Fr al Inv b j (f.addTok (i, j - i)) := by
  refine ⟨h.vals, ?_⟩
  intro t ht
  rcases List.mem_append.mp ht with ht | ht
  · exact h.toks t ht
  · rw [List.mem_singleton] at ht
    subst ht
    dsimp only
    rw [show i + (j - i) = j by omega]
    exact ⟨hb, Nat.le_refl _, hai, haj⟩

theorem Fr.empty (b : Nat) : Fr al Inv b b ({} : Frame V) := ⟨.nil (Nat.le_refl _), by intro t ht; cases ht⟩

theorem Fr.le {b j : Nat} {f : Frame V} (h : Fr al Inv b j f) : b ≤ j := h.vals.le
end

/-- The invariant is established by every callback.  A value may be missing only if a rule has no action or errors are recovered. -/
structure ValInv (cfg : Cfg V) (L : Lg) (Inv : Nat → Nat → Option V → Prop) : Prop where
  act : ∀ r a f dt pd i j, cfg.action r = some a → f.sv = (i, j - i) → i ≤ j → L.al i → L.al j → Fr L.al Inv i j f →
    Inv i j (a f dt pd).1
  noact : (∃ r d, cfg.rules[r]? = some d ∧ d.isMacro = false ∧ (cfg.action r = none ∨ d.disableAction = true)) → ∀ i, Inv i i none
  recov : L.K.recov = true → ∀ i, Inv i i none
  leave : ∀ r l i j v dt, cfg.leave r = some l → L.al i → L.al j → RV L.al Inv i j v → RV L.al Inv i j (l i (some j) v dt).1
  user : ∀ id i f dt k b, L.usr id → (cfg.user id i f dt).1 = some k → i + k ≤ cfg.input.length → L.al i → L.al (i + k) →
    Fr L.al Inv b i f → Fr L.al Inv b (i + k) (cfg.user id i f dt).2.1

/-- Where the scope of a task may begin. -/
def DTask.base (al : Nat → Prop) : DTask V → Nat → Nat → Prop
  | .ope (.prec ..), i, b => b = i
  | .prec .., i, b => b = i
  | .body _, i, b => b = i
  | .precLoop _ _ _ _ _ s, _, b => b = s ∧ al s
  | .rule .., _, _ => False
  | _, _, _ => True

theorem base_ok {L : Lg} {al : Nat → Prop} {e : Ope} (h : e.Ok L) (i b : Nat) : (DTask.ope e : DTask V).base al i b := by
  cases e <;> first | trivial | (simp only [Ope.Ok] at h)

theorem base_top {al : Nat → Prop} (e : Ope) (i : Nat) : (DTask.ope e : DTask V).base al i i := by
  cases e <;> first | trivial | rfl

theorem Ope.Ok.not_prec {L : Lg} {e : Ope} (h : BodyOk L e) (h' : ∀ a b i q, e ≠ .prec a b i q) : e.Ok L := by
  rcases h with h | ⟨a, b, info, q, rfl, _⟩
  · exact h
  · exact absurd rfl (h' _ _ _ _)

/-- What a derivation does to values. -/
theorem Der.vals {cfg : Cfg V} {L : Lg} {Inv : Nat → Nat → Option V → Prop} (H : DHyp cfg L) (HV : ValInv cfg L Inv)
    (hr : cfg.recognizeOnly = false) {E : DEnv} {t : DTask V} {i : Nat} {f : Frame V} {j : Nat} {f' : Frame V}
    (h : Der cfg L.K E t i f j f') (hE : DEnv.Ok L E) (ht : t.Ok L) (hi : L.al i) :
    (∀ b, t.base L.al i b → Fr L.al Inv b i f → Fr L.al Inv b j f') ∧ ∀ r v, t = .rule r v → RV L.al Inv i j v := by
  induction h with
  | noSkip => exact ⟨fun b _ h => h, by intro r v e; cases e⟩
  | skip hw _ ih =>
    have hwk := (H.ws _ hw).1
    exact ⟨fun b _ h => (ih hE (.inl hwk) hi).1 b (base_ok hwk _ _) h, by intro r v e; cases e⟩
  | wsIn => exact ⟨fun b _ h => h, by intro r v e; cases e⟩
  | ws _ ih =>
    have hk := Ope.Ok.not_prec ht (by intro _ _ _ _ e; cases e)
    simp only [Ope.Ok] at hk
    exact ⟨fun b _ h => (ih hE (.inl hk) hi).1 b (base_ok hk _ _) h, by intro r v e; cases e⟩
  | one h1 h2 => exact ⟨fun b _ h => h.mono (by omega), by intro r v e; cases e⟩
  | lit h1 hd ih =>
    have ha := H.closed _ _ _ {} _ _ hE ht hi (.lit h1 .noSkip)
    exact ⟨fun b _ h => (ih hE trivial ha).1 b trivial (h.mono (by omega)), by intro r v e; cases e⟩
  | dict h1 h2 hd ih =>
    have ha := H.closed _ _ _ {} _ _ hE ht hi (.dict h1 h2 .noSkip)
    refine ⟨fun b _ h => (ih hE trivial ha).1 b trivial (Fr.mono (j := _) ⟨h.vals, h.toks⟩ (by omega)), by intro r v e; cases e⟩
  | bref h1 h2 hd ih =>
    have ha := H.closed _ _ _ {} _ _ hE ht hi (.bref h1 h2 .noSkip)
    exact ⟨fun b _ h => (ih hE trivial ha).1 b trivial (h.mono (by omega)), by intro r v e; cases e⟩
  | usr h1 h2 =>
    have ha := H.closed _ _ _ _ _ _ hE ht hi (.usr h1 h2)
    have hk := Ope.Ok.not_prec ht (by intro _ _ _ _ e; cases e)
    simp only [Ope.Ok] at hk
    exact ⟨fun b _ h => HV.user _ _ _ _ _ b hk h1 h2 hi ha h, by intro r v e; cases e⟩
  | seq _ ih =>
    have hk := Ope.Ok.not_prec ht (by intro _ _ _ _ e; cases e)
    simp only [Ope.Ok] at hk
    exact ⟨fun b _ h => (ih hE hk.2 hi).1 b trivial h, by intro r v e; cases e⟩
  | @word E es kw k i f j f' h1 hd ih =>
    have ha := H.closed _ _ _ {} _ _ hE ht hi (.word h1 .noSkip)
    refine ⟨fun b _ h => (ih hE trivial ha).1 b trivial ?_, by intro r v e; cases e⟩
    have := (h.mono (show i ≤ i + k by omega)).tok (i := i) h.le (by omega) hi ha
    rwa [show i + k - i = k by omega] at this
  | nil => exact ⟨fun b _ h => h, by intro r v e; cases e⟩
  | @cons E e es i f k g j f' h1 h2 ih1 ih2 =>
    simp only [DTask.Ok, Ope.OkL] at ht
    have ha := H.closed _ (.ope e) _ _ _ _ hE (.inl ht.1) hi h1
    exact ⟨fun b _ h => (ih2 hE ht.2 ha).1 b trivial ((ih1 hE (.inl ht.1) hi).1 b (base_ok ht.1 _ _) h), by intro r v e; cases e⟩
  | cho h1 h2 ih =>
    have hk := Ope.Ok.not_prec ht (by intro _ _ _ _ e; cases e)
    simp only [Ope.Ok] at hk
    have hk := okL_iff.mp hk _ (List.mem_of_getElem? h1)
    refine ⟨fun b _ h => ?_, by intro r v e; cases e⟩
    have := (ih hE (.inl hk) hi).1 b (base_ok hk _ _) h
    exact ⟨this.vals, this.toks⟩
  | cut => exact ⟨fun b _ h => h, by intro r v e; cases e⟩
  | rep _ _ _ ih =>
    have hk := Ope.Ok.not_prec ht (by intro _ _ _ _ e; cases e)
    simp only [Ope.Ok] at hk
    exact ⟨fun b _ h => (ih hE hk.2 hi).1 b trivial h, by intro r v e; cases e⟩
  | span => exact ⟨fun b _ h => h.mono (by omega), by intro r v e; cases e⟩
  | zero => exact ⟨fun b _ h => h, by intro r v e; cases e⟩
  | @succ E e n i f k g j f' h1 h2 ih1 ih2 =>
    have ha := H.closed _ (.ope e) _ _ _ _ hE (.inl ht) hi h1
    exact ⟨fun b _ h => (ih2 hE ht ha).1 b trivial ((ih1 hE (.inl ht) hi).1 b (base_ok ht _ _) h), by intro r v e; cases e⟩
  | and => exact ⟨fun b _ h => h, by intro r v e; cases e⟩
  | not => exact ⟨fun b _ h => h, by intro r v e; cases e⟩
  | capScope _ ih =>
    have hk := Ope.Ok.not_prec ht (by intro _ _ _ _ e; cases e)
    simp only [Ope.Ok] at hk
    exact ⟨fun b _ h => (ih hE (.inl hk) hi).1 b (base_ok hk _ _) h, by intro r v e; cases e⟩
  | cap _ ih =>
    have hk := Ope.Ok.not_prec ht (by intro _ _ _ _ e; cases e)
    simp only [Ope.Ok] at hk
    exact ⟨fun b _ h => (ih hE (.inl hk) hi).1 b (base_ok hk _ _) h, by intro r v e; cases e⟩
  | tok h1 h2 ih1 ih2 =>
    have hk := Ope.Ok.not_prec ht (by intro _ _ _ _ e; cases e)
    simp only [Ope.Ok] at hk
    have ha := H.closed _ (.ope _) _ _ _ _ hE (.inl hk) hi h1
    refine ⟨fun b _ h => (ih2 hE trivial ha).1 b trivial ?_, by intro r v e; cases e⟩
    exact ((ih1 hE (.inl hk) hi).1 b (base_ok hk _ _) h).tok h.le h1.le hi ha
  | ign h1 ih => exact ⟨fun b _ h => h.mono h1.le, by intro r v e; cases e⟩
  | ref h1 h2 h3 ih =>
    refine ⟨fun b _ h => ?_, by intro r v e; cases e⟩
    have hv := (ih hE trivial hi).2 _ _ rfl
    have hp := h.push hv
    unfold pushValue
    split
    · exact h.mono h3.le
    · exact ⟨hp.vals, hp.toks⟩
  | @call E r nm as d q c i f j f' h1 h2 h3 h4 h5 ih =>
    have hk := Ope.Ok.not_prec ht (by intro _ _ _ _ e; cases e)
    simp only [Ope.Ok] at hk
    have hb := (H.lr r d h1 h2).2
    have hE' : DEnv.Ok L ⟨some r, resolveList c.params E.top as⟩ := okL_iff.mp (resolveList_ok hE as hk)
    exact ⟨fun b _ h => (ih hE' (.inl hb) hi).1 b (base_ok hb _ _) h, by intro r v e; cases e⟩
  | param h1 h2 ih =>
    have hk := hE _ (List.mem_of_getElem? h1)
    exact ⟨fun b _ h => (ih hE (.inl hk) hi).1 b (base_ok hk _ _) h, by intro r v e; cases e⟩
  | body _ _ ih =>
    refine ⟨fun b hb h => ?_, by intro r v e; cases e⟩
    cases hb
    exact (ih hE ht hi).1 _ (base_top _ _) h
  | @bodyWs E d i f k g j f' _ h1 _ ih1 ih2 =>
    refine ⟨fun b hb h => ?_, by intro r v e; cases e⟩
    cases hb
    have ha := H.closed _ (.ope d.ope) _ _ _ _ hE ht hi h1
    exact (ih2 hE trivial ha).1 _ trivial ((ih1 hE ht hi).1 _ (base_top _ _) h)
  | @rule E r d i j g pd v v' h1 h2 h3 h4 h5 h6 ih =>
    refine ⟨fun b hb => (by cases hb), ?_⟩
    intro r' v'' e
    cases e
    have hE' : DEnv.Ok L ⟨some r, []⟩ := by intro e he; cases he
    have hb : (DTask.body d : DTask V).Ok L := H.body r d h1
    have haj := H.closed _ _ _ _ _ _ hE' hb hi h3
    have hg := (ih hE' hb hi).1 i rfl (Fr.empty i)
    have hij := h3.le
    have hF : Fr L.al Inv i j (ruleFrame r d i j g) := by
      unfold ruleFrame; split <;> exact ⟨hg.vals, hg.toks⟩
    have hsv : (ruleFrame r d i j g).sv = (i, j - i) := by unfold ruleFrame; split <;> rfl
    have hv : RV L.al Inv i j v := by
      cases h5 with
      | act ha _ => exact ⟨i, j, Nat.le_refl _, hij, Nat.le_refl _, hi, haj, HV.act _ _ _ _ _ _ _ ha hsv hij hi haj hF⟩
      | first ha =>
        have hc := hF.vals
        cases hvs : (ruleFrame r d i j g).vals with
        | nil => exact ⟨i, i, Nat.le_refl _, Nat.le_refl _, hij, hi, hi, HV.noact ⟨r, d, h1, h2, ha⟩ _⟩
        | cons v vs => rw [hvs] at hc; exact hc.head
      | recovered hk => exact ⟨i, i, Nat.le_refl _, Nat.le_refl _, hij, hi, hi, HV.recov hk _⟩
    cases h6 with
    | none _ => exact hv
    | some hl => exact HV.leave _ _ _ _ _ _ hl hi haj hv
  | precOpe _ ih =>
    rcases ht with ht | ⟨a, b, info, q, e, ha, hb⟩
    · simp only [Ope.Ok] at ht
    · cases e
      exact ⟨fun b hb' h => (ih hE ⟨ha, hb⟩ hi).1 b hb' h, by intro r v e; cases e⟩
  | @prec E a b info r mp i f k g j f' h1 h2 ih1 ih2 =>
    refine ⟨fun b' hb h => ?_, by intro r v e; cases e⟩
    cases hb
    have ha := H.closed _ (.ope a) _ _ _ _ hE (.inl ht.1) hi h1
    exact (ih2 hE ht ha).1 _ ⟨rfl, hi⟩ ((ih1 hE (.inl ht.1) hi).1 _ (base_ok ht.1 _ _) h)
  | precEnd => exact ⟨fun b _ h => h, by intro r v e; cases e⟩
  | @precMore E a b info r mp s i f k g tok level assoc opv ops l h rv rvs f1 j f' h1 h2 h3 h4 h5 h6 h7 h8 ih1 ih2 ih3 =>
    refine ⟨fun b' hb hF => ?_, by intro r v e; cases e⟩
    obtain ⟨rfl, has⟩ := hb
    have hak := H.closed _ (.ope b) _ _ _ _ hE (.inl ht.2) hi h1
    have hal := H.closed _ (.prec a b info r (if assoc = 76 then level + 1 else level)) _ _ _ _ hE ht hak h5
    have hg := (ih1 hE (.inl ht.2) hi).1 i (base_ok ht.2 _ _) (Fr.empty i)
    have hh := (ih2 hE ht hak).1 k rfl (Fr.empty k)
    have hop : RV L.al Inv i k opv := by have := hg.vals; rw [h4] at this; exact this.head
    have hrv : RV L.al Inv k l rv := by have := hh.vals; rw [h6] at this; exact this.head
    have hf2 := (hF.push hop).push hrv
    have hsl := hf2.le
    refine (ih3 hE ht hal).1 _ ⟨rfl, has⟩ ?_
    have one : ∀ v, RV L.al Inv b' l v → Chain L.al Inv b' l [v] := by
      intro v ⟨a, c, h1, h2, h3, h4, h5, h6⟩
      exact .cons h1 h2 h4 h5 h6 (.nil h3)
    have hhead : RV L.al Inv b' l (((f.addVal opv).addVal rv).vals.head?.getD none) := by
      have hc := hf2.vals
      cases hvs : ((f.addVal opv).addVal rv).vals with
      | nil => simp [Frame.addVal] at hvs
      | cons v vs => rw [hvs] at hc; exact hc.head
    cases h7 with
    | act ha =>
      refine ⟨one _ ⟨b', l, Nat.le_refl _, hsl, Nat.le_refl _, has, hal, ?_⟩, hf2.toks⟩
      exact HV.act r _ _ _ _ _ _ ha rfl hsl has hal ⟨hf2.vals, hf2.toks⟩
    | firstSv ha => exact ⟨one _ hhead, hf2.toks⟩
    | first ha => exact ⟨one _ hhead, hf2.toks⟩
  | recov h1 h2 ih => exact ⟨fun b _ h => h.mono h2.le, by intro r v e; cases e⟩
  | anyFrame h1 => rw [hr] at h1; cases h1
  | ruleReco h1 => rw [hr] at h1; cases h1

end Verif
