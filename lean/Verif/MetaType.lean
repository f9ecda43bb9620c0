import Verif.MetaShape
/-!
# The types of the reader's values

`Good r v`: value `v` has the type the actions expect of rule `r`.  `Regular e`: the form of the expressions the reader builds.
-/

namespace Verif.Meta
open Verif CharClass Utf8

/-- The form of expressions: sequences and choices have two or more elements, dictionaries two or more words, classes are not empty and consist of
ordered ranges, calls have arguments and other references none, counts fit 64 bits, recovery is only around `%recover`. -/
inductive Regular : Src → Prop where
  | seq {es : List Src} : 2 ≤ es.length → (∀ e ∈ es, Regular e) → Regular (.seq es)
  | cho {es : List Src} : 2 ≤ es.length → (∀ e ∈ es, Regular e) → Regular (.cho es false)
  | label {e : Src} {l : List Byte} : Regular e → Regular (.cho [e, .recov recoverName true [.ref l false []]] true)
  | rep {e : Src} {mn : Nat} {mx : Option Nat} : Regular e → mn ≤ sizeMax → (∀ b, mx = some b → b < sizeMax) → Regular (.rep e mn mx)
  | and_ {e : Src} : Regular e → Regular (.and_ e)
  | not_ {e : Src} : Regular e → Regular (.not_ e)
  | dict {ws : List (List Byte)} {ic : Bool} : 2 ≤ ws.length → Regular (.dict ws ic)
  | lit {s : List Byte} {ic : Bool} : Regular (.lit s ic)
  | cls {rs : List (Nat × Nat)} {neg ic : Bool} : rs ≠ [] → (∀ r ∈ rs, r.1 ≤ r.2) → Regular (.cls ⟨rs, neg, ic⟩)
  | dot : Regular .dot
  | cut : Regular .cut
  | capScope {e : Src} : Regular e → Regular (.capScope e)
  | cap {nm : List Byte} {e : Src} : Regular e → Regular (.cap nm e)
  | tok {e : Src} : Regular e → Regular (.tok e)
  | bref {nm : List Byte} : Regular (.bref nm)
  | ref {nm : List Byte} : nm ≠ recoverName → Regular (.ref nm false [])
  | call {nm : List Byte} {as : List Src} : nm ≠ recoverName → as ≠ [] → (∀ a ∈ as, Regular a) → Regular (.ref nm true as)
  | recov : Regular (.recov recoverName false [])
  | recovCall {as : List Src} : as ≠ [] → (∀ a ∈ as, Regular a) → Regular (.recov recoverName true as)
  | ign {nm : List Byte} {e : Src} {m : Bool} {as : List Src} : e = .ref nm m as ∨ e = .recov nm m as → Regular e → Regular (.ign e)

structure GoodDef (d : RDef) : Prop where
  body : Regular d.body
  params : ∀ ps, d.params = some ps → ps ≠ []

def IsOpe (v : Val) : Prop := ∃ e, v = some (.ope e) ∧ Regular e

/-- The values of the elements of a class. -/
def IsRng (v : Val) : Prop :=
  (∃ a b, v = some (.rng (a, b)) ∧ a ≤ b) ∨ ∃ rs, v = some (.rngs rs) ∧ rs ≠ [] ∧ ∀ r ∈ rs, r.1 ≤ r.2

def Good (r : Nat) (v : Val) : Prop :=
  match r with
  | rGrammar => ∃ ds, v = some (.defns ds) ∧ ds ≠ [] ∧ ∀ d ∈ ds, GoodDef d
  | rDefinition => ∃ d, v = some (.defn d) ∧ GoodDef d
  | rExpression | rSequence | rPrefix | rSuffixWithLabel | rSuffix | rPrimary | rDictionary | rDictionaryI | rLiteral | rLiteralI | rClass | rClassI
  | rNegatedClass | rNegatedClassI | rDOT | rCUT | rBackRef | rCapScope => IsOpe v
  | rLoop => ∃ a b, v = some (.loop a b) ∧ a ≤ sizeMax ∧ ∀ m, b = some m → m < sizeMax
  | rIdentifier | rIdentCont | rLiteralD | rLiteralID | rChar => ∃ s, v = some (.str s)
  | rRange | rClassEscape | rPosixClass => IsRng v
  | rRepetition | rRepetitionRange => ∃ a b, v = some (.pair a b) ∧ a ≤ sizeMax ∧ b ≤ sizeMax
  | rNumber => ∃ n, v = some (.num n) ∧ n ≤ sizeMax
  | rAND | rNOT | rQUESTION | rSTAR | rPLUS => ∃ c, v = some (.chr c)
  | rBeginCap | rPrecedenceOpe => ∃ s, v = some (.view s)
  | rPrecedenceAssoc => ∃ s, v = some (.view s) ∧ s ≠ []
  | rIgnore => ∃ b, v = some (.flag b)
  | rParameters => ∃ s, v = some (.strs s) ∧ s ≠ []
  | rArguments => ∃ es, v = some (.opes es) ∧ es ≠ [] ∧ ∀ e ∈ es, Regular e
  | rPrecedenceInfo => ∃ a s, v = some (.views (a :: s)) ∧ a ≠ []
  | rPrecedenceClimbing | rErrorMessage | rNoAstOpt | rNoWhitespace | rAstName | rInstructionItem => ∃ i, v = some (.instr i)
  | rInstruction => ∃ is, v = some (.instrs is)
  | _ => v = none

/-- The exceptions that can occur; undefined behaviour only if `U`. -/
def Excused (U : Prop) (b : Bad) : Prop := b = .syntaxErr ∨ b = .ub ∧ U

def Has (U : Prop) (r : Nat) (v : Val) : Prop := (∃ b, v = some (.bad b) ∧ Excused U b) ∨ Good r v

theorem Good.not_bad {r : Nat} {v : Val} (h : Good r v) (b : Bad) : v ≠ some (.bad b) := by
  intro e
  subst e
  unfold Good at h
  split at h <;> simp [IsOpe, IsRng] at h

/-! ## From `Has` to `Good` -/

theorem Times.imp {P Q : List Val → Prop} (vs0 : List Val) (h : ∀ vs, (∀ v ∈ vs, v ∈ vs0) → P vs → Q vs) : ∀ c vs, (∀ v ∈ vs, v ∈ vs0) → Times P c vs → Times Q c vs
  | 0, _, _, h' => h'
  | c + 1, vs, hv, ⟨a, b, h1, h2, h3⟩ => by
    subst h3
    exact ⟨a, b, h a (fun v hv' => hv v (by simp [hv'])) h1, Times.imp vs0 h c b (fun v hv' => hv v (by simp [hv'])) h2, rfl⟩

mutual
theorem Sh.imp {H H' : Nat → Val → Prop} (vs0 : List Val) (h : ∀ v ∈ vs0, ∀ r, H r v → H' r v) : ∀ (e : Ope) (vs : List Val), (∀ v ∈ vs, v ∈ vs0) → Sh H e vs → Sh H' e vs := by
  intro e vs hv hs
  cases e with
  | seq es kw => exact ShL.imp vs0 h es vs hv hs
  | cho es l fs => exact ShA.imp vs0 h es vs hv hs
  | rep e mn mx sp =>
    obtain ⟨c, h1, h2, h3⟩ := hs
    exact ⟨c, h1, h2, Times.imp vs0 (fun vs hv => Sh.imp vs0 h e vs hv) c vs hv h3⟩
  | tok e => exact Sh.imp vs0 h e vs hv hs
  | ref r nm as =>
    simp only [Sh] at hs ⊢
    split
    · rename_i hd; rw [if_pos hd] at hs; exact hs
    · rename_i hd
      rw [if_neg hd] at hs
      obtain ⟨v, rfl, hv'⟩ := hs
      exact ⟨v, rfl, h v (hv v (by simp)) r hv'⟩
  | _ => exact hs
theorem ShL.imp {H H' : Nat → Val → Prop} (vs0 : List Val) (h : ∀ v ∈ vs0, ∀ r, H r v → H' r v) : ∀ (es : List Ope) (vs : List Val), (∀ v ∈ vs, v ∈ vs0) → ShL H es vs → ShL H' es vs := by
  intro es vs hv hs
  cases es with
  | nil => exact hs
  | cons e es =>
    obtain ⟨a, b, h1, h2, h3⟩ := hs
    subst h3
    exact ⟨a, b, Sh.imp vs0 h e a (fun v hv' => hv v (by simp [hv'])) h1, ShL.imp vs0 h es b (fun v hv' => hv v (by simp [hv'])) h2, rfl⟩
theorem ShA.imp {H H' : Nat → Val → Prop} (vs0 : List Val) (h : ∀ v ∈ vs0, ∀ r, H r v → H' r v) : ∀ (es : List Ope) (vs : List Val), (∀ v ∈ vs, v ∈ vs0) → ShA H es vs → ShA H' es vs := by
  intro es vs hv hs
  cases es with
  | nil => exact hs
  | cons e es =>
    rcases hs with hs | hs
    · exact .inl (Sh.imp vs0 h e vs hv hs)
    · exact .inr (ShA.imp vs0 h es vs hv hs)
end

theorem Times.mem {P : List Val → Prop} {Q : Val → Prop} (h : ∀ vs, P vs → ∀ v ∈ vs, Q v) : ∀ c vs, Times P c vs → ∀ v ∈ vs, Q v
  | 0, _, h' => by rw [show _ = [] from h']; simp
  | c + 1, vs, ⟨a, b, h1, h2, h3⟩ => by
    subst h3
    intro v hv
    rcases List.mem_append.mp hv with hv | hv
    · exact h a h1 v hv
    · exact Times.mem h c b h2 v hv

mutual
theorem Sh.mem {H : Nat → Val → Prop} : ∀ (e : Ope) (vs : List Val), Sh H e vs → ∀ v ∈ vs, ∃ r, H r v := by
  intro e vs hs
  cases e with
  | seq es kw => exact ShL.mem es vs hs
  | cho es l fs => exact ShA.mem es vs hs
  | rep e mn mx sp =>
    obtain ⟨c, h1, h2, h3⟩ := hs
    exact Times.mem (fun vs => Sh.mem e vs) c vs h3
  | tok e => exact Sh.mem e vs hs
  | ref r nm as =>
    simp only [Sh] at hs
    split at hs
    · subst hs; simp
    · obtain ⟨v, rfl, hv'⟩ := hs
      intro v' h; simp at h; subst h
      exact ⟨r, hv'⟩
  | _ => rw [show vs = [] from hs]; simp
theorem ShL.mem {H : Nat → Val → Prop} : ∀ (es : List Ope) (vs : List Val), ShL H es vs → ∀ v ∈ vs, ∃ r, H r v := by
  intro es vs hs
  cases es with
  | nil => rw [show vs = [] from hs]; simp
  | cons e es =>
    obtain ⟨a, b, h1, h2, h3⟩ := hs
    subst h3
    intro v hv
    rcases List.mem_append.mp hv with hv | hv
    · exact Sh.mem e a h1 v hv
    · exact ShL.mem es b h2 v hv
theorem ShA.mem {H : Nat → Val → Prop} : ∀ (es : List Ope) (vs : List Val), ShA H es vs → ∀ v ∈ vs, ∃ r, H r v := by
  intro es vs hs
  cases es with
  | nil => cases hs
  | cons e es =>
    rcases hs with hs | hs
    · exact Sh.mem e vs hs
    · exact ShA.mem es vs hs
end

theorem poison_mem {b : Bad} : ∀ {vs : List Val}, poison vs = some b → some (.bad b) ∈ vs
  | [], h => by cases h
  | v :: vs, h => by
    unfold poison at h
    split at h
    · rename_i e; cases e
    · rename_i b' _ e
      cases e; cases h; simp
    · rename_i e heq
      cases heq
      exact List.mem_cons_of_mem _ (poison_mem h)

theorem no_poison : ∀ {vs : List Val}, poison vs = none → ∀ b, some (.bad b) ∉ vs
  | [], _, _ => by simp
  | v :: vs, h, b => by
    unfold poison at h
    split at h
    · rename_i e; cases e
    · cases h
    · rename_i hn heq
      cases heq
      intro hm
      rcases List.mem_cons.mp hm with rfl | hm
      · exact hn _ rfl
      · exact no_poison h b hm

theorem OpeSh.good {U : Prop} {e : Ope} {vs : List Val} {tk n ch : Nat} (h : OpeSh (Has U) e vs tk n ch) (hp : poison vs = none) : OpeSh Good e vs tk n ch := by
  have h' : ∀ v ∈ vs, ∀ r, Has U r v → Good r v := by
    intro v hv r hr
    rcases hr with ⟨b, rfl, -⟩ | hr
    · exact absurd hv (no_poison hp b)
    · exact hr
  refine ⟨Sh.imp vs h' e vs (fun _ h => h) h.vals, h.len, h.toks, ?_, h.noTok⟩
  intro es l fs e1
  obtain ⟨e', h1, h2⟩ := h.alt es l fs e1
  exact ⟨e', h1, Sh.imp vs h' e' vs (fun _ h => h) h2⟩

theorem OpeSh.poison {U : Prop} {e : Ope} {vs : List Val} {tk n ch : Nat} (h : OpeSh (Has U) e vs tk n ch) {b : Bad} (hp : poison vs = some b) : Excused U b := by
  obtain ⟨r, hr⟩ := Sh.mem e vs h.vals _ (poison_mem hp)
  rcases hr with ⟨b', e, h⟩ | hr
  · cases e; exact h
  · exact absurd rfl (hr.not_bad b)

end Verif.Meta
