import Verif.Threads
import Verif.EngineFrame
/-!
# The shared members of a parser as cells, and a parse as a thread
-/

namespace Verif.Threads

variable {V : Type}

/-- The members written after loading, for start rule `a` (`parser::parse` always uses the same one): `Definition::id`, `has_macro_ref`
per rule (peglib.h 3285, 3301); `definition_ids_` with `has_cut_` and `has_opaque_ope_`, the packrat index (3434-3439); the others are `is_token_`
of a rule, `is_word_` of a literal, `trace_name_` of a rule (3431, 1820, 2087). -/
inductive Cell where
  | id (r : Nat)
  | macroRef (r : Nat)
  | ids
  | filt
  | other (k : Nat)
  deriving DecidableEq

/-- The once flags: `definition_ids_init_`, `packrat_filter_init_`, and one for each of the others. -/
inductive OnceFlag where
  | ids
  | filt
  | other (k : Nat)
  deriving DecidableEq

inductive Val where
  | nat (n : Nat)
  | bool (b : Bool)
  | ids (s : IdSt)
  | filt (b : List Bool)
  | none

def Val.toNat : Val → Nat | .nat n => n | _ => 0
def Val.toBool : Val → Bool | .bool b => b | _ => true
def Val.toIds : Val → Option IdSt | .ids s => some s | _ => Option.none
def Val.toFilt : Val → Option (List Bool) | .filt b => some b | _ => Option.none

/-- A freshly loaded grammar. -/
def fresh : Cell → Val
  | .id _ => .nat 0
  | .macroRef _ => .bool true
  | _ => .none

/-- A series of writes, then `k`. -/
def writes : List (Cell × Val) → Init Cell Val → Init Cell Val
  | [], k => k
  | (c, v) :: l, k => .write c v (writes l k)

/-- The numbering from rule `a`. -/
def numbering (G : Parser) (a : Nat) : IdSt := initIds G.rules a (G.ws a) (G.word a)

/-- peglib.h 3335-3342, 4338-4361: every rule gets its number and a cleared flag, flags are then set.  Simplified: in the code a flag can be set
before the next rule is numbered. -/
def idsBody (G : Parser) (a : Nat) : Init Cell Val :=
  let s := numbering G a
  writes (s.order.flatMap fun r => [(.id r, .nat (s.order.idxOf r)), (.macroRef r, .bool false)])
    (writes ((s.order.filter (· ∈ s.macroRef)).map fun r => (.macroRef r, .bool true)) (.write .ids (.ids s) .done))

/-- Reading the numbers of rules. -/
def readIds : List Nat → List Nat → (List Nat → Init Cell Val) → Init Cell Val
  | [], acc, k => k acc
  | r :: rs, acc, k => .read (.id r) fun v => readIds rs (acc ++ [v.toNat]) k

/-- peglib.h 4754-4914. -/
def filtBody (F : List Nat → Nat → List Bool) (a : Nat) : Init Cell Val :=
  .read .ids fun v => readIds (v.toIds.getD {}).order [] fun nums => .write .filt (.filt (F nums a)) .done

/-- The initialisers; `lz k`: the value of the other lazily initialised members, a function of the constant grammar. -/
def bodies (F : List Nat → Nat → List Bool) (G : Parser) (a : Nat) (lz : Nat → Val) : OnceFlag → Init Cell Val
  | .ids => idsBody G a
  | .filt => filtBody F a
  | .other k => .write (.other k) (lz k) .done

/-- Reading the members of the rules `rs`. -/
def readMem {A : Type} : List Nat → RuleMem → (RuleMem → Prog Cell OnceFlag Val A) → Prog Cell OnceFlag Val A
  | [], m, k => k m
  | r :: rs, m, k => .read (.id r) fun v => .read (.macroRef r) fun w =>
      readMem rs { id := upd m.id r v.toNat, macroRef := upd m.macroRef r w.toBool } k

/-- Using other lazily initialised members; what they hold is recomputed in the engine model. -/
def useLazy {A : Type} : List Nat → Prog Cell OnceFlag Val A → Prog Cell OnceFlag Val A
  | [], k => k
  | x :: xs, k => .once (.other x) (.read (.other x) fun _ => useLazy xs k)

/-- The state of the object as the members read. -/
def sharedOf (a : Nat) (m : RuleMem) (ids filt : Val) : Shared where
  mem := m
  ids := fun x => if x = a then ids.toIds else none
  filt := fun x => if x = a then filt.toFilt else none

/-- peglib.h 3348-3425: a parse, for a grammar without precedence climbing.  Simplified: the members are read before the parse proper; in the code
the reads of `id`, `has_macro_ref` and the others are spread over the parse (`C43_schedule_irrelevant` covers any order of reads). -/
def parseProg (G : Parser) (n : Nat) (lz : List Nat) (c : Call V) : Prog Cell OnceFlag Val (Out (Answer V)) :=
  let fin (filt : Val) : Prog Cell OnceFlag Val (Out (Answer V)) := .read .ids fun ids => useLazy lz (readMem (List.range G.rules.length) {} fun m =>
    .ret (parserParse n ((sharedOf c.start m ids filt).cfg G c) c.start c.eoi c.log c.dt))
  .once .ids (if G.packrat c.start then .once .filt (.read .filt fin) else fin .none)

/-- How the members are protected. -/
def guards (F : List Nat → Nat → List Bool) (G : Parser) (a : Nat) (lz : Nat → Val) : Guards Cell OnceFlag Val where
  home
    | .id _ => some .ids
    | .macroRef _ => some .ids
    | .ids => some .ids
    | .filt => some .filt
    | .other k => some (.other k)
  deps
    | .filt => [.ids]
    | _ => []
  fin
    | .id r => .nat ((({} : RuleMem).assign (numbering G a)).id r)
    | .macroRef r => .bool ((({} : RuleMem).assign (numbering G a)).macroRef r)
    | .ids => .ids (numbering G a)
    | .filt => .filt (F ((numbering G a).order.map (({} : RuleMem).assign (numbering G a)).id) a)
    | .other k => lz k

/-! ## The initialisers keep the discipline -/

variable {F : List Nat → Nat → List Bool} {G : Parser} {a : Nat} {lz : Nat → Val}

def applyWrites (l : List (Cell × Val)) (m : Cell → Val) : Cell → Val := l.foldl (fun m w => upd m w.1 w.2) m

theorem writes_ok {Γ : Guards Cell OnceFlag Val} {o : OnceFlag} {l : List (Cell × Val)} {k : Init Cell Val} {m : Cell → Val}
    (h : ∀ w ∈ l, Γ.home w.1 = some o) (hk : k.Ok Γ o (applyWrites l m)) : (writes l k).Ok Γ o m := by
  induction l generalizing m with
  | nil => exact hk
  | cons w l ih => exact ⟨h w (by simp), ih (fun w hw => h w (by simp [hw])) hk⟩

theorem apply_numbers (f : Nat → Nat) (l : List Nat) (m : Cell → Val) (c : Cell) :
    applyWrites (l.flatMap fun r => [(.id r, .nat (f r)), (.macroRef r, .bool false)]) m c =
      match c with
      | .id r => if r ∈ l then .nat (f r) else m c
      | .macroRef r => if r ∈ l then .bool false else m c
      | c => m c := by
  induction l generalizing m with
  | nil => cases c <;> simp [applyWrites]
  | cons x l ih =>
    have : applyWrites ((x :: l).flatMap fun r => [(Cell.id r, Val.nat (f r)), (.macroRef r, .bool false)]) m =
        applyWrites (l.flatMap fun r => [(.id r, .nat (f r)), (.macroRef r, .bool false)]) (upd (upd m (.id x) (.nat (f x))) (.macroRef x) (.bool false)) := rfl
    rw [this, ih]
    cases c with
    | id r =>
      by_cases h : r ∈ l
      · simp [h]
      · by_cases e : r = x
        · subst e; simp [h, upd]
        · simp [h, e, upd]
    | macroRef r =>
      by_cases h : r ∈ l
      · simp [h]
      · by_cases e : r = x
        · subst e; simp [h, upd]
        · simp [h, e, upd]
    | _ => simp [upd]

theorem apply_flags (l : List Nat) (m : Cell → Val) (c : Cell) :
    applyWrites (l.map fun r => (.macroRef r, .bool true)) m c =
      match c with
      | .macroRef r => if r ∈ l then .bool true else m c
      | c => m c := by
  induction l generalizing m with
  | nil => cases c <;> simp [applyWrites]
  | cons x l ih =>
    have : applyWrites ((x :: l).map fun r => (Cell.macroRef r, Val.bool true)) m =
        applyWrites (l.map fun r => (.macroRef r, .bool true)) (upd m (.macroRef x) (.bool true)) := rfl
    rw [this, ih]
    cases c with
    | macroRef r =>
      by_cases h : r ∈ l
      · simp [h]
      · by_cases e : r = x
        · subst e; simp [h, upd]
        · simp [h, e, upd]
    | _ => simp [upd]

theorem idsBody_ok (m : Cell → Val) (h0 : ∀ c, (guards F G a lz).home c = some .ids → m c = fresh c) :
    (idsBody G a).Ok (guards F G a lz) .ids m := by
  unfold idsBody
  refine writes_ok ?_ (writes_ok ?_ ⟨rfl, ?_⟩)
  · intro w hw
    simp only [List.mem_flatMap, List.mem_cons, List.not_mem_nil, or_false] at hw
    obtain ⟨r, -, rfl | rfl⟩ := hw <;> rfl
  · intro w hw
    simp only [List.mem_map] at hw
    obtain ⟨r, -, rfl⟩ := hw
    rfl
  · intro c hc
    by_cases e : c = .ids
    · subst e; rw [upd_same]; rfl
    rw [upd_ne _ _ e, apply_flags]
    cases c with
    | id r =>
      dsimp only
      rw [apply_numbers]
      dsimp only [guards, RuleMem.assign]
      by_cases h : r ∈ (numbering G a).order
      · rw [if_pos h, if_pos h]
      · rw [if_neg h, if_neg h]; exact h0 (.id r) rfl
    | macroRef r =>
      dsimp only
      rw [apply_numbers]
      dsimp only [guards, RuleMem.assign]
      by_cases h : r ∈ (numbering G a).order
      · rw [if_pos h, if_pos h]
        by_cases h' : r ∈ (numbering G a).macroRef
        · rw [if_pos (by simp [h, h'])]; simp [h']
        · rw [if_neg (by simp [h'])]; simp [h']
      · rw [if_neg h, if_neg h, if_neg (by simp [h])]; exact h0 (.macroRef r) rfl
    | ids => exact absurd rfl e
    | filt => cases hc
    | other k => cases hc

theorem readIds_ok {o : OnceFlag} (Γ : Guards Cell OnceFlag Val) {k : List Nat → Init Cell Val} {m : Cell → Val} {g : Nat → Nat} (rs acc : List Nat)
    (hr : ∀ r, Γ.readable (o :: Γ.deps o) (.id r)) (hm : ∀ r, m (.id r) = .nat (g r)) (hk : (k (acc ++ rs.map g)).Ok Γ o m) :
    (readIds rs acc k).Ok Γ o m := by
  induction rs generalizing acc with
  | nil => simpa [readIds] using hk
  | cons r rs ih =>
    refine ⟨hr r, ?_⟩
    rw [hm r]
    refine ih _ ?_
    simpa [Val.toNat] using hk

theorem guards_hold : (guards F G a lz).Holds (bodies F G a lz) fresh where
  const := by intro c h; cases c <;> cases h
  init := by
    intro o
    cases o with
    | ids =>
      refine idsBody_ok _ ?_
      intro c hc
      rw [if_pos hc]
    | filt =>
      refine ⟨(by intro o ho; cases ho; simp [guards]), ?_⟩
      dsimp only [guards]
      simp only [reduceCtorEq, Option.some.injEq, if_false]
      show (readIds (numbering G a).order [] fun nums => .write .filt (.filt (F nums a)) .done).Ok (guards F G a lz) .filt _
      refine readIds_ok (guards F G a lz) (g := (({} : RuleMem).assign (numbering G a)).id) _ _ ?_ ?_ ?_
      · intro r o ho; cases ho; simp [guards]
      · intro r; simp
      · refine ⟨rfl, ?_⟩
        intro c hc
        cases c <;> cases hc
        rw [upd_same]; rfl
    | other k =>
      refine ⟨rfl, ?_⟩
      intro c hc
      cases c <;> cases hc
      rw [upd_same]; rfl

/-! ## Parses keep the discipline -/

theorem readMem_ok {A : Type} (Γ : Guards Cell OnceFlag Val) {ps : List OnceFlag} (h1 : ∀ r, Γ.readable ps (.id r)) (h2 : ∀ r, Γ.readable ps (.macroRef r))
    (rs : List Nat) (m : RuleMem) {k : RuleMem → Prog Cell OnceFlag Val A} (hk : ∀ m, (k m).Ok Γ ps) : (readMem rs m k).Ok Γ ps := by
  induction rs generalizing m with
  | nil => exact hk m
  | cons r rs ih => exact ⟨h1 r, h2 r, ih _⟩

theorem useLazy_ok {A : Type} (xs : List Nat) {ps : List OnceFlag} {k : Prog Cell OnceFlag Val A}
    (hk : ∀ ps', (∀ o ∈ ps, o ∈ ps') → k.Ok (guards F G a lz) ps') : (useLazy xs k).Ok (guards F G a lz) ps := by
  induction xs generalizing ps with
  | nil => exact hk ps fun _ h => h
  | cons x xs ih =>
    refine ⟨(by intro o ho; cases ho), ?_, ?_⟩
    · intro o ho; cases ho; exact List.mem_cons_self ..
    · exact ih fun ps' h => hk ps' fun o ho => h o (List.mem_cons_of_mem _ ho)

theorem parseProg_ok (n : Nat) (xs : List Nat) (c : Call V) : (parseProg G n xs c).Ok (guards F G a lz) [] := by
  have key : ∀ (filt : Val) (ps : List OnceFlag), .ids ∈ ps → (Prog.read .ids fun ids => useLazy xs (readMem (List.range G.rules.length) {} fun m =>
      .ret (parserParse n ((sharedOf c.start m ids filt).cfg G c) c.start c.eoi c.log c.dt))).Ok (guards F G a lz) ps := by
    intro filt ps hps
    refine ⟨(by intro o ho; cases ho; exact hps), useLazy_ok xs fun ps' hps' => readMem_ok _ ?_ ?_ _ _ fun m => trivial⟩
    · intro r o ho; cases ho; exact hps' _ hps
    · intro r o ho; cases ho; exact hps' _ hps
  unfold parseProg
  refine ⟨(by intro o ho; cases ho), ?_⟩
  by_cases hp : G.packrat c.start = true
  · rw [if_pos hp]
    refine ⟨?_, ?_, ?_⟩
    · intro o ho
      simp only [guards, List.mem_singleton] at ho
      subst ho; simp
    · intro o ho; cases ho; simp
    · exact key _ _ (by simp)
  · rw [if_neg hp]
    exact key _ _ (by simp)

theorem useLazy_eval {A : Type} (xs : List Nat) (k : Prog Cell OnceFlag Val A) (m : Cell → Val) : (useLazy xs k).eval m = k.eval m := by
  induction xs with
  | nil => rfl
  | cons x xs ih => exact ih

theorem readMem_eval {A : Type} (f : Cell → Val) (rs : List Nat) (m : RuleMem) (k : RuleMem → Prog Cell OnceFlag Val A) :
    (readMem rs m k).eval f = (k (RuleMem.mk (fun r => if r ∈ rs then (f (.id r)).toNat else m.id r)
      (fun r => if r ∈ rs then (f (.macroRef r)).toBool else m.macroRef r))).eval f := by
  induction rs generalizing m with
  | nil => simp [readMem]
  | cons r rs ih =>
    show (readMem rs _ k).eval f = _
    rw [ih]
    congr 3
    · funext x
      by_cases h : x ∈ rs
      · simp [h]
      · by_cases e : x = r
        · subst e; simp [h, upd]
        · simp [h, e, upd]
    · funext x
      by_cases h : x ∈ rs
      · simp [h]
      · by_cases e : x = r
        · subst e; simp [h, upd]
        · simp [h, e, upd]

theorem numbering_lt {r : Nat} (h : r ∈ (numbering G a).order) : r < G.rules.length := by
  have := (initIds_mem G.rules a (G.ws a) (G.word a) r).1 h
  cases this with
  | base _ h => exact h
  | step _ _ _ h => exact h

theorem shared_eq (lz : Nat → Val) :
    sharedOf a { id := fun r => if r ∈ List.range G.rules.length then ((guards F G a lz).fin (.id r)).toNat else ({} : RuleMem).id r,
                 macroRef := fun r => if r ∈ List.range G.rules.length then ((guards F G a lz).fin (.macroRef r)).toBool else ({} : RuleMem).macroRef r }
      ((guards F G a lz).fin .ids) (if G.packrat a then (guards F G a lz).fin .filt else .none) = ({} : Shared).prepare F G a := by
  have hm : ({ id := fun r => if r ∈ List.range G.rules.length then ((guards F G a lz).fin (.id r)).toNat else ({} : RuleMem).id r,
               macroRef := fun r => if r ∈ List.range G.rules.length then ((guards F G a lz).fin (.macroRef r)).toBool else ({} : RuleMem).macroRef r } : RuleMem) =
      ({} : RuleMem).assign (numbering G a) := by
    have h1 : ∀ r, (if r ∈ List.range G.rules.length then ((guards F G a lz).fin (.id r)).toNat else ({} : RuleMem).id r) =
        (({} : RuleMem).assign (numbering G a)).id r := by
      intro r
      by_cases h : r ∈ List.range G.rules.length
      · rw [if_pos h]; rfl
      · rw [if_neg h]
        simp only [RuleMem.assign]
        rw [if_neg (fun h' => h (List.mem_range.2 (numbering_lt h')))]
    have h2 : ∀ r, (if r ∈ List.range G.rules.length then ((guards F G a lz).fin (.macroRef r)).toBool else ({} : RuleMem).macroRef r) =
        (({} : RuleMem).assign (numbering G a)).macroRef r := by
      intro r
      by_cases h : r ∈ List.range G.rules.length
      · rw [if_pos h]; rfl
      · rw [if_neg h]
        simp only [RuleMem.assign]
        rw [if_neg (fun h' => h (List.mem_range.2 (numbering_lt h')))]
    simp only [funext h1, funext h2]
  rw [hm]
  have hfresh : ({} : Shared).initIds G a = Shared.mk (({} : RuleMem).assign (numbering G a))
      (fun x => if x = a then some (numbering G a) else none) (fun _ => none) := rfl
  unfold Shared.prepare
  rw [hfresh]
  unfold Shared.initFilt sharedOf
  by_cases hp : G.packrat a = true
  · simp only [hp, if_true]
    rfl
  · simp only [hp, if_false, Bool.false_eq_true]
    congr 1
    funext x
    split <;> rfl

theorem parseProg_eval (n : Nat) (xs : List Nat) (c : Call V) :
    (parseProg G n xs c).eval (guards F G c.start lz).fin = (Shared.parse F G n {} c).1 := by
  have e := shared_eq (F := F) (G := G) (a := c.start) lz
  unfold Shared.parse
  dsimp only
  rw [← e]
  unfold parseProg
  by_cases hp : G.packrat c.start = true
  · simp only [hp, if_true, Prog.eval, useLazy_eval, readMem_eval]
  · simp only [hp, Bool.false_eq_true, if_false, Prog.eval, useLazy_eval, readMem_eval]

end Verif.Threads
