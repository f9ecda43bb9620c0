import Verif.ThreadParse
/-!
# Threads: C43

`Steps body (Conf.start m0 prog) s`: the configuration `s` is reached by some schedule of the threads `prog`, one access to a shared cell at a
time; `call_once` blocks while another thread initialises.  `parseProg G n lz c` is one parse `c`; `Shared.parse F G n {} c` is its result on an
object used by nobody else.
-/

namespace Verif.Props
open Verif Out Verif.Threads

variable {V T : Type} [DecidableEq T]

/-- C43, for any programs whatever their accesses (not only parses): if a program writes nothing itself, and reads a lazily initialised cell only after the
`call_once` that protects it, then under every schedule its answer is the one it gets alone on a fresh object. -/
theorem C43_schedule_irrelevant {C O W A : Type} [DecidableEq C] [DecidableEq O] {Γ : Guards C O W} {body : O → Init C W} {m0 : C → W}
    (H : Γ.Holds body m0) {prog : T → Prog C O W A} (hp : ∀ t, (prog t).Ok Γ []) {s : Conf C O W A T} (hs : Steps body (Conf.start m0 prog) s)
    {t : T} {a : A} (ht : s.th t = .run (.ret a)) : a = (prog t).alone body (fun _ => false) m0 :=
  schedule_irrelevant H hp hs ht

/-- C43: any number of threads parse with one parser object (any texts and callbacks); whatever the schedule, a thread that finishes has the answer
(result, values, reports) it would have got alone.  Missing: grammars with precedence climbing, for which it is false
(`C43_precedence_interferes`); callbacks are functions of their arguments. -/
theorem C43_no_interference_partial (F : List Nat → Nat → List Bool) (G : Parser) (_hg : ∀ d ∈ G.rules, d.ope.noPrec = true) (a n : Nat)
    (lz : Nat → Val) (xs : T → List Nat) (calls : T → Call V) (ha : ∀ t, (calls t).start = a)
    {s : Conf Cell OnceFlag Val (Out (Answer V)) T}
    (hs : Steps (bodies F G a lz) (Conf.start fresh fun t => parseProg G n (xs t) (calls t)) s)
    (t : T) (x : Out (Answer V)) (ht : s.th t = .run (.ret x)) : x = (Shared.parse F G n {} (calls t)).1 := by
  have hp : ∀ t, (parseProg G n (xs t) (calls t)).Ok (guards F G a lz) [] := fun t => parseProg_ok n (xs t) (calls t)
  have h1 := schedule_irrelevant guards_hold hp hs ht
  rw [(hp t).alone guards_hold (by intro o ho; cases ho) guards_hold.const (by intro o ho; cases ho) (fun _ _ _ _ => rfl)] at h1
  rw [h1, ← ha t]
  exact parseProg_eval n (xs t) (calls t)

/-- C43: in no schedule do two of these threads access one shared member at the same time, one of them writing. -/
theorem C43_no_data_race_partial (F : List Nat → Nat → List Bool) (G : Parser) (_hg : ∀ d ∈ G.rules, d.ope.noPrec = true) (a n : Nat)
    (lz : Nat → Val) (xs : T → List Nat) (calls : T → Call V) {s : Conf Cell OnceFlag Val (Out (Answer V)) T}
    (hs : Steps (bodies F G a lz) (Conf.start fresh fun t => parseProg G n (xs t) (calls t)) s)
    (t t' : T) (hne : t ≠ t') (c : Cell) (w : Bool) : ¬ ((s.th t).access = some (c, true) ∧ (s.th t').access = some (c, w)) :=
  fun ⟨h1, h2⟩ => no_race (guards_hold (F := F) (G := G) (a := a) (lz := lz)) (fun t => parseProg_ok n (xs t) (calls t)) hs ⟨t, t', c, w, hne, h1, h2⟩

/-- C43: and they never block each other for good. -/
theorem C43_no_deadlock_partial (F : List Nat → Nat → List Bool) (G : Parser) (_hg : ∀ d ∈ G.rules, d.ope.noPrec = true) (a n : Nat)
    (lz : Nat → Val) (xs : T → List Nat) (calls : T → Call V) {s : Conf Cell OnceFlag Val (Out (Answer V)) T}
    (hs : Steps (bodies F G a lz) (Conf.start fresh fun t => parseProg G n (xs t) (calls t)) s)
    (t : T) (ht : ∀ x, s.th t ≠ .run (.ret x)) : ∃ t' s', Step (bodies F G a lz) s t' s' := by
  refine progress (guards_hold (F := F) (G := G) (a := a) (lz := lz)) (fun t => parseProg_ok n (xs t) (calls t)) hs (t := t) ?_
  intro h
  cases hx : s.th t with
  | init o b k => rw [hx] at h; exact h
  | run p =>
    cases p with
    | ret x => exact ht x hx
    | _ => rw [hx] at h; exact h

/-! ## Schedules can be run -/

/-- Thread `t` makes a step, if it can. -/
def stepOf {C O W A T : Type} [DecidableEq C] [DecidableEq O] [DecidableEq T] (body : O → Init C W) (s : Conf C O W A T) (t : T) : Option (Conf C O W A T) :=
  match s.th t with
  | .run (.ret _) => none
  | .run (.read c k) => some { s with th := upd s.th t (.run (k (s.mem c))) }
  | .run (.write c v k) => some { s with mem := upd s.mem c v, th := upd s.th t (.run k) }
  | .run (.once o k) =>
    match s.flag o with
    | .idle => some { s with flag := upd s.flag o .busy, th := upd s.th t (.init o (body o) k) }
    | .ready => some { s with th := upd s.th t (.run k) }
    | .busy => none
  | .init o (.read c b) k => some { s with th := upd s.th t (.init o (b (s.mem c)) k) }
  | .init o (.write c v b) k => some { s with mem := upd s.mem c v, th := upd s.th t (.init o b k) }
  | .init o .done k => some { s with flag := upd s.flag o .ready, th := upd s.th t (.run k) }

theorem stepOf_step {C O W A T : Type} [DecidableEq C] [DecidableEq O] [DecidableEq T] {body : O → Init C W} {s s' : Conf C O W A T} {t : T}
    (h : stepOf body s t = some s') : Step body s t s' := by
  unfold stepOf at h
  cases ht : s.th t with
  | run p =>
    cases p with
    | ret a => rw [ht] at h; cases h
    | read c k => rw [ht] at h; cases h; exact .read ht
    | write c v k => rw [ht] at h; cases h; exact .write ht
    | once o k =>
      rw [ht] at h
      dsimp only at h
      cases hf : s.flag o with
      | idle => rw [hf] at h; cases h; exact .enter ht hf
      | ready => rw [hf] at h; cases h; exact .skip ht hf
      | busy => rw [hf] at h; cases h
  | init o b k =>
    cases b with
    | done => rw [ht] at h; cases h; exact .leave ht
    | read c b => rw [ht] at h; cases h; exact .iread ht
    | write c v b => rw [ht] at h; cases h; exact .iwrite ht

/-- The steps of a schedule (a thread that cannot make a step is skipped). -/
def runSchedule {C O W A T : Type} [DecidableEq C] [DecidableEq O] [DecidableEq T] (body : O → Init C W) : Conf C O W A T → List T → Conf C O W A T
  | s, [] => s
  | s, t :: ts => runSchedule body ((stepOf body s t).getD s) ts

theorem runSchedule_steps {C O W A T : Type} [DecidableEq C] [DecidableEq O] [DecidableEq T] {body : O → Init C W} (ts : List T) {s0 s : Conf C O W A T}
    (h : Steps body s0 s) : Steps body s0 (runSchedule body s ts) := by
  induction ts generalizing s with
  | nil => exact h
  | cons t ts ih =>
    refine ih ?_
    cases hs : stepOf body s t with
    | none => exact h
    | some s' => exact .step h (stepOf_step hs)

/-- `S <- A 'x' / A 'y';  A <- 'a'` with packrat parsing. -/
def c43Gram : Parser where
  rules := [{ name := [83], ope := .cho [.seq [.ref 1 [65] [], .lit [120] false] none, .seq [.ref 1 [65] [], .lit [121] false] none] false [] },
    { name := [65], ope := .lit [97] false }]
  packrat := fun r => r = 0

def c43Calls : Bool → Call Nat
  | false => { start := 0, input := "ax".toUTF8.toList }
  | true => { start := 0, input := "ab".toUTF8.toList }

/-- The length and success of a finished thread. -/
def thObs {C O W : Type} : Th C O W (Out (Answer Nat)) → Option (Bool × Nat)
  | .run (.ret (.ok x)) => some (x.ok, x.res.len)
  | _ => none

/-- Two threads taking turns: both finish (the one that comes second waits for the initialisation), with the results they get alone. -/
example :
    let s := runSchedule (bodies (fun _ _ => [false, true]) c43Gram 0 fun _ => .none)
      (Conf.start fresh fun t => parseProg c43Gram 20 [7] (c43Calls t)) ((List.range 80).map fun i => i % 3 = 1)
    (thObs (s.th false), thObs (s.th true)) = (some (true, 2), some (false, 0)) := by decide +kernel

example : ∀ d ∈ c43Gram.rules, d.ope.noPrec = true := by decide +kernel

/-! ## Precedence climbing

peglib.h 4182-4226.  The shared cell is the action of the operator rule: the chain of wrappers installed in it, by thread.  The program is
`parse_expression` on the text `a+a` in the grammar `E <- A (O A)* { precedence L + };  A <- 'a';  O <- '+'`: the wrapper of a thread sets its `tok`, so that the
operator is found in the table; otherwise the loop ends. -/

/-- `auto action = std::move(rule.action); rule.action = …;` then `k`, then `rule.action = std::move(action)`. -/
def withWrapper (t : Bool) (k : (Nat → Prog Unit Empty (List Bool) Nat) → Prog Unit Empty (List Bool) Nat) : Prog Unit Empty (List Bool) Nat :=
  .read () fun saved => .write () [] (.write () (t :: saved) (k fun len => .write () saved (.ret len)))

/-- Thread `t` parses `a+a`; the answer is the length matched.  After the first `a`: the wrapper is installed, the operator is parsed, which runs the
action; if that sets `tok`, the right operand is parsed by a recursive call, which installs another wrapper and removes it. -/
def precProg (t : Bool) : Prog Unit Empty (List Bool) Nat :=
  withWrapper t fun finish => .read () fun action =>
    if t ∈ action then .read () fun saved => .write () [] (.write () (t :: saved) (.write () saved (finish 3)))
    else finish 1

/-- Alone, the parse matches the whole text, as in the engine model. -/
example : (precProg false).alone (fun o => o.elim) (fun o => o.elim) (fun _ => []) = 3 := by decide +kernel
example : (match parseCore 30 ({ rules := [{ name := [69], ope := .prec (.ref 1 [65] []) (.ref 2 [79] []) [([43], 1, 76)] 0, disableAction := true },
      { name := [65], ope := .lit [97] false }, { name := [79], ope := .lit [43] false }], input := [97, 43, 97], defCount := 3 } : Cfg Nat) 0 true {} with
    | .ok r => (r.ret, r.len)
    | _ => (false, 0)) = (true, 3) := by decide +kernel

def finalLen {C O W : Type} : Th C O W Nat → Option Nat
  | .run (.ret n) => some n
  | _ => none

/-- C43 is false for grammars with precedence climbing: there is a schedule of two threads, both parsing `a+a`, in which one matches only `a`; and one
that reaches a data race. -/
theorem C43_precedence_interferes :
    (∃ s, Steps (fun o : Empty => o.elim) (Conf.start (fun _ => []) precProg) s ∧ finalLen (s.th false) = some 3 ∧ finalLen (s.th true) = some 1) ∧
    (∃ s, Steps (fun o : Empty => o.elim) (Conf.start (fun _ => []) precProg) s ∧ s.race) := by
  constructor
  · refine ⟨_, runSchedule_steps [false, false, false, true, true, true, false, false, false, false, false, false, true, true] .refl, ?_, ?_⟩ <;> decide +kernel
  · refine ⟨_, runSchedule_steps [false] .refl, false, true, (), false, by decide, ?_, ?_⟩
    · rfl
    · rfl

end Verif.Props
