import Verif.Session
/-!
# Threads sharing one parser object

What threads that call `parse` on one `const parser` share: the grammar, whose members are constant after loading except for the lazily
initialised ones, each written inside a `std::call_once` (peglib.h 1819, 2086, 3275, 3335, 3430-3439, 3470, 4063, 4754), and, when the
grammar uses precedence climbing, the action of the operator rule (4186-4202, not covered by the discipline below).

A thread is a program over shared cells; one step is one access.  `call_once` blocks while another thread runs the initialiser.
Memory is sequentially consistent; `RaceFree` below is what makes that adequate for C++.
-/

namespace Verif.Threads

section Generic
/-! ## Programs -/

variable {C O W A T : Type}

/-- The initialiser of a `call_once`. -/
inductive Init (C W : Type) where
  | done
  | read (c : C) (k : W → Init C W)
  | write (c : C) (v : W) (k : Init C W)

/-- A thread: accesses to shared cells, `call_once` on flag `o`, and finally an answer. -/
inductive Prog (C O W A : Type) where
  | ret (a : A)
  | read (c : C) (k : W → Prog C O W A)
  | write (c : C) (v : W) (k : Prog C O W A)
  | once (o : O) (k : Prog C O W A)

/-- Where a thread is: in its program, or inside the initialiser of `o`. -/
inductive Th (C O W A : Type) where
  | run (p : Prog C O W A)
  | init (o : O) (b : Init C W) (k : Prog C O W A)

inductive Flag where
  | idle
  | busy
  | ready
  deriving DecidableEq

/-- Memory, the once flags, the threads. -/
structure Conf (C O W A T : Type) where
  mem : C → W
  flag : O → Flag
  th : T → Th C O W A

variable [DecidableEq C] [DecidableEq O] [DecidableEq T]

/-- `m[c := v]`. -/
def upd {X Y : Type} [DecidableEq X] (f : X → Y) (x : X) (y : Y) : X → Y := fun z => if z = x then y else f z

/-- Thread `t` makes one step; `body o` is the initialiser of flag `o`. -/
inductive Step (body : O → Init C W) : Conf C O W A T → T → Conf C O W A T → Prop
  | read {s : Conf C O W A T} {t c k} : s.th t = .run (.read c k) → Step body s t { s with th := upd s.th t (.run (k (s.mem c))) }
  | write {s : Conf C O W A T} {t c v k} : s.th t = .run (.write c v k) →
      Step body s t { s with mem := upd s.mem c v, th := upd s.th t (.run k) }
  | enter {s : Conf C O W A T} {t o k} : s.th t = .run (.once o k) → s.flag o = .idle →
      Step body s t { s with flag := upd s.flag o .busy, th := upd s.th t (.init o (body o) k) }
  | skip {s : Conf C O W A T} {t o k} : s.th t = .run (.once o k) → s.flag o = .ready → Step body s t { s with th := upd s.th t (.run k) }
  | iread {s : Conf C O W A T} {t o c b k} : s.th t = .init o (.read c b) k →
      Step body s t { s with th := upd s.th t (.init o (b (s.mem c)) k) }
  | iwrite {s : Conf C O W A T} {t o c v b k} : s.th t = .init o (.write c v b) k →
      Step body s t { s with mem := upd s.mem c v, th := upd s.th t (.init o b k) }
  | leave {s : Conf C O W A T} {t o k} : s.th t = .init o .done k →
      Step body s t { s with flag := upd s.flag o .ready, th := upd s.th t (.run k) }

/-- Any number of steps of any threads. -/
inductive Steps (body : O → Init C W) : Conf C O W A T → Conf C O W A T → Prop
  | refl {s} : Steps body s s
  | step {s s' s'' : Conf C O W A T} {t} : Steps body s s' → Step body s' t s'' → Steps body s s''

/-- The start: memory `m0`, nothing initialised. -/
def Conf.start (m0 : C → W) (prog : T → Prog C O W A) : Conf C O W A T where
  mem := m0
  flag := fun _ => .idle
  th := fun t => .run (prog t)

/-! ## A program alone -/

/-- The memory an initialiser leaves. -/
def Init.exec : Init C W → (C → W) → (C → W)
  | .done, m => m
  | .read c k, m => (k (m c)).exec m
  | .write c v b, m => b.exec (upd m c v)

/-- The answer of a program that runs alone; `f`: the flags that are set. -/
def Prog.alone (body : O → Init C W) : Prog C O W A → (O → Bool) → (C → W) → A
  | .ret a, _, _ => a
  | .read c k, f, m => (k (m c)).alone body f m
  | .write c v p, f, m => p.alone body f (upd m c v)
  | .once o p, f, m => if f o then p.alone body f m else p.alone body (upd f o true) ((body o).exec m)

/-! ## Discipline -/

/-- How cells are protected: `home c = some o`: written only by the initialiser of `o`, read only after `call_once` on `o`; `none`: never
written.  `deps o`: flags set before the initialiser of `o` runs.  `fin`: the values once initialised. -/
structure Guards (C O W : Type) where
  home : C → Option O
  deps : O → List O
  fin : C → W

variable (Γ : Guards C O W)

/-- What may be read when the flags `ps` are set. -/
def Guards.readable (ps : List O) (c : C) : Prop := ∀ o, Γ.home c = some o → o ∈ ps

/-- The initialiser of `o` keeps to its cells, and leaves the final values in them. -/
def Init.Ok (o : O) : Init C W → (C → W) → Prop
  | .done, m => ∀ c, Γ.home c = some o → m c = Γ.fin c
  | .read c k, m => Γ.readable (o :: Γ.deps o) c ∧ (k (m c)).Ok o m
  | .write c v b, m => Γ.home c = some o ∧ b.Ok o (upd m c v)

/-- The program never writes, and reads only what is initialised by the flags it has passed. -/
def Prog.Ok : Prog C O W A → List O → Prop
  | .ret _, _ => True
  | .read c k, ps => Γ.readable ps c ∧ (k (Γ.fin c)).Ok ps
  | .write _ _ _, _ => False
  | .once o p, ps => (∀ o' ∈ Γ.deps o, o' ∈ ps) ∧ p.Ok (o :: ps)

/-- The answer with everything initialised. -/
def Prog.eval : Prog C O W A → (C → W) → A
  | .ret a, _ => a
  | .read c k, m => (k (m c)).eval m
  | .write c v p, m => p.eval (upd m c v)
  | .once _ p, m => p.eval m

/-- The initialisers keep the discipline, from memory `m0`. -/
structure Guards.Holds (body : O → Init C W) (m0 : C → W) : Prop where
  const : ∀ c, Γ.home c = none → m0 c = Γ.fin c
  init : ∀ o, (body o).Ok Γ o fun c => if Γ.home c = some o then m0 c else Γ.fin c

variable {Γ}

theorem upd_same {X Y : Type} [DecidableEq X] (f : X → Y) (x : X) (y : Y) : upd f x y x = y := by simp [upd]
theorem upd_ne {X Y : Type} [DecidableEq X] (f : X → Y) {x z : X} (y : Y) (h : z ≠ x) : upd f x y z = f z := by simp [upd, h]

theorem Init.Ok.congr {o : O} {b : Init C W} {m m' : C → W} (h : b.Ok Γ o m) (e : ∀ c, Γ.readable (o :: Γ.deps o) c → m c = m' c) : b.Ok Γ o m' := by
  induction b generalizing m m' with
  | done =>
    intro c hc
    rw [← e c (by intro o' ho'; rw [hc] at ho'; cases ho'; exact List.mem_cons_self ..)]
    exact h c hc
  | read c k ih =>
    refine ⟨h.1, ?_⟩
    rw [← e c h.1]
    exact ih _ h.2 e
  | write c v b ih =>
    refine ⟨h.1, ih h.2 ?_⟩
    intro c' hc'
    simp only [upd]
    split
    · rfl
    · exact e c' hc'

/-! ## The invariant -/

structure Inv (body : O → Init C W) (m0 : C → W) (Γ : Guards C O W) (prog : T → Prog C O W A) (s : Conf C O W A T) : Prop where
  const : ∀ c, Γ.home c = none → s.mem c = Γ.fin c
  ready : ∀ o, s.flag o = .ready → ∀ c, Γ.home c = some o → s.mem c = Γ.fin c
  idle : ∀ o, s.flag o = .idle → ∀ c, Γ.home c = some o → s.mem c = m0 c
  run : ∀ t p, s.th t = .run p → ∃ ps, (∀ o ∈ ps, s.flag o = .ready) ∧ p.Ok Γ ps ∧ p.eval Γ.fin = (prog t).eval Γ.fin
  init : ∀ t o b k, s.th t = .init o b k → s.flag o = .busy ∧ b.Ok Γ o s.mem ∧ (∀ o' ∈ Γ.deps o, s.flag o' = .ready) ∧
    ∃ ps, (∀ o ∈ ps, s.flag o = .ready) ∧ k.Ok Γ (o :: ps) ∧ k.eval Γ.fin = (prog t).eval Γ.fin
  one : ∀ t t' o b b' k k', s.th t = .init o b k → s.th t' = .init o b' k' → t = t'
  busy : ∀ o, s.flag o = .busy → ∃ t b k, s.th t = .init o b k

theorem Inv.start {body : O → Init C W} {m0 : C → W} (h : Γ.Holds body m0) {prog : T → Prog C O W A} (hp : ∀ t, (prog t).Ok Γ []) :
    Inv body m0 Γ prog (Conf.start m0 prog) where
  const := h.const
  ready := by intro o h; cases h
  idle := fun _ _ _ _ => rfl
  run := by
    intro t p h
    cases h
    exact ⟨[], (by intro o ho; cases ho), hp t, rfl⟩
  init := by intro t o b k h; cases h
  one := by intro t t' o b b' k k' h; cases h
  busy := by intro o h; cases h

/-- Reading a cell that may be read gives the final value. -/
theorem Inv.value {body : O → Init C W} {m0 : C → W} {prog : T → Prog C O W A} {s : Conf C O W A T} (h : Inv body m0 Γ prog s) {ps : List O}
    (hp : ∀ o ∈ ps, s.flag o = .ready) {c : C} (hc : Γ.readable ps c) : s.mem c = Γ.fin c := by
  cases ho : Γ.home c with
  | none => exact h.const c ho
  | some o => exact h.ready o (hp o (hc o ho)) c ho

theorem Inv.next {body : O → Init C W} {m0 : C → W} (H : Γ.Holds body m0) {prog : T → Prog C O W A} {s s' : Conf C O W A T} {t : T}
    (h : Inv body m0 Γ prog s) (hs : Step body s t s') : Inv body m0 Γ prog s' := by
  cases hs with
  | @read c k ht =>
    obtain ⟨ps, h1, h2, h3⟩ := h.run t _ ht
    have hv := h.value h1 h2.1
    refine ⟨h.const, h.ready, h.idle, ?_, ?_, ?_, ?_⟩
    · intro t' p hp
      dsimp only at hp
      by_cases e : t' = t
      · subst e
        rw [upd_same] at hp
        cases hp
        refine ⟨ps, h1, ?_, ?_⟩
        · rw [hv]; exact h2.2
        · rw [hv]; exact h3
      · rw [upd_ne _ _ e] at hp; exact h.run t' p hp
    · intro t' o b k' hp
      dsimp only at hp
      by_cases e : t' = t
      · subst e; rw [upd_same] at hp; cases hp
      · rw [upd_ne _ _ e] at hp; exact h.init t' o b k' hp
    · intro t1 t2 o b b' k1 k2 e1 e2
      dsimp only at e1 e2
      by_cases e : t1 = t
      · subst e; rw [upd_same] at e1; cases e1
      · by_cases e' : t2 = t
        · subst e'; rw [upd_same] at e2; cases e2
        · rw [upd_ne _ _ e] at e1; rw [upd_ne _ _ e'] at e2; exact h.one t1 t2 o b b' k1 k2 e1 e2
    · intro o ho
      obtain ⟨t', b, k', e⟩ := h.busy o ho
      refine ⟨t', b, k', ?_⟩
      dsimp only
      rw [upd_ne _ _ (by rintro rfl; rw [ht] at e; cases e)]; exact e
  | @write c v k ht =>
    obtain ⟨ps, h1, h2, h3⟩ := h.run t _ ht
    exact h2.elim
  | @enter o k ht hf =>
    obtain ⟨ps, h1, h2, h3⟩ := h.run t _ ht
    have hfl : ∀ o', s.flag o' = .ready → upd s.flag o Flag.busy o' = .ready := by
      intro o' ho'
      rw [upd_ne _ _ (by rintro rfl; rw [hf] at ho'; cases ho')]; exact ho'
    refine ⟨h.const, ?_, ?_, ?_, ?_, ?_, ?_⟩
    · intro o' ho'
      dsimp only at ho'
      by_cases e : o' = o
      · subst e; rw [upd_same] at ho'; cases ho'
      · rw [upd_ne _ _ e] at ho'; exact h.ready o' ho'
    · intro o' ho'
      dsimp only at ho'
      by_cases e : o' = o
      · subst e; rw [upd_same] at ho'; cases ho'
      · rw [upd_ne _ _ e] at ho'; exact h.idle o' ho'
    · intro t' p hp
      dsimp only at hp
      by_cases e : t' = t
      · subst e; rw [upd_same] at hp; cases hp
      · rw [upd_ne _ _ e] at hp
        obtain ⟨ps', k1, k2⟩ := h.run t' p hp
        exact ⟨ps', fun o' ho' => hfl o' (k1 o' ho'), k2⟩
    · intro t' o' b k' hp
      dsimp only at hp
      by_cases e : t' = t
      · subst e
        rw [upd_same] at hp
        cases hp
        refine ⟨upd_same .., ?_, fun o' ho' => hfl o' (h1 o' (h2.1 o' ho')), ps, fun o' ho' => hfl o' (h1 o' ho'), h2.2, h3⟩
        refine (H.init o).congr ?_
        intro c hc
        dsimp only
        cases hh : Γ.home c with
        | none => rw [if_neg (by simp)]; exact (h.const c hh).symm
        | some o' =>
          by_cases e : o' = o
          · subst e; rw [if_pos rfl]; exact (h.idle o' hf c hh).symm
          · rw [if_neg (by simpa using e)]
            have := hc o' hh
            rw [List.mem_cons] at this
            rcases this with h' | h'
            · exact absurd h' e
            · exact (h.ready o' (h1 o' (h2.1 o' h')) c hh).symm
      · rw [upd_ne _ _ e] at hp
        obtain ⟨k1, k2, k3, ps', k4, k5⟩ := h.init t' o' b k' hp
        refine ⟨?_, k2, fun o'' ho'' => hfl _ (k3 _ ho''), ps', fun o'' ho'' => hfl _ (k4 _ ho''), k5⟩
        show upd s.flag o Flag.busy o' = .busy
        by_cases e : o' = o
        · subst e; exact upd_same ..
        · rw [upd_ne _ _ e]; exact k1
    · intro t1 t2 o' b b' k1 k2 e1 e2
      dsimp only at e1 e2
      by_cases e : t1 = t
      · subst e
        rw [upd_same] at e1
        cases e1
        by_cases e' : t2 = t1
        · exact e'.symm
        · rw [upd_ne _ _ e'] at e2
          rw [(h.init t2 _ _ _ e2).1] at hf; cases hf
      · rw [upd_ne _ _ e] at e1
        by_cases e' : t2 = t
        · subst e'
          rw [upd_same] at e2
          cases e2
          rw [(h.init t1 _ _ _ e1).1] at hf; cases hf
        · rw [upd_ne _ _ e'] at e2; exact h.one t1 t2 o' b b' k1 k2 e1 e2
    · intro o' ho'
      dsimp only at ho' ⊢
      by_cases e : o' = o
      · subst e; exact ⟨t, body o', k, upd_same ..⟩
      · rw [upd_ne _ _ e] at ho'
        obtain ⟨t', b, k', e⟩ := h.busy o' ho'
        refine ⟨t', b, k', ?_⟩
        rw [upd_ne _ _ (by rintro rfl; rw [ht] at e; cases e)]; exact e
  | @skip o k ht hf =>
    obtain ⟨ps, h1, h2, h3⟩ := h.run t _ ht
    refine ⟨h.const, h.ready, h.idle, ?_, ?_, ?_, ?_⟩
    · intro t' p hp
      dsimp only at hp
      by_cases e : t' = t
      · subst e
        rw [upd_same] at hp
        cases hp
        refine ⟨o :: ps, ?_, h2.2, h3⟩
        intro o' ho'
        rcases List.mem_cons.1 ho' with e | e
        · subst e; exact hf
        · exact h1 o' e
      · rw [upd_ne _ _ e] at hp; exact h.run t' p hp
    · intro t' o' b k' hp
      dsimp only at hp
      by_cases e : t' = t
      · subst e; rw [upd_same] at hp; cases hp
      · rw [upd_ne _ _ e] at hp; exact h.init t' o' b k' hp
    · intro t1 t2 o' b b' k1 k2 e1 e2
      dsimp only at e1 e2
      by_cases e : t1 = t
      · subst e; rw [upd_same] at e1; cases e1
      · by_cases e' : t2 = t
        · subst e'; rw [upd_same] at e2; cases e2
        · rw [upd_ne _ _ e] at e1; rw [upd_ne _ _ e'] at e2; exact h.one t1 t2 o' b b' k1 k2 e1 e2
    · intro o' ho'
      obtain ⟨t', b, k', e⟩ := h.busy o' ho'
      refine ⟨t', b, k', ?_⟩
      dsimp only
      rw [upd_ne _ _ (by rintro rfl; rw [ht] at e; cases e)]; exact e
  | @iread o c b k ht =>
    obtain ⟨h1, h2, h3, h4⟩ := h.init t o _ k ht
    refine ⟨h.const, h.ready, h.idle, ?_, ?_, ?_, ?_⟩
    · intro t' p hp
      dsimp only at hp
      by_cases e : t' = t
      · subst e; rw [upd_same] at hp; cases hp
      · rw [upd_ne _ _ e] at hp; exact h.run t' p hp
    · intro t' o' b' k' hp
      dsimp only at hp
      by_cases e : t' = t
      · subst e
        rw [upd_same] at hp
        cases hp
        exact ⟨h1, h2.2, h3, h4⟩
      · rw [upd_ne _ _ e] at hp; exact h.init t' o' b' k' hp
    · intro t1 t2 o' b1 b2 k1 k2 e1 e2
      dsimp only at e1 e2
      have key : ∀ t' b' k', upd s.th t (.init o (b (s.mem c)) k) t' = .init o' b' k' → ∃ b'', s.th t' = .init o' b'' k' := by
        intro t' b' k' e
        by_cases e' : t' = t
        · subst e'; rw [upd_same] at e; cases e; exact ⟨_, ht⟩
        · rw [upd_ne _ _ e'] at e; exact ⟨_, e⟩
      obtain ⟨x1, y1⟩ := key _ _ _ e1
      obtain ⟨x2, y2⟩ := key _ _ _ e2
      exact h.one t1 t2 o' x1 x2 k1 k2 y1 y2
    · intro o' ho'
      obtain ⟨t', b', k', e⟩ := h.busy o' ho'
      dsimp only
      by_cases e' : t' = t
      · subst e'
        rw [ht] at e; cases e
        exact ⟨t', _, _, upd_same ..⟩
      · exact ⟨t', b', k', by rw [upd_ne _ _ e']; exact e⟩
  | @iwrite o c v b k ht =>
    obtain ⟨h1, h2, h3, h4⟩ := h.init t o _ k ht
    have hne : ∀ o', s.flag o' ≠ .busy → ∀ c', Γ.home c' = some o' → c' ≠ c := by
      rintro o' ho' c' hc' rfl
      rw [h2.1] at hc'; cases hc'; exact ho' h1
    refine ⟨?_, ?_, ?_, ?_, ?_, ?_, ?_⟩
    · intro c' hc'
      dsimp only
      rw [upd_ne _ _ (by rintro rfl; rw [h2.1] at hc'; cases hc')]; exact h.const c' hc'
    · intro o' ho' c' hc'
      dsimp only
      rw [upd_ne _ _ (hne o' (by rw [show s.flag o' = .ready from ho']; simp) c' hc')]; exact h.ready o' ho' c' hc'
    · intro o' ho' c' hc'
      dsimp only
      rw [upd_ne _ _ (hne o' (by rw [show s.flag o' = .idle from ho']; simp) c' hc')]; exact h.idle o' ho' c' hc'
    · intro t' p hp
      dsimp only at hp
      by_cases e : t' = t
      · subst e; rw [upd_same] at hp; cases hp
      · rw [upd_ne _ _ e] at hp; exact h.run t' p hp
    · intro t' o' b' k' hp
      dsimp only at hp
      by_cases e : t' = t
      · subst e
        rw [upd_same] at hp
        cases hp
        exact ⟨h1, h2.2, h3, h4⟩
      · rw [upd_ne _ _ e] at hp
        obtain ⟨g1, g2, g3, g4⟩ := h.init t' o' b' k' hp
        refine ⟨g1, g2.congr ?_, g3, g4⟩
        intro c' hc'
        dsimp only
        rw [upd_ne _ _ ?_]
        rintro rfl
        have := hc' o h2.1
        rcases List.mem_cons.1 this with e' | e'
        · subst e'; exact e (h.one _ _ _ _ _ _ _ hp ht)
        · rw [g3 o e'] at h1; cases h1
    · intro t1 t2 o' b1 b2 k1 k2 e1 e2
      dsimp only at e1 e2
      have key : ∀ t' b' k', upd s.th t (.init o b k) t' = .init o' b' k' → ∃ b'', s.th t' = .init o' b'' k' := by
        intro t' b' k' e
        by_cases e' : t' = t
        · subst e'; rw [upd_same] at e; cases e; exact ⟨_, ht⟩
        · rw [upd_ne _ _ e'] at e; exact ⟨_, e⟩
      obtain ⟨x1, y1⟩ := key _ _ _ e1
      obtain ⟨x2, y2⟩ := key _ _ _ e2
      exact h.one t1 t2 o' x1 x2 k1 k2 y1 y2
    · intro o' ho'
      obtain ⟨t', b', k', e⟩ := h.busy o' ho'
      dsimp only
      by_cases e' : t' = t
      · subst e'
        rw [ht] at e; cases e
        exact ⟨t', _, _, upd_same ..⟩
      · exact ⟨t', b', k', by rw [upd_ne _ _ e']; exact e⟩
  | @leave o k ht =>
    obtain ⟨h1, h2, h3, ps, h4, h5, h6⟩ := h.init t o _ k ht
    have hfl : ∀ o', s.flag o' = .ready → upd s.flag o Flag.ready o' = .ready := by
      intro o' ho'
      by_cases e : o' = o
      · subst e; exact upd_same ..
      · rw [upd_ne _ _ e]; exact ho'
    refine ⟨h.const, ?_, ?_, ?_, ?_, ?_, ?_⟩
    · intro o' ho'
      dsimp only at ho' ⊢
      by_cases e : o' = o
      · subst e; exact h2
      · rw [upd_ne _ _ e] at ho'; exact h.ready o' ho'
    · intro o' ho'
      dsimp only at ho'
      by_cases e : o' = o
      · subst e; rw [upd_same] at ho'; cases ho'
      · rw [upd_ne _ _ e] at ho'; exact h.idle o' ho'
    · intro t' p hp
      dsimp only at hp
      by_cases e : t' = t
      · subst e
        rw [upd_same] at hp
        cases hp
        refine ⟨o :: ps, ?_, h5, h6⟩
        intro o' ho'
        rcases List.mem_cons.1 ho' with e | e
        · subst e; exact upd_same ..
        · exact hfl _ (h4 o' e)
      · rw [upd_ne _ _ e] at hp
        obtain ⟨ps', k1, k2⟩ := h.run t' p hp
        exact ⟨ps', fun o' ho' => hfl o' (k1 o' ho'), k2⟩
    · intro t' o' b k' hp
      dsimp only at hp
      by_cases e : t' = t
      · subst e; rw [upd_same] at hp; cases hp
      · rw [upd_ne _ _ e] at hp
        obtain ⟨k1, k2, k3, ps', k4, k5⟩ := h.init t' o' b k' hp
        refine ⟨?_, k2, fun o'' ho'' => hfl _ (k3 _ ho''), ps', fun o'' ho'' => hfl _ (k4 _ ho''), k5⟩
        show upd s.flag o Flag.ready o' = .busy
        by_cases e' : o' = o
        · subst e'; exact absurd (h.one _ _ _ _ _ _ _ hp ht) e
        · rw [upd_ne _ _ e']; exact k1
    · intro t1 t2 o' b b' k1 k2 e1 e2
      dsimp only at e1 e2
      by_cases e : t1 = t
      · subst e; rw [upd_same] at e1; cases e1
      · by_cases e' : t2 = t
        · subst e'; rw [upd_same] at e2; cases e2
        · rw [upd_ne _ _ e] at e1; rw [upd_ne _ _ e'] at e2; exact h.one t1 t2 o' b b' k1 k2 e1 e2
    · intro o' ho'
      dsimp only at ho' ⊢
      by_cases e : o' = o
      · subst e; rw [upd_same] at ho'; cases ho'
      · rw [upd_ne _ _ e] at ho'
        obtain ⟨t', b, k', e'⟩ := h.busy o' ho'
        refine ⟨t', b, k', ?_⟩
        rw [upd_ne _ _ (by rintro rfl; rw [ht] at e'; cases e'; exact e rfl)]; exact e'

theorem Inv.steps {body : O → Init C W} {m0 : C → W} (H : Γ.Holds body m0) {prog : T → Prog C O W A} {s s' : Conf C O W A T}
    (h : Inv body m0 Γ prog s) (hs : Steps body s s') : Inv body m0 Γ prog s' := by
  induction hs with
  | refl => exact h
  | step _ h2 ih => exact Inv.next H ih h2

/-! ## A disciplined program alone gives the final-state answer -/

theorem Init.Ok.exec {o : O} {b : Init C W} {m : C → W} (h : b.Ok Γ o m) :
    (∀ c, Γ.home c = some o → b.exec m c = Γ.fin c) ∧ ∀ c, Γ.home c ≠ some o → b.exec m c = m c := by
  induction b generalizing m with
  | done => exact ⟨h, fun _ _ => rfl⟩
  | read c k ih => exact ih _ h.2
  | write c v b ih =>
    have := ih h.2
    refine ⟨this.1, fun c' hc' => ?_⟩
    show b.exec (upd m c v) c' = m c'
    rw [this.2 c' hc', upd_ne _ _ (by rintro rfl; exact hc' h.1)]

theorem Prog.Ok.alone {body : O → Init C W} {m0 : C → W} (H : Γ.Holds body m0) {p : Prog C O W A} {ps : List O} (h : p.Ok Γ ps) {f : O → Bool}
    {m : C → W} (hps : ∀ o ∈ ps, f o = true) (hc : ∀ c, Γ.home c = none → m c = Γ.fin c)
    (hr : ∀ o, f o = true → ∀ c, Γ.home c = some o → m c = Γ.fin c) (hi : ∀ o, f o = false → ∀ c, Γ.home c = some o → m c = m0 c) :
    p.alone body f m = p.eval Γ.fin := by
  induction p generalizing ps f m with
  | ret a => rfl
  | read c k ih =>
    have hv : m c = Γ.fin c := by
      cases ho : Γ.home c with
      | none => exact hc c ho
      | some o => exact hr o (hps o (h.1 o ho)) c ho
    show (k (m c)).alone body f m = (k (Γ.fin c)).eval Γ.fin
    rw [hv]
    exact ih _ h.2 hps hc hr hi
  | write c v p ih => exact h.elim
  | once o p ih =>
    show (if f o then p.alone body f m else p.alone body (upd f o true) ((body o).exec m)) = p.eval Γ.fin
    by_cases hf : f o = true
    · rw [if_pos hf]
      refine ih h.2 ?_ hc hr hi
      intro o' ho'
      rcases List.mem_cons.1 ho' with e | e
      · subst e; exact hf
      · exact hps o' e
    · rw [if_neg hf]
      have hf : f o = false := by simpa using hf
      have hb : (body o).Ok Γ o m := by
        refine (H.init o).congr ?_
        intro c hc'
        cases hh : Γ.home c with
        | none => rw [if_neg (by simp)]; exact (hc c hh).symm
        | some o' =>
          by_cases e : o' = o
          · subst e; rw [if_pos rfl]; exact (hi o' hf c hh).symm
          · rw [if_neg (by simpa using e)]
            have := hc' o' hh
            rw [List.mem_cons] at this
            rcases this with h' | h'
            · exact absurd h' e
            · exact (hr o' (hps o' (h.1 o' h')) c hh).symm
      obtain ⟨x1, x2⟩ := hb.exec
      refine ih h.2 ?_ ?_ ?_ ?_
      · intro o' ho'
        by_cases e : o' = o
        · subst e; exact upd_same ..
        · rw [upd_ne _ _ e]
          rcases List.mem_cons.1 ho' with e' | e'
          · exact absurd e' e
          · exact hps o' e'
      · intro c hc'
        rw [x2 c (by rw [hc']; simp)]; exact hc c hc'
      · intro o' ho' c hc'
        by_cases e : o' = o
        · subst e; exact x1 c hc'
        · rw [upd_ne _ _ e] at ho'
          rw [x2 c (by rw [hc']; simpa using e)]; exact hr o' ho' c hc'
      · intro o' ho' c hc'
        by_cases e : o' = o
        · subst e; rw [upd_same] at ho'; cases ho'
        · rw [upd_ne _ _ e] at ho'
          rw [x2 c (by rw [hc']; simpa using e)]; exact hi o' ho' c hc'

/-! ## Results -/

/-- **Every schedule gives every thread the answer it gets alone.** -/
theorem schedule_irrelevant {body : O → Init C W} {m0 : C → W} (H : Γ.Holds body m0) {prog : T → Prog C O W A} (hp : ∀ t, (prog t).Ok Γ [])
    {s : Conf C O W A T} (hs : Steps body (Conf.start m0 prog) s) {t : T} {a : A} (ht : s.th t = .run (.ret a)) :
    a = (prog t).alone body (fun _ => false) m0 := by
  obtain ⟨ps, -, -, h3⟩ := ((Inv.start H hp).steps H hs).run t _ ht
  rw [(hp t).alone H (by intro o ho; cases ho) H.const (by intro o ho; cases ho) (fun _ _ _ _ => rfl)]
  exact h3

/-- The cell a thread accesses next, and whether it writes. -/
def Th.access : Th C O W A → Option (C × Bool)
  | .run (.read c _) => some (c, false)
  | .run (.write c _ _) => some (c, true)
  | .init _ (.read c _) _ => some (c, false)
  | .init _ (.write c _ _) _ => some (c, true)
  | _ => none

/-- Two threads about to access one cell, one of them writing: a data race. -/
def Conf.race (s : Conf C O W A T) : Prop := ∃ t t' c w, t ≠ t' ∧ (s.th t).access = some (c, true) ∧ (s.th t').access = some (c, w)

theorem no_race {body : O → Init C W} {m0 : C → W} (H : Γ.Holds body m0) {prog : T → Prog C O W A} (hp : ∀ t, (prog t).Ok Γ [])
    {s : Conf C O W A T} (hs : Steps body (Conf.start m0 prog) s) : ¬ s.race := by
  have hi := (Inv.start H hp).steps H hs
  rintro ⟨t, t', c, w, hne, h1, h2⟩
  -- the writer is an initialiser of the cell's flag, which is busy
  have hw : ∃ o b k, s.th t = .init o b k ∧ Γ.home c = some o := by
    cases ht : s.th t with
    | run p =>
      obtain ⟨ps, -, hok, -⟩ := hi.run t p ht
      rw [ht] at h1
      cases p with
      | write c' v k => exact hok.elim
      | _ => cases h1
    | init o b k =>
      obtain ⟨-, hok, -⟩ := hi.init t o b k ht
      rw [ht] at h1
      cases b with
      | write c' v b => cases h1; exact ⟨o, _, k, rfl, hok.1⟩
      | _ => cases h1
  obtain ⟨o, b, k, ht, hc⟩ := hw
  have hbusy := (hi.init t o b k ht).1
  cases ht' : s.th t' with
  | run p =>
    obtain ⟨ps, hps, hok, -⟩ := hi.run t' p ht'
    rw [ht'] at h2
    cases p with
    | read c' k' =>
      cases h2
      rw [hps o (hok.1 o hc)] at hbusy; cases hbusy
    | write c' v k' => exact hok.elim
    | _ => cases h2
  | init o' b' k' =>
    obtain ⟨-, hok, hd, -⟩ := hi.init t' o' b' k' ht'
    have hno : o' ≠ o := by
      rintro rfl; exact hne (hi.one _ _ _ _ _ _ _ ht ht')
    rw [ht'] at h2
    cases b' with
    | read c' k'' =>
      cases h2
      have := hok.1 o hc
      rcases List.mem_cons.1 this with e | e
      · exact hno e.symm
      · rw [hd o e] at hbusy; cases hbusy
    | write c' v b'' =>
      cases h2
      have := hok.1
      rw [hc] at this
      exact hno (Option.some.inj this).symm
    | _ => cases h2

/-- A thread that has an answer. -/
def Th.finished : Th C O W A → Prop
  | .run (.ret _) => True
  | _ => False

/-- **No deadlock**: as long as a thread has no answer, some thread can make a step. -/
theorem progress {body : O → Init C W} {m0 : C → W} (H : Γ.Holds body m0) {prog : T → Prog C O W A} (hp : ∀ t, (prog t).Ok Γ [])
    {s : Conf C O W A T} (hs : Steps body (Conf.start m0 prog) s) {t : T} (ht : ¬ (s.th t).finished) : ∃ t' s', Step body s t' s' := by
  have hi := (Inv.start H hp).steps H hs
  have hinit : ∀ t o b k, s.th t = .init o b k → ∃ s', Step body s t s' := by
    intro t o b k e
    cases b with
    | done => exact ⟨_, .leave e⟩
    | read c b => exact ⟨_, .iread e⟩
    | write c v b => exact ⟨_, .iwrite e⟩
  cases h : s.th t with
  | init o b k => exact ⟨t, hinit t o b k h⟩
  | run p =>
    cases p with
    | ret a => rw [h] at ht; exact absurd trivial ht
    | read c k => exact ⟨t, _, .read h⟩
    | write c v k => exact ⟨t, _, .write h⟩
    | once o k =>
      cases hf : s.flag o with
      | idle => exact ⟨t, _, .enter h hf⟩
      | ready => exact ⟨t, _, .skip h hf⟩
      | busy =>
        obtain ⟨t', b, k', e⟩ := hi.busy o hf
        exact ⟨t', hinit t' o b k' e⟩

end Generic

end Verif.Threads
