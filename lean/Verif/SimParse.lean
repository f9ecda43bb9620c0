import Verif.SimAll
import Verif.Plain
/-!
# Whole parses agree with the reference semantics
-/

namespace Verif
open Out CharClass

variable {V : Type} {cfg : Cfg V} {C : Cert} {al : Nat → Prop}

theorem PegParse.det {G : Gram V} {r : Nat} {eoi : Bool} {x y : Option (Nat × Frame V)} (h : PegParse G r eoi x)
    (h' : PegParse G r eoi y) : x = y := by
  have key : ∀ {i c s j c' s' a b}, Peg G {} {} .skip 0 {} (.ok i c s) → Peg G {} {} .skip 0 {} (.ok j c' s') →
      Peg G {} {} (.hold r) i s a → Peg G {} {} (.hold r) j s' b → a = b := by
    intro i c s j c' s' a b h1 h2 h3 h4
    have := h1.det h2
    injection this with e1 e2 e3
    subst e1; subst e3
    exact h3.det h4
  cases h with
  | noSkip h1 =>
    cases h' with
    | noSkip => rfl
    | noRule h2 h3 => cases h1.det h2
    | rest h2 h3 => cases h1.det h2
    | ok h2 h3 => cases h1.det h2
  | noRule h1 k1 =>
    cases h' with
    | noSkip h2 => cases h1.det h2
    | noRule => rfl
    | rest => rfl
    | ok h2 k2 => cases key h1 h2 k1 k2
  | rest h1 k1 e l =>
    cases h' with
    | noSkip h2 => cases h1.det h2
    | noRule => rfl
    | rest => rfl
    | ok h2 k2 l' =>
      have := key h1 h2 k1 k2
      injection this with e1 e2 e3
      have := l' e
      omega
  | ok h1 k1 l =>
    cases h' with
    | noSkip h2 => cases h1.det h2
    | noRule h2 k2 => cases key h1 h2 k1 k2
    | rest h2 k2 e l' =>
      have := key h1 h2 k1 k2
      injection this with e1 e2 e3
      have := l e
      omega
    | ok h2 k2 l' =>
      have := key h1 h2 k1 k2
      injection this with e1 e2 e3
      rw [e1, e3]

theorem PegParse.plain {G : Gram V} {r : Nat} {eoi : Bool} {x : Option (Nat × Frame V)} (h : PegParse G r eoi x) :
    PegParse G.plain r eoi x := by
  cases h with
  | noSkip h1 => exact .noSkip h1.plain
  | noRule h1 h2 => exact .noRule h1.plain h2.plain
  | rest h1 h2 e l => exact .rest h1.plain h2.plain e l
  | ok h1 h2 l => exact .ok h1.plain h2.plain l

/-- The `%word` expression can be evaluated at position `i` of `inp`. -/
def WordCert (cfg : Cfg V) (inp : List Byte) (i : Nat) : Prop :=
  ∀ w, cfg.word = some w → ∃ (C : Cert) (b : Nat) (al : Nat → Prop), CertOk (cfg.dummy inp) C al ∧
    wf (cfg.dummy inp) C {} false {} b w = true ∧ w.Each (nodeOk (cfg.dummy inp) al) ∧ usesEnv cfg w = false ∧ al i

theorem rel_start (hs : SlotsOk cfg) (b : Nat) (dt : Option V) (log : Bool) :
    Rel cfg C [] b {} 0 {} ({ dt := dt, logOn := log } : St V) where
  pre := ⟨hs, ⟨fun _ _ _ h => (by cases h), fun _ _ _ _ _ h => (by cases h), fun _ h => (by cases h)⟩, Nat.zero_le _, by
    intro f hf e he
    simp only [List.head?_cons, Option.mem_def, Option.some.injEq] at hf
    subst hf; cases he⟩
  caps := rfl
  vs _ := rfl
  tok := by simp
  inWs := rfl
  prec := by intro q hq; cases hq
  recd := rfl
  args := by simp
  busy := by intro q hq; cases hq
  memo := by intro _ r d sl i h1 h2; trivial
  lr := ⟨fun _ h => (by cases h), fun _ _ _ h => (by cases h)⟩
  lra := by intro q hq; cases hq
  capl _ := rfl
  act := by intro _ r d p _ h; cases h

/-- The same at another position. -/
theorem rel_start_at (hs : SlotsOk cfg) (b : Nat) {i : Nat} (hi : i ≤ cfg.input.length) : Rel cfg C [] b {} i {} ({} : St V) :=
  let h := rel_start (C := C) hs b (none : Option V) false
  { h with
    pre := ⟨h.pre.slots, h.pre.ok, hi, h.pre.top⟩
    busy := by intro q hq; cases hq }

theorem usesEnv_rules {cfg cfg' : Cfg V} (h : cfg'.rules = cfg.rules) (e : Ope) : usesEnv cfg' e = usesEnv cfg e :=
  Ope.rec (motive_1 := fun e => usesEnv cfg' e = usesEnv cfg e) (motive_2 := fun es => usesEnvList cfg' es = usesEnvList cfg es)
    (fun _ _ ih => by simp only [usesEnv]; exact ih) (fun _ _ _ ih => by simp only [usesEnv]; exact ih)
    (fun _ _ _ _ ih => by simp only [usesEnv]; exact ih) (fun _ ih => by simp only [usesEnv]; exact ih)
    (fun _ ih => by simp only [usesEnv]; exact ih) (fun _ _ => by simp only [usesEnv]) (fun _ _ => by simp only [usesEnv])
    (fun _ => by simp only [usesEnv]) (fun _ => by simp only [usesEnv]) (by simp only [usesEnv])
    (fun _ ih => by simp only [usesEnv]; exact ih) (fun _ _ ih => by simp only [usesEnv]; exact ih)
    (fun _ ih => by simp only [usesEnv]; exact ih) (fun _ ih => by simp only [usesEnv]; exact ih)
    (fun _ => by simp only [usesEnv]) (fun _ => by simp only [usesEnv]) (fun _ _ _ _ => by simp only [usesEnv, h])
    (fun _ _ => by simp only [usesEnv]) (fun _ ih => by simp only [usesEnv]; exact ih) (fun _ => by simp only [usesEnv])
    (fun _ _ _ _ _ _ => by simp only [usesEnv]) (fun _ _ _ _ => by simp only [usesEnv]) (by simp only [usesEnv])
    (by simp only [usesEnv]) (by simp only [usesEnvList]) (fun _ _ h1 h2 => by simp only [usesEnvList, h1, h2]) e

theorem WordCert.at {inp : List Byte} {i : Nat} (h : WordCert cfg inp i) (hi : i ≤ inp.length) : WordAt cfg inp i := by
  intro w hw
  obtain ⟨C, b, al, hc, hwf, hn, hu, ha⟩ := h w hw
  have hwd : WordOk (cfg.dummy inp) al := by intro _ _ _ w' h'; cases h'
  obtain ⟨x, hp, hx, hsim⟩ := claim_all hc hwd w b i hi {} false {} {} {} hwf (by intro h; cases h) (EnvOk.none _ _ _) hn
    ha hi ⟨(by intro e he; cases he), fun _ => rfl⟩
  have hu' : usesEnv (cfg.dummy inp) w = false := (usesEnv_rules (cfg := cfg) (cfg' := cfg.dummy inp) rfl w).trans hu
  obtain ⟨n, st', e1, a⟩ := hsim [] {} (rel_start_at hc.slots b hi) (fun h => by rw [hu'] at h; cases h)
  exact ⟨x, n, st', hp, e1⟩

/-- The grammar of a parse, with its certificate and start rule. -/
structure Ready (cfg : Cfg V) (C : Cert) (al : Nat → Prop) (r : Nat) : Prop where
  cert : CertOk cfg C al
  word : ∀ i, al i → WordCert cfg cfg.input i
  start : al 0
  rule : ∃ d, cfg.rules[r]? = some d ∧ d.isMacro = false
  mode : C.modes r {} = true

theorem parseCore_skip {n : Nat} {r : Nat} {eoi : Bool} {st : St V} (h : st.tokCount = 0) :
    parseCore n cfg r eoi st = (skipWs (run n) cfg 0 st).bind fun x =>
      match x.1 with
      | none => .ok ⟨false, x.2.recovered, 0, x.2⟩
      | some i =>
        (run n cfg (.hold r) i x.2).bind fun y =>
          match y.1 with
          | none => .ok ⟨false, y.2.recovered, i, y.2⟩
          | some j => .ok (eoiCheck cfg eoi j y.2) := by
  unfold parseCore skipWs
  rw [if_neg (by rw [h]; simp)]
  cases cfg.ws <;> rfl

/-- A parse finishes with the result of the reference semantics. -/
theorem parseCore_peg {r : Nat} (h : Ready cfg C al r) (eoi : Bool) (dt : Option V) (log : Bool) :
    ∃ x n res, PegParse cfg.gram r eoi x ∧ parseCore n cfg r eoi { dt := dt, logOn := log } = .ok res ∧
      res.ret = x.isSome ∧ res.recovered = false ∧
      ∀ j f, x = some (j, f) → res.len = j ∧ (cfg.recognizeOnly = false → res.st.vs = f) := by
  have hc := h.cert
  have hwd : WordOk cfg al := fun i ha hi => (h.word i ha).at hi
  have hcl := fun e b i hi => claim_all hc hwd e b i hi
  obtain ⟨d, hd, hmac⟩ := h.rule
  have hs0 : CapsOk cfg C al ({} : PSt V) := ⟨(by intro e he; cases he), fun _ => rfl⟩
  let b := max (C.rank r + 1) C.wsBound
  obtain ⟨x0, hp0, hx0, hsim0⟩ := skip_does (b := b) (m := {}) hc
    (Or.inr ⟨Nat.le_max_right _ _, fun e _ => hcl e _ _ (Nat.zero_le _)⟩) (EnvOk.none cfg C al) h.start (Nat.zero_le _) hs0
  have hr0 := rel_start (cfg := cfg) (C := C) hc.slots b dt log
  obtain ⟨n0, st0, e0, a0⟩ := hsim0 [] _ hr0 (fun h => by cases h)
  simp only at e0
  cases x0 with
  | fail c =>
    refine ⟨none, n0, ⟨false, st0.recovered, 0, st0⟩, .noSkip hp0, ?_, rfl, a0.recd, fun _ _ h => (by cases h)⟩
    rw [parseCore_skip (by rfl), e0]; rfl
  | ok i c s =>
    obtain ⟨h1, h2, h3, h4, h5⟩ := hx0.pos i c s rfl
    obtain ⟨x1, hp1, hx1, hsim1⟩ := hold_does (S := 0) hc hd hmac h.mode (show C.rank r < b by omega)
      (fun e' b' i' hi' _ => hcl e' b' i' hi') h3 h2 h5
    have hr1 : Rel cfg C [] b {} i s st0 :=
      { hr0.next (b2 := 0) a0 (by rcases Nat.lt_or_eq_of_le h1 with h | h
                                  · exact Or.inl h
                                  · exact Or.inr ⟨h.symm, Nat.zero_le _⟩) with busy := by intro q hq; cases hq }
    obtain ⟨n1, st1, e1, a1, -⟩ := hsim1 [] st0 hr1 (fun _ => ⟨[], by rw [a0.p.keep.args]⟩)
    have e0' := (skip_mono 0).ok e0 (Nat.le_max_left n0 n1)
    have e1' := (run_fmono (.hold r) i).ok e1 (Nat.le_max_right n0 n1)
    have hstep : parseCore (max n0 n1) cfg r eoi { dt := dt, logOn := log } =
        match x1.pos with
        | none => .ok ⟨false, st1.recovered, i, st1⟩
        | some j => .ok (eoiCheck cfg eoi j st1) := by
      rw [parseCore_skip (by rfl), e0']
      simp only [Out.bind, PRes.pos]
      rw [e1']
      cases x1 <;> rfl
    cases x1 with
    | fail c' =>
      exact ⟨none, _, _, .noRule hp0 hp1, hstep, rfl, a1.recd, fun _ _ h => (by cases h)⟩
    | ok j c' s' =>
      by_cases he : (eoi && decide (j < cfg.input.length)) = true
      · simp only [Bool.and_eq_true, decide_eq_true_eq] at he
        refine ⟨none, _, _, .rest hp0 hp1 he.1 he.2, hstep, ?_, ?_, fun _ _ h => (by cases h)⟩
        · simp [eoiCheck, he.1, he.2]
        · simp only [eoiCheck, he.1, he.2, decide_true, Bool.and_self, if_true]
          split <;> exact a1.recd
      · have hs : eoiCheck cfg eoi j st1 = ⟨true, st1.recovered, j, st1⟩ := by
          unfold eoiCheck
          rw [if_neg he]
        refine ⟨some (j, s'.vs), _, _, .ok hp0 hp1 ?_, hstep, ?_, ?_, ?_⟩
        · intro h'
          simp only [h', Bool.true_and, decide_eq_true_eq, Nat.not_lt] at he
          exact he
        · rw [hs]; rfl
        · rw [hs]; exact a1.recd
        · intro j' f' e'
          cases e'
          rw [hs]
          exact ⟨rfl, (a1.res _ _ _ rfl).2⟩

end Verif
