import Verif.BlobRound
/-!
# C40, C41: grammar blobs

Specification terms: a grammar is a list of definitions with distinct names in any order (`unordered_map`); two
lists denote the same grammar when they are permutations of each other.  `Blob.Faithful` says that no dictionary word
is a proper prefix of an earlier word (repetitions aside); `Blob.FitsDef` that all sizes fit in 32 bits and all
dictionaries are faithful.
-/

namespace Verif.Props
open Verif.Blob Verif.Trie

/-- C40 (what holds). Every grammar that `serialize` accepts, whose sizes fit and whose dictionaries are faithful, is
restored by `load_blob`: the same start rule and the same definitions, every flag and every operator included.
(Missing for the full claim: dictionaries with a word that is a prefix of an earlier word, see
`C40_dictionary_partial` and `C40_word_lost`.) -/
theorem C40_round_trip_partial (g : List BDef) (start blob : List Byte) (hs : start.length < 2 ^ 32)
    (hg : g.length < 2 ^ 32) (hnames : (g.map (·.name)).Nodup) (hfit : ∀ d ∈ g, FitsDef d)
    (hnull : ∀ d ∈ g, linkHitsNull d = false) (hw : serialize g start = some blob) :
    ∃ g', loadBlob blob = .ok (some (start, g')) [] ∧ g'.Perm g := by
  refine ⟨sortBy (·.name) g, ?_, sortBy_perm _ _⟩
  unfold loadBlob
  rw [deserialize_serialize g start blob hs hg hnames hfit hnull hw]

/-- C40. `serialize` throws exactly when some definition contains a `User` operator (or another unsupported class) or
a capture with a match action. -/
theorem C40_serializable_partial (g : List BDef) (start : List Byte) :
    (serialize g start).isSome = true ↔ ∀ d ∈ g, Serial d.ope = true := by
  unfold serialize
  rw [Option.isSome_map, writeDefs_isSome]
  exact ⟨fun h d hd => h d ((sortBy_perm _ g).mem_iff.mpr hd), fun h d hd => h d ((sortBy_perm _ g).mem_iff.mp hd)⟩

/-- C40. The bytes do not depend on the iteration order of the hash map. -/
theorem C40_canonical_partial (g g' : List BDef) (start : List Byte) (hp : g.Perm g')
    (hnames : (g.map (·.name)).Nodup) : serialize g start = serialize g' start := by
  unfold serialize
  rw [sortBy_canonical hp hnames, hp.length_eq]

/-- C40. A dictionary is restored (same trie) exactly when no stored word is a proper prefix of an earlier one that
precedes its first occurrence. -/
theorem C40_dictionary_partial (words : List (List Byte)) (ic : Bool) :
    build (trieWords (build words ic)) ic = build words ic ↔
      ∀ (i j : Nat) (wi wj : List Byte), (words.map fun s => if ic then Trie.toLower s else s)[i]? = some wi →
        (words.map fun s => if ic then Trie.toLower s else s)[j]? = some wj → i < j → wj <+: wi → wj ≠ [] →
        wj ≠ wi → ∃ k : Nat, k < i ∧ (words.map fun s => if ic then Trie.toLower s else s)[k]? = some wj :=
  rebuild_iff words ic

/-! A grammar with most operators, as the hypotheses require. -/

/-- `S <- 'a'? [b-d]+ X / . ↑; X <- 'if' | 'else'`. -/
def blG : List BDef :=
  [{ name := [83], packrat := true,
     ope := .cho false [.seq [.rep 0 1 (.lit [97] false), .rep 1 (2 ^ 64 - 1) (.cls ⟨[(98, 100)], false, false⟩),
       .ref false [88] []], .seq [.dot, .cut]] },
   { name := [88], ignoreSV := true, noWs := true, ope := .dict (build [[105, 102], [101, 108, 115, 101]] false) }]

theorem blFaithful : Faithful (stored [[105, 102], [101, 108, 115, 101]] false) := by
  intro i j wi wj h1 h2 hij hp hne hd
  rcases i with _ | _ | i <;> rcases j with _ | _ | j <;> simp [stored] at h1 h2 hij <;> subst h1 <;> subst h2 <;>
    simp at hp

example : ∃ blob g', serialize blG [83] = some blob ∧ loadBlob blob = .ok (some ([83], g')) [] ∧ g'.Perm blG := by
  have h : (serialize blG [83]).isSome = true := by
    rw [C40_serializable_partial]
    intro d hd
    simp only [blG, List.mem_cons, List.not_mem_nil, or_false] at hd
    rcases hd with rfl | rfl <;> simp [Serial, SerialAll]
  obtain ⟨blob, hb⟩ := Option.isSome_iff_exists.mp h
  obtain ⟨g', h1, h2⟩ := C40_round_trip_partial blG [83] blob (by decide) (by decide) (by decide) (by
    intro d hd
    simp only [blG, List.mem_cons, List.not_mem_nil, or_false] at hd
    rcases hd with rfl | rfl
    · simp [FitsDef, Fits, FitsAll]
    · refine ⟨by decide, by decide, by simp, by decide, by decide, ?_⟩
      exact ⟨_, false, rfl, blFaithful, by decide, by simp⟩) (by
    intro d hd
    simp only [blG, List.mem_cons, List.not_mem_nil, or_false] at hd
    rcases hd with rfl | rfl <;> simp [linkHitsNull, hitsNull, hitsNulls]) hb
  exact ⟨blob, g', hb, h1, h2⟩

/-- C40, the general claim is false: after a round trip the dictionary `'ab' | 'a'` no longer matches "a". -/
theorem C40_word_lost :
    (build [[97, 98], [97]] false).matchText [97] = (1, 0) ∧
    (build (trieWords (build [[97, 98], [97]] false)) false).matchText [97] = (0, 0) := by decide +kernel

/-- C41 (what holds). Reading any byte string ends, and it accesses nothing outside the buffer except in one place: a
string copy of `n` bytes where `n` is the little-endian number in the four bytes just read and fewer than `n` bytes
are left.  Null pointers are dereferenced only by the linking pass, when a null operator was read. -/
theorem C41_reads_partial (blob : List Byte) :
    match loadBlob blob with
    | .ok _ _ => True
    | .fail => False
    | .oof => False
    | .over n rest => rest.length < n ∧ ∃ pre, blob = pre ++ u32 n ++ rest
    | .nullDeref => ∃ start ds rest, readGrammar (blob.length + 1) blob = .ok (start, ds) rest ∧
        ∃ d ∈ ds.foldl putDef [], linkHitsNull d = true := by
  have g := good_readGrammar blob.length blob (Nat.le_refl _)
  unfold loadBlob deserialize Rd.bind
  cases hr : readGrammar (blob.length + 1) blob with
  | ok a r =>
    simp only
    cases hb : (a.2.foldl putDef []).any linkHitsNull with
    | false => simp [Rd.pure]
    | true =>
      simp only [if_true]
      rw [List.any_eq_true] at hb
      exact ⟨a.1, a.2, r, rfl, hb⟩
  | fail => trivial
  | over k r => rw [hr] at g; exact g
  | nullDeref => rw [hr] at g; exact g.elim
  | oof => rw [hr] at g; exact g

/-- C41. A blob that does not start with the magic number is refused without any stray access. -/
theorem C41_magic_partial (blob : List Byte) (h : ¬ u32 magic <+: blob) : loadBlob blob = .ok none [] := by
  have : deserialize blob = .fail := by
    unfold deserialize readGrammar
    have g := good_rle blob.length 4 blob (Nat.le_refl _)
    unfold Rd.bind
    cases hr : ru32 blob with
    | ok m r =>
      have hm : m ≠ magic := by
        intro hm
        have := (rle_ok hr).1
        rw [hm] at this
        exact h ⟨r, this.symm⟩
      simp only
      rw [if_pos hm]
      rfl
    | fail => rfl
    | over k r =>
      exfalso
      -- the number reader never copies strings
      have : ∀ (k : Nat) (bs : List Byte) n r, rle k bs ≠ .over n r := by
        intro k
        induction k with
        | zero => intro bs n r hh; cases hh
        | succ k ih =>
          intro bs n r hh
          cases bs with
          | nil => cases hh
          | cons b bs =>
            simp only [rle] at hh
            rw [bind_u8] at hh
            unfold Rd.bind at hh
            cases hk : rle k bs with
            | over n' r' => exact ih bs n' r' hk
            | ok a r' => rw [hk] at hh; cases hh
            | fail => rw [hk] at hh; cases hh
            | nullDeref => rw [hk] at hh; cases hh
            | oof => rw [hk] at hh; cases hh
      exact this 4 blob k r hr
    | nullDeref => rw [show rle 4 blob = _ from hr] at g; exact g.elim
    | oof => rw [show rle 4 blob = _ from hr] at g; exact g.elim
  unfold loadBlob
  rw [this]

/-- C41. No proper prefix of a blob written by `serialize` is accepted as a grammar. -/
theorem C41_truncated_partial (g : List BDef) (start blob : List Byte) (hs : start.length < 2 ^ 32)
    (hg : g.length < 2 ^ 32) (hnames : (g.map (·.name)).Nodup) (hfit : ∀ d ∈ g, FitsDef d)
    (hnull : ∀ d ∈ g, linkHitsNull d = false) (hw : serialize g start = some blob) (cutOff : List Byte)
    (hp : cutOff <+: blob) (hne : cutOff ≠ blob) :
    ∀ start' g' rest, loadBlob cutOff ≠ .ok (some (start', g')) rest := by
  intro start' g' rest h
  unfold loadBlob at h
  cases hr : deserialize cutOff with
  | ok a r =>
    obtain ⟨t, rfl⟩ := hp
    have h1 := deserialize_ext cutOff t r a hr
    rw [deserialize_serialize g start _ hs hg hnames hfit hnull hw] at h1
    simp only [R.ok.injEq] at h1
    have := h1.2
    have ht : t = [] := (List.append_eq_nil_iff.mp this.symm).2
    apply hne; rw [ht]; simp
  | _ => rw [hr] at h; cases h

/-- The blob of `S <- 'ab'`. -/
def blTiny : List Byte :=
  u32 magic ++ wstr [83] ++ u32 1 ++ (wstr [83] ++ [8, 0] ++ u32 0 ++ wstr [] ++ wstr [] ++ ([6, 0] ++ wstr [97, 98]))

example : serialize [{ name := [83], ope := .lit [97, 98] false }] [83] = some blTiny := by decide +kernel

/-- C41, the general claim is false: with the last byte of the blob of `S <- 'ab'` missing, two bytes are copied
although one is left. -/
theorem C41_overread : loadBlob blTiny.dropLast = .over 2 [97] := by rfl

/-- C41, the general claim is false: a blob with a null rule body passes the reader, and linking dereferences it. -/
theorem C41_null_body :
    loadBlob (u32 magic ++ wstr [83] ++ u32 1 ++ (wstr [83] ++ [8, 0] ++ u32 0 ++ wstr [] ++ wstr [] ++ [20])) =
      .nullDeref := by rfl

end Verif.Props
