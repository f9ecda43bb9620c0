import Verif.Meta
import Verif.Loaded
/-!
# The bootstrap grammar passes the tests

Certificates for the bootstrap grammar: without annotations on all byte strings, with the annotations of `SetupFirstSets` on UTF-8 texts.
-/

namespace Verif.Meta
open Verif CharClass Utf8

/-- Rule `r` calls, where it starts, only rules of smaller rank. -/
def metaRank : List Nat :=
  [3, 2, 7, 6, 5, 4, 3, 2, 2, 2, 1, 0, 1, 1, 1, 0, 0, 0, 0, 0, 0, 0, 0, 1, 0, 0, 0, 1, 1, 0, 1, 0, 0, 0, 0, 0, 0, 0, 0, 0, 0, 0, 0, 0, 2, 0, 1, 0,
   0, 0, 0, 0, 0, 0, 0, 0, 0, 1, 1, 1, 0, 1, 1, 0, 2, 2, 0, 0, 0, 1, 2, 0, 0, 0, 0, 0]

/-- Rules that may match nothing. -/
def metaNull : List Nat := [rExpression, rSequence, rSpacing, rEndOfFile, rIgnore, rSpacesZom]

def metaCert (malformed : Bool) : Cert :=
  { rank := fun r => metaRank.getD r 0, null := fun r => metaNull.contains r, leak := fun _ => false, top := 8
    malformed := malformed, capless := true }

def metaFs : FsCert := ⟨fun _ => true, fun _ => true⟩

/-- The reader with no callbacks and no input: what the tests look at. -/
def metaShape : Cfg MV := { input := [], rules := metaRules, hasCut := false }

theorem metaShape_same (text : List Byte) : SameShape metaShape (metaCfgOf metaRules text) := ⟨rfl, rfl, rfl, rfl, rfl⟩

theorem meta_dtFree (rs : List Def) (text : List Byte) : DtFree (metaCfgOf rs text) := by
  refine ⟨?_, fun r p h => (by cases h), fun r l h => (by cases h)⟩
  intro r a h f d pd
  simp only [metaCfgOf, metaBase] at h
  split at h
  · cases h; rfl
  · cases h

theorem meta_check (b : Bool) (text : List Byte) : (metaCert b).check (metaCfgOf metaRules text) = true := by
  rw [check_congr (metaShape_same text) rfl rfl]
  cases b <;> decide +kernel

/-- Without annotations the reader finishes on every byte string, with the result of the reference semantics. -/
theorem meta_ready_plain (text : List Byte) : Ready (metaCfgOf metaRules text) (metaCert true) (fun _ => True) rGrammar where
  cert := by
    refine CertOk.of_check (meta_check true text) (Props.slotsOk_of rfl) (fun _ _ _ _ => ⟨List.prefix_refl _, List.prefix_refl _, List.prefix_refl _, rfl⟩)
      (meta_dtFree _ text) (AlOk.trivial _ _ rfl (fun _ _ h => by cases h)) (fun h => by cases h) ?_ ?_ ?_
    · exact noLR_of (show ∀ d ∈ metaRules, d.isLR = false by decide +kernel)
    · intro r d m hd _ _
      exact bare_nodeOk (fun _ _ h => by cases h) _ (by
        have : ∀ d ∈ metaRules, d.ope.bare = true := by decide +kernel
        exact this d (List.mem_of_getElem? hd))
    · intro e he; cases he
  word := by intro _ _ w h; cases h
  start := trivial
  rule := ⟨_, rfl, rfl⟩
  mode := rfl

theorem metaBase_with (text : List Byte) (rs : List Def) : (metaBase text).withRules none none rs = metaCfgOf rs text := rfl

/-- With annotations it finishes on every UTF-8 text. -/
theorem meta_loaded (text : List Byte) (ht : Text text) :
    Loaded (metaBase text) none none metaRules (metaCert false) metaFs (noKw metaRules) rGrammar where
  tested := ⟨meta_check false text, by
    show metaFs.check (metaCert false) metaShape (noKw metaRules) = true
    decide +kernel⟩
  word := by intro r d h; cases h
  guards _ := kwSound_none _ _
  calls := {
    user := fun _ _ _ _ => ⟨List.prefix_refl _, List.prefix_refl _, List.prefix_refl _, rfl⟩
    dt := meta_dtFree [] text
    reco := fun h => by cases h }
  slots := Props.slotsOk_of rfl
  text := ht
  rule := ⟨_, rfl, rfl⟩
  mode := rfl

end Verif.Meta
