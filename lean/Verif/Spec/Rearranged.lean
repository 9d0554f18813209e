import Verif.Spec.Formatter
/-! What it means that the words of a document are put in another order. -/
namespace Tombi.Editing
open Tombi.Formatter (Word)

/-- A word that is not a comment. -/
def isToken : Word → Bool
  | .comment _ _ => false
  | _ => true

/-- The words but the comments. -/
def tokens (ws : List Word) : List Word := ws.filter isToken

/-- `out` has the keys, literals and marks of `source` in some order, each as often as it is there, but those of `lost`; and
every comment of `out` is one of `source`. -/
structure Rearranged (source out lost : List Word) : Prop where
  tokens : (tokens (out ++ lost)).Perm (tokens source)
  comments : ∀ f t, Word.comment f t ∈ out → ∃ g, Word.comment g t ∈ source

end Tombi.Editing
