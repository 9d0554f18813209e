import Verif.Spec.ReadDocument
import Verif.Model.Refactor
/-! Specification: edits of a text, where the parts of a key-value are in a text, and key-values that nothing else touches. -/
namespace Tombi.Refactor
open Tombi.Outline
open Tombi.TomlFile (Val Pair Sec File Words KeyText Ws Gap Lines FileText keyText)
open Tombi.Format (AstKey)

abbrev Text := List Char

/-- Later positions have later offsets. -/
def Monotone (off : Position → Nat) : Prop := ∀ a b : Position, a.le b = true → off a ≤ off b

/-- The text with one edit; `off` gives the offsets of positions. -/
def applyEdit (off : Position → Nat) (t : Text) (e : Edit) : Text :=
  t.take (off e.range.start) ++ (e.text ++ t.drop (off e.range.stop))

/-- The text with edits that come one after the other in the text: the last one first, so that the ranges of the others still hold. -/
def applyEdits (off : Position → Nat) (t : Text) (es : List Edit) : Text := es.foldr (fun e t => applyEdit off t e) t

/-- The range is that of the text `x`, which stands after `before`. -/
def At (off : Position → Nat) (r : Range) (before x : Text) : Prop :=
  off r.start = before.length ∧ off r.stop = before.length + x.length

/-- The text of dotted keys after `before`, with their ranges. -/
inductive KeysAt (L : Words) (off : Position → Nat) : Text → List AstKey → List RKey → Text → Prop where
  | last {n k rk} : L.key k → At off rk.range n (keyText k) → KeysAt L off n [k] [rk] (keyText k)
  | dot {n k rk ks rks a b t} : L.keyBeforeDot k → Ws a → Ws b → At off rk.range n (keyText k) →
      KeysAt L off (n ++ (keyText k ++ (a ++ '.' :: b))) ks rks t →
      KeysAt L off n (k :: ks) (rk :: rks) (keyText k ++ (a ++ '.' :: (b ++ t)))

/-- The text of a key-value after `before`, with the ranges of its keys and its value. -/
inductive PairAt {σ : Type} (L : Words) (off : Position → Nat) : Text → Pair → RAstKeyValue σ → Text → Prop where
  | mk {n ks rks val rv range k a b t r} : KeysAt L off n ks rks k → Ws a → Ws b → val.Text L t → rv.tree.1.range = r →
      At off r (n ++ (k ++ (a ++ '=' :: b))) t →
      PairAt L off n (.mk ks val) (.mk range (some rks) (some rv)) (k ++ (a ++ '=' :: (b ++ t)))

/-- The text of a key-value after `before` whose value is an inline table with one key-value, with the ranges of the keys, the inline table
and the inner value. -/
inductive InlineAt {σ : Type} (L : Words) (off : Position → Nat) : Text → Pair → RAstKeyValue σ → Text → Prop where
  | mk {n ks rks p rkv range k a b g t e r} : KeysAt L off n ks rks k → Ws a → Ws b → Gap g →
      PairAt L off (n ++ (k ++ (a ++ '=' :: (b ++ '{' :: g)))) p rkv t → (Gap e ∨ ∃ g1 g2, L.beforeComma g1 ∧ Gap g2 ∧ e = g1 ++ ',' :: g2) →
      At off r (n ++ (k ++ (a ++ '=' :: b))) ('{' :: (g ++ (t ++ (e ++ ['}'])))) →
      InlineAt L off n (.mk ks (.table [p])) (.mk range (some rks) (some (.inlineTable r [rkv])))
        (k ++ (a ++ '=' :: (b ++ '{' :: (g ++ (t ++ (e ++ ['}']))))))

/-- A place for a key-value in a document: whatever key-value stands between the two texts, it is that of the document. -/
def Around (L : Words) (before after : Text) (file : Pair → File) : Prop :=
  ∀ p x, p.Text L x → FileText L (file p) (before ++ (x ++ after))

/-- A name the refactoring prints right before `=`: as a bare key, or between quotation marks without escapes; `${…}` is printed without
quotation marks (C17). -/
def ParentName (n : Text) : Prop :=
  (∀ c ∈ n, c ≠ '"' ∧ c ≠ '\\' ∧ 0x20 ≤ c.toNat ∧ ¬ (0x7F ≤ c.toNat ∧ c.toNat < 0xA0)) ∧ (∀ m, n ≠ ['$', '{'] ++ m ++ ['}']) ∧
    (TomlFile.BareKey n → Formatter.PlainKey n)

/-- Neither of the two begins with the other. -/
def Apart (a b : List DKey) : Prop := ¬ a <+: b ∧ ¬ b <+: a

end Tombi.Refactor
