import Verif.Model.KeysOrder
import Verif.Spec.Document

/-!
Words for statements about sorting keys: when the accessors of sections address a tree, and what it means that one item
comes before another one in the order of their keys.
-/
namespace Tombi.Spec

/-- An accessor is a step down in a tree. -/
def stepOf : Accessor → Step
  | .key k => .key k
  | .index i => .index i

/-- The accessors of the item at a position. -/
def pathAt (paths : List (List Accessor)) (i : Nat) : List Accessor := (paths[i]?).getD []

/-- The items of `items` with the path `q`, in their order. -/
def atPath {T : Type} (path : T → List Accessor) (q : List Accessor) (items : List T) : List T :=
  items.filter fun t => path t == q

/-- The accessors `paths` address the tree `value`: an index is smaller than the length of the array it is an index of,
and comes after the index before it; and no other key is the quoted form of a key. -/
structure Aligned {σ : Type} (value : DValue σ) (paths : List (List Accessor)) : Prop where
  exist : ∀ p ∈ paths, ∀ q i, q ++ [.index i] <+: p → ∀ kind values,
    lookup value (q.map stepOf) = some (.array kind values) → i < values.length
  ordered : ∀ l p r, paths = l ++ p :: r → ∀ q i, q ++ [.index (i + 1)] <+: p → ∃ p' ∈ l, q ++ [.index i] <+: p'
  unquoted : ∀ p ∈ paths, ∀ q k, q ++ [.key k] <+: p → TomlText.toKeyString k ≠ k →
    lookup value (q.map stepOf ++ [.key (TomlText.toKeyString k)]) = none

/-- Texts in the order of their code points. -/
def textLe (a b : List Char) : Prop := ¬ List.Lex (fun c d => c.toNat < d.toNat) b a

/-- Two accessors are in order; `properties` are the keys of the schema, in its order (a key the schema does not have comes
after those). -/
def OrderLe (properties : List Accessor) : KeysOrder → Accessor → Accessor → Prop
  | .ascending, .key a, .key b => textLe a b
  | .descending, .key a, .key b => textLe b a
  | .versionSort, .key a, .key b => VersionSort.versionSort a b ≠ .gt
  | .schema, a, b => properties.idxOf a ≤ properties.idxOf b
  | _, _, _ => False

/-- `p` does not come after `q`: it is a prefix of `q`, or at the first difference its accessor comes first. -/
def NotAfter (le : Accessor → Accessor → Prop) (p q : List Accessor) : Prop :=
  p <+: q ∨ ∃ c a b p' q', p = c ++ a :: p' ∧ q = c ++ b :: q' ∧ a ≠ b ∧ le a b

/-- The order that `groups` gives to the keys of a kind: that of the first group for the kind; for additional keys without a
group, that of the first group, unless it is the order of the schema. Keys without an order are not moved. -/
def kindOrder (groups : List (GroupKind × KeysOrder)) (kind : GroupKind) : Option KeysOrder :=
  match groups.find? (fun g => g.1 == kind), kind, groups with
  | some g, _, _ => some g.2
  | none, .additionalKeys, (_, .schema) :: _ => none
  | none, .additionalKeys, (_, order) :: _ => some order
  | none, _, _ => none

/-- The place of the keys of a kind among the keys that are moved: the groups come in their order; additional keys without
a group come first, or last if they are in descending order. -/
def kindRank (groups : List (GroupKind × KeysOrder)) (kind : GroupKind) : Nat :=
  if groups.any (fun g => g.1 == kind) then 1 + groups.findIdx (fun g => g.1 == kind)
  else if kindOrder groups kind = some .descending then groups.length + 1 else 0

/-- The names of the arrays of tables among sections. -/
def arrayNames {σ : Type} (sections : List (AstSection σ)) : List (List DKey) :=
  sections.filterMap fun s => if s.isArray then s.header else none

/-- No array of tables lies in another one, and no header `[h]` names an array of tables. -/
def Flat {σ : Type} (sections : List (AstSection σ)) : Prop :=
  ∀ s ∈ sections, ∀ s' ∈ sections, s.isArray = true → ∀ h h', s.header = some h → s'.header = some h' → h <+: h' →
    (s'.isArray = true ↔ h = h')

/-- Between an array of tables and a later section with the same first key, all arrays of tables have this first key. -/
def Near {σ : Type} (sections : List (AstSection σ)) : Prop :=
  ∀ l s m s' r, sections = l ++ s :: (m ++ s' :: r) → s.isArray = true → ∀ h h', s.header = some h → s'.header = some h' →
    h.head? = h'.head? → ∀ x ∈ m, x.isArray = true → ∀ hx, x.header = some hx → hx.head? = h'.head?

/-- Every section has a header with a key. -/
def HasHeaders {σ : Type} (sections : List (AstSection σ)) : Prop := ∀ s ∈ sections, ∃ k ks, s.header = some (k :: ks)

end Tombi.Spec
