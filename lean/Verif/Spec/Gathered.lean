import Verif.Model.KeysOrder
/-! When nothing in a document has to be regrouped: what belongs together already stands together. -/
namespace Tombi.Spec

variable {σ : Type}

/-- Items with these paths stand together: an item does not come after items below it, and between two items below a path
there are only items below that path. -/
def Gathered (paths : List (List Accessor)) : Prop :=
  ∀ l p m q r, paths = l ++ p :: (m ++ q :: r) → (q <+: p → q = p) ∧ ∀ c, c <+: p → c <+: q → ∀ x ∈ m, c <+: x

/-- The keys of key-values, as paths. -/
def kvPaths (kvs : List (AstKeyValue σ)) : List (List Accessor) :=
  kvs.map fun | .mk keys _ => (keys.getD []).map .key

mutual
/-- In all inline tables in a value the key-values stand together. -/
def GatheredValue : AstValue σ → Prop
  | .scalar _ => True
  | .bad => True
  | .array items => GatheredItems items
  | .inlineTable kvs => Gathered (kvPaths kvs) ∧ GatheredKvs kvs
/-- The elements of an array. -/
def GatheredItems : List (AstItem σ) → Prop
  | [] => True
  | item :: rest => GatheredItem item ∧ GatheredItems rest
/-- An element of an array. -/
def GatheredItem : AstItem σ → Prop
  | .value v => GatheredValue v
  | .keyValue kv => GatheredKv kv
/-- The values of key-values. -/
def GatheredKvs : List (AstKeyValue σ) → Prop
  | [] => True
  | kv :: rest => GatheredKv kv ∧ GatheredKvs rest
/-- The value of a key-value. -/
def GatheredKv : AstKeyValue σ → Prop
  | .mk _ (some v) => GatheredValue v
  | .mk _ none => True
end

/-- In all tables of a document the key-values stand together, and so do its sections. -/
structure GatheredRoot (root : AstRoot σ) : Prop where
  top : Gathered (kvPaths root.kvs) ∧ GatheredKvs root.kvs
  tables : ∀ s ∈ root.sections, Gathered (kvPaths s.kvs) ∧ GatheredKvs s.kvs
  sections : Gathered (sectionAccessors [] root.sections)

end Tombi.Spec
