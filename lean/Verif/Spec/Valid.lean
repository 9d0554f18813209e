import Verif.Spec.Document

/-!
Which TOML documents are valid, stated on their syntax: the rules of toml.io on keys and tables that are defined twice.
(What a single literal must look like is not a matter of this file; a literal that cannot be read is `AstValue.bad`.)
-/
namespace Tombi.Spec

variable {σ : Type}

/-- The keys of one table: none of them is another one or goes through it. -/
def KeysApart (kvs : List (AstKeyValue σ)) : Prop :=
  (kvAssigns kvs).Pairwise fun a b => ¬ a.1 <+: b.1 ∧ ¬ b.1 <+: a.1

mutual
/-- A value: all literals can be read, and no inline table in it defines a key twice. -/
def ValidValue : AstValue σ → Prop
  | .scalar _ => True
  | .bad => False
  | .array items => ValidItems items
  | .inlineTable kvs => ValidKvs kvs ∧ KeysApart kvs
/-- The elements of an array. -/
def ValidItems : List (AstItem σ) → Prop
  | [] => True
  | item :: rest => ValidItem item ∧ ValidItems rest
/-- An element of an array. -/
def ValidItem : AstItem σ → Prop
  | .value v => ValidValue v
  | .keyValue _ => False
/-- Key-values, one by one. -/
def ValidKvs : List (AstKeyValue σ) → Prop
  | [] => True
  | kv :: rest => ValidKv kv ∧ ValidKvs rest
/-- A key-value: it has a key and a value. -/
def ValidKv : AstKeyValue σ → Prop
  | .mk (some keys) (some v) => keys ≠ [] ∧ ValidValue v
  | _ => False
end

/-- A section may follow: `done` are the tables before it with their places and key-values (`bodies`), `opened` are the
arrays of tables opened before it. -/
structure Follows (done : List (Path × List (AstKeyValue σ))) (opened : List Path) (s : AstSection σ) : Prop where
  /-- There is a header. -/
  header : ∃ keys, s.header = some keys ∧ keys ≠ []
  /-- The key-values of the section are valid by themselves. -/
  kvs : ValidKvs s.kvs ∧ KeysApart s.kvs
  /-- `[x]` is new. -/
  once : s.isArray = false → ∀ B ∈ done, B.1 ≠ sectionPath opened s
  /-- `[x]` is not an array of tables. -/
  noArray : s.isArray = false → sectionPath opened s ∉ opened
  /-- `[[x]]` is an array of tables already, or there is no `[x]`, `[x.y]`, … -/
  noTable : s.isArray = true → named opened (s.header.getD []) ∉ opened → ∀ B ∈ done, ¬ named opened (s.header.getD []) <+: B.1
  /-- The header does not name a value, or something in a value. -/
  noValue : ∀ B ∈ done, ∀ a ∈ assignsOf B, ¬ a.1 <+: sectionPath opened s
  /-- The header does not name a table that dotted keys have made. -/
  noDotted : ∀ B ∈ done, named opened (s.header.getD []) ∉ dottedOf B
  /-- The keys of the section do not name a table that a header has made, and do not go through one. -/
  keys : ∀ B ∈ done, ∀ a ∈ kvAssigns s.kvs, ∀ k ks, a.1 = k :: ks → ¬ sectionPath opened s ++ [.key k] <+: B.1

/-- Sections may follow, one after the other. -/
def AllFollow (done : List (Path × List (AstKeyValue σ))) (opened : List Path) : List (AstSection σ) → Prop
  | [] => True
  | s :: rest => Follows done opened s ∧ AllFollow (done ++ [(sectionPath opened s, s.kvs)]) (openedAfter opened s) rest

/-- A valid document. -/
def Valid (root : AstRoot σ) : Prop :=
  ValidKvs root.kvs ∧ KeysApart root.kvs ∧ AllFollow [([], root.kvs)] [] root.sections

/-- A header that passes an array of tables is separated from a `[[name]]` of this array by no array of tables with another
first key. `prev` are the sections before, the nearest first. -/
def UninterruptedFrom (prev : List (AstSection σ)) (opened : List Path) : List (AstSection σ) → Prop
  | [] => True
  | s :: rest =>
    (∀ header name, s.header = some header → name <+: header → name ≠ header → name ≠ [] → named opened name ∈ opened →
      ∃ between s' before, prev = between ++ s' :: before ∧ s'.isArray = true ∧ s'.header = some name ∧
        ∀ b ∈ between, b.isArray = true → ∀ keys, b.header = some keys → keys.head? = header.head?) ∧
    UninterruptedFrom (s :: prev) (openedAfter opened s) rest

/-- `UninterruptedFrom` for a document. -/
def Uninterrupted (root : AstRoot σ) : Prop := UninterruptedFrom [] [] root.sections

end Tombi.Spec
