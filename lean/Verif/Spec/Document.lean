import Verif.Model.DocumentTree

/-!
What a TOML document denotes, stated on its syntax: the set of its nodes. A node is a place (a path of keys and indices)
together with what is there: a scalar, an array or a table. The rules are those of toml.io: a dotted key makes tables,
`[h]` makes a table, `[[h]]` makes a new element of an array, and a header that passes an array of tables means its last
element.
-/
namespace Tombi.Spec

/-- One step down in a tree. -/
inductive Step where
  | key (k : List Char)
  | index (i : Nat)
  deriving DecidableEq, Repr

/-- A place in a tree, from the root. -/
abbrev Path := List Step

/-- What can be at a place. -/
inductive Node (σ : Type) where
  | scalar (s : σ)
  | array
  | table
  deriving DecidableEq, Repr

/-- The value one step below a value. -/
def child {σ : Type} : DValue σ → Step → Option (DValue σ)
  | .table _ entries, .key k => (entries.find? fun kv => kv.1 == k).map (·.2)
  | .array _ values, .index i => values[i]?
  | _, _ => none

/-- The value at a place of a tree. -/
def lookup {σ : Type} (v : DValue σ) : Path → Option (DValue σ)
  | [] => some v
  | s :: p => (child v s).bind fun w => lookup w p

/-- What a value is. -/
def nodeOf {σ : Type} : DValue σ → Option (Node σ)
  | .scalar s => some (.scalar s)
  | .array _ _ => some .array
  | .table _ _ => some .table
  | .incomplete => none

/-- What is at a place of a tree. -/
def nodeAt {σ : Type} (v : DValue σ) (p : Path) : Option (Node σ) := (lookup v p).bind nodeOf

/-- The path made of keys. -/
def keyPath (keys : List DKey) : Path := keys.map Step.key

/-- Nodes moved below a path. -/
def below {σ : Type} (p : Path) (nodes : List (Path × Node σ)) : List (Path × Node σ) :=
  nodes.map fun n => (p ++ n.1, n.2)

/-- The nodes of `k1.k2.….kn = value`: tables at the proper prefixes of the key, and the nodes of the value. -/
def assignNodes {σ : Type} (valueNodes : List (Path × Node σ)) : List DKey → List (Path × Node σ)
  | [] => []
  | [k] => below [.key k] valueNodes
  | k :: ks => ([.key k], .table) :: below [.key k] (assignNodes valueNodes ks)

mutual
/-- The nodes of a value. -/
def valueNodes {σ : Type} : AstValue σ → List (Path × Node σ)
  | .scalar s => [([], .scalar s)]
  | .bad => []
  | .array items => ([], .array) :: itemsNodes 0 items
  | .inlineTable kvs => ([], .table) :: kvsNodes kvs
/-- The nodes of the elements of an array, from element `i` on. -/
def itemsNodes {σ : Type} (i : Nat) : List (AstItem σ) → List (Path × Node σ)
  | [] => []
  | item :: rest => below [.index i] (itemNodes item) ++ itemsNodes (i + 1) rest
/-- The nodes of an element. -/
def itemNodes {σ : Type} : AstItem σ → List (Path × Node σ)
  | .value v => valueNodes v
  | .keyValue kv => ([], .table) :: kvNodes kv
/-- The nodes of a key-value. -/
def kvNodes {σ : Type} : AstKeyValue σ → List (Path × Node σ)
  | .mk (some keys) (some v) => assignNodes (valueNodes v) keys
  | _ => []
/-- The nodes of key-values. -/
def kvsNodes {σ : Type} : List (AstKeyValue σ) → List (Path × Node σ)
  | [] => []
  | kv :: rest => kvNodes kv ++ kvsNodes rest
end

/-- Passing a place in a header: an array of tables means its last element. `opened` are the arrays of tables opened so
far, one entry for each `[[…]]`. -/
def enter (opened : List Path) (p : Path) : Path :=
  match opened.count p with
  | 0 => p
  | n + 1 => p ++ [.index n]

/-- The place reached from `cur` by passing the keys. -/
def resolve (opened : List Path) (cur : Path) : List DKey → Path
  | [] => cur
  | k :: ks => resolve opened (enter opened (cur ++ [.key k])) ks

/-- The place a header names: all keys but the last are passed. -/
def named (opened : List Path) (header : List DKey) : Path :=
  match header.getLast? with
  | none => []
  | some k => resolve opened [] header.dropLast ++ [.key k]

/-- The place of the table of a section. -/
def sectionPath {σ : Type} (opened : List Path) (s : AstSection σ) : Path :=
  let p := named opened (s.header.getD [])
  if s.isArray then p ++ [.index (opened.count p)] else p

/-- The arrays of tables opened after a section. -/
def openedAfter {σ : Type} (opened : List Path) (s : AstSection σ) : List Path :=
  if s.isArray then opened ++ [named opened (s.header.getD [])] else opened

/-- The arrays of tables opened after some sections. -/
def openedBy {σ : Type} (opened : List Path) : List (AstSection σ) → List Path
  | [] => opened
  | s :: rest => openedBy (openedAfter opened s) rest

/-- The places of the tables of the sections. -/
def sectionPaths {σ : Type} (opened : List Path) : List (AstSection σ) → List Path
  | [] => []
  | s :: rest => sectionPath opened s :: sectionPaths (openedAfter opened s) rest

/-- The nodes on the way to the table of a section, and that table. -/
def wayNodes {σ : Type} (cur : Path) : Path → List (Path × Node σ)
  | [] => [(cur, .table)]
  | .index i :: rest => (cur, .array) :: wayNodes (cur ++ [.index i]) rest
  | .key k :: rest => (cur, .table) :: wayNodes (cur ++ [.key k]) rest

/-- The nodes of the sections. -/
def sectionsNodes {σ : Type} (opened : List Path) : List (AstSection σ) → List (Path × Node σ)
  | [] => []
  | s :: rest =>
    wayNodes [] (sectionPath opened s) ++ below (sectionPath opened s) (kvsNodes s.kvs) ++
      sectionsNodes (openedAfter opened s) rest

/-- The nodes of a document. -/
def docNodes {σ : Type} (root : AstRoot σ) : List (Path × Node σ) :=
  ([], .table) :: kvsNodes root.kvs ++ sectionsNodes [] root.sections

/-- Every name an earlier `[[name]]` has made an array of tables is an array of tables wherever a later header passes it.
(It is not where the name lies in an array of tables that has got a new element since.) -/
def RegularFrom {σ : Type} (prev : List (AstSection σ)) (opened : List Path) : List (AstSection σ) → Prop
  | [] => True
  | s :: rest =>
    (∀ header name, s.header = some header → name <+: header → name ≠ header →
      (∃ s' ∈ prev, s'.isArray = true ∧ s'.header = some name) → named opened name ∈ opened) ∧
    RegularFrom (s :: prev) (openedAfter opened s) rest

/-- `RegularFrom` for a document. -/
def Regular {σ : Type} (root : AstRoot σ) : Prop := RegularFrom [] [] root.sections

/-- Every key-value and every header of a document has a key. -/
def HasKeys {σ : Type} (root : AstRoot σ) : Prop :=
  (∀ s ∈ root.sections, s.header ≠ some []) ∧
  (∀ kv ∈ root.kvs, ∀ v, kv ≠ .mk (some []) v) ∧ ∀ s ∈ root.sections, ∀ kv ∈ s.kvs, ∀ v, kv ≠ .mk (some []) v

/-- The keys and values of key-values. -/
def kvAssigns {σ : Type} (kvs : List (AstKeyValue σ)) : List (List DKey × AstValue σ) :=
  kvs.filterMap fun
    | .mk (some keys) (some v) => some (keys, v)
    | _ => none

/-- The tables of a document with their key-values: the root, then the sections, each with its place. -/
def bodies {σ : Type} (root : AstRoot σ) : List (Path × List (AstKeyValue σ)) :=
  ([], root.kvs) :: (sectionPaths [] root.sections).zip (root.sections.map (·.kvs))

/-- The key-values of a table with their places. -/
def assignsOf {σ : Type} (body : Path × List (AstKeyValue σ)) : List (Path × AstValue σ) :=
  (kvAssigns body.2).map fun kv => (body.1 ++ keyPath kv.1, kv.2)

/-- All key-values of a document with their places, in the order of the document. -/
def assigns {σ : Type} (root : AstRoot σ) : List (Path × AstValue σ) := (bodies root).flatMap assignsOf

/-- The tables made by the dotted keys of a table. -/
def dottedOf {σ : Type} (body : Path × List (AstKeyValue σ)) : List Path :=
  (kvAssigns body.2).flatMap fun kv => (List.range (kv.1.length - 1)).map fun i => body.1 ++ keyPath (kv.1.take (i + 1))

/-- Is a value an inline table? -/
def isInline {σ : Type} : AstValue σ → Prop
  | .inlineTable _ => True
  | _ => False

end Tombi.Spec
