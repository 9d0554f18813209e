import Verif.Model.ValidateTypes

/-!
# What JSON Schema says

The meaning of the keywords (draft 2020-12, sections 6 and 10 of the validation and core
specifications), written as propositions about a value and without any reference to the
validator.  `H` is the meaning of the sub-schemas.
-/

namespace Tombi.Spec.Validate
open Tombi.Validate (Key Value Ty Lit Rest Items Additional Node Schema Entry Env Rule)

mutual
  /-- Equality of JSON values: objects are equal when they have the same keys with equal values,
  in any order. -/
  def Same : Value → Value → Prop
    | .bool a, .bool b => a = b
    | .int a, .int b => a = b
    | .str a, .str b => a = b
    | .arr xs, .arr ys => SameList xs ys
    | .tbl xs, .tbl ys => (∀ k, k ∈ xs.map Prod.fst ↔ k ∈ ys.map Prod.fst) ∧ SameEntries xs ys
    | _, _ => False
  def SameList : List Value → List Value → Prop
    | [], [] => True
    | x :: xs, y :: ys => Same x y ∧ SameList xs ys
    | _, _ => False
  /-- Every entry agrees with the entries of the same key. -/
  def SameEntries : List (Key × Value) → List (Key × Value) → Prop
    | [], _ => True
    | (k, v) :: xs, ys => (∀ w, (k, w) ∈ ys → Same v w) ∧ SameEntries xs ys
end

/-- `type`: every TOML integer is both an integer and a number. -/
def HasType : Value → Ty → Prop
  | .bool _, t => t = .bool
  | .int _, t => t = .int ∨ t = .num
  | .str _, t => t = .str
  | .arr _, t => t = .arr
  | .tbl _, t => t = .obj

/-- Exactly `c` elements of the list satisfy `P`. -/
inductive Count {α : Type} (P : α → Prop) : List α → Nat → Prop where
  | nil : Count P [] 0
  | yes {x xs c} : P x → Count P xs c → Count P (x :: xs) (c + 1)
  | no {x xs c} : ¬P x → Count P xs c → Count P (x :: xs) c

/-- The numeric keywords. -/
structure Numeric (n : Node) (i : Int) : Prop where
  minimum : ∀ m, n.minimum = some m → m ≤ i
  maximum : ∀ m, n.maximum = some m → i ≤ m
  exclusiveMinimum : ∀ m, n.exclusiveMinimum = some m → m < i
  exclusiveMaximum : ∀ m, n.exclusiveMaximum = some m → i < m
  multipleOf : ∀ m, n.multipleOf = some m → ∃ c : Int, i = m * c

/-- The string keywords; the length of a string is its number of characters.  A pattern that is
no regular expression asserts nothing. -/
structure Textual (E : Env) (n : Node) (s : Key) : Prop where
  minLength : ∀ m, n.minLength = some m → m ≤ s.length
  maxLength : ∀ m, n.maxLength = some m → s.length ≤ m
  pattern : ∀ r m, n.pattern = some r → E.regex r = some m → m s = true

/-- The schema, if any, that the element at position `i` must satisfy is satisfied. -/
def ItemHolds (H : Nat → Value → Prop) (n : Node) (x : Value) (i : Nat) : Prop :=
  match n.items with
  | .absent => True
  | .all s => H s x
  | .tuple ps rest =>
    (∀ s, ps[i]? = some s → H s x) ∧
    (ps.length ≤ i → match rest with
      | .absent => True
      | .allowed b => b = true
      | .schema s => H s x)

/-- The array keywords. -/
structure Listing (H : Nat → Value → Prop) (n : Node) (xs : List Value) : Prop where
  items : ∀ (i : Nat) x, xs[i]? = some x → ItemHolds H n x i
  contains : ∀ s, n.contains = some s → ∃ c, Count (H s) xs c ∧
    (match n.minContains with
      | some m => m ≤ c
      | none => 1 ≤ c) ∧ ∀ m, n.maxContains = some m → c ≤ m
  minItems : ∀ m, n.minItems = some m → m ≤ xs.length
  maxItems : ∀ m, n.maxItems = some m → xs.length ≤ m
  uniqueItems : n.uniqueItems = true → ∀ (i j : Nat) x y, xs[i]? = some x → xs[j]? = some y →
    i ≠ j → ¬Same x y

/-- The key is matched by `properties` or by one of the `patternProperties`. -/
def Declared (E : Env) (n : Node) (k : Key) : Prop :=
  (∃ s, n.properties.lookup k = some s) ∨
  ∃ ps r s m, n.patternProperties = some ps ∧ (r, s) ∈ ps ∧ E.regex r = some m ∧ m k = true

/-- The object keywords. -/
structure Mapping (E : Env) (H : Nat → Value → Prop) (n : Node) (kvs : List (Key × Value)) :
    Prop where
  properties : ∀ k v s, (k, v) ∈ kvs → n.properties.lookup k = some s → H s v
  patternProperties : ∀ k v ps r s m, (k, v) ∈ kvs → n.patternProperties = some ps →
    (r, s) ∈ ps → E.regex r = some m → m k = true → H s v
  additional : ∀ k v, (k, v) ∈ kvs → ¬Declared E n k → match n.additional with
    | .absent => True
    | .allowed b => b = true
    | .schema s => H s v
  required : ∀ k, k ∈ n.required → k ∈ kvs.map Prod.fst
  minProperties : ∀ m, n.minProperties = some m → m ≤ kvs.length
  maxProperties : ∀ m, n.maxProperties = some m → kvs.length ≤ m
  propertyNames : ∀ k s, k ∈ kvs.map Prod.fst → n.propertyNames = some s → H s (.str k)
  dependentRequired : ∀ k rs r, (k, rs) ∈ n.dependentRequired → k ∈ kvs.map Prod.fst → r ∈ rs →
    r ∈ kvs.map Prod.fst
  dependentSchemas : ∀ k s, (k, s) ∈ n.dependentSchemas → k ∈ kvs.map Prod.fst → H s (.tbl kvs)

/-- The applicators: `allOf`, `anyOf`, `oneOf` (exactly one position), `not`, `if`. -/
structure Applied (H : Nat → Value → Prop) (n : Node) (v : Value) : Prop where
  allOf : ∀ ms m, n.allOf = some ms → m ∈ ms → H m v
  anyOf : ∀ ms, n.anyOf = some ms → ∃ m ∈ ms, H m v
  oneOf : ∀ ms, n.oneOf = some ms →
    ∃ (i m : Nat), ms[i]? = some m ∧ H m v ∧ ∀ (j m' : Nat), ms[j]? = some m' → H m' v → j = i
  not : ∀ m, n.not = some m → ¬H m v
  thenS : ∀ i t, n.ifS = some i → n.thenS = some t → H i v → H t v
  elseS : ∀ i e, n.ifS = some i → n.elseS = some e → ¬H i v → H e v

/-- The assertions that apply to every type of value: `type`, `const`, `enum`. -/
structure General (n : Node) (v : Value) : Prop where
  types : ∀ ts, n.types = some ts → ∃ t ∈ ts, HasType v t
  const : ∀ l, n.const = some l → ∃ w, l = some w ∧ Same v w
  enum : ∀ ls, n.enum = some ls → ∃ w, some w ∈ ls ∧ Same v w

/-- The keywords that only apply to the type of the value. -/
def Typed (E : Env) (H : Nat → Value → Prop) (n : Node) : Value → Prop
  | .bool _ => True
  | .int i => Numeric n i
  | .str s => Textual E n s
  | .arr xs => Listing H n xs
  | .tbl kvs => Mapping E H n kvs

/-- A value is valid against a schema object. -/
structure NodeHolds (E : Env) (H : Nat → Value → Prop) (n : Node) (v : Value) : Prop where
  general : General n v
  typed : Typed E H n v
  applied : Applied H n v

/-- `H` is a meaning of the schema graph: for every entry, `H` says what the keywords say. -/
def Meaning (E : Env) (H : Nat → Value → Prop) : Prop :=
  ∀ id v, H id v ↔ match (E.entry id).schema with
    | .always b => b = true
    | .obj n => NodeHolds E H n v

/-- The sub-schemas of a schema object. -/
inductive Sub (n : Node) : Nat → Prop where
  | all {s} : n.items = .all s → Sub n s
  | pre {ps r s} : n.items = .tuple ps r → s ∈ ps → Sub n s
  | rest {ps s} : n.items = .tuple ps (.schema s) → Sub n s
  | contains {s} : n.contains = some s → Sub n s
  | prop {k s} : (k, s) ∈ n.properties → Sub n s
  | pattern {ps r s} : n.patternProperties = some ps → (r, s) ∈ ps → Sub n s
  | additional {s} : n.additional = .schema s → Sub n s
  | names {s} : n.propertyNames = some s → Sub n s
  | dependent {k s} : (k, s) ∈ n.dependentSchemas → Sub n s
  | oneOf {ms s} : n.oneOf = some ms → s ∈ ms → Sub n s
  | anyOf {ms s} : n.anyOf = some ms → s ∈ ms → Sub n s
  | allOf {ms s} : n.allOf = some ms → s ∈ ms → Sub n s
  | not {s} : n.not = some s → Sub n s
  | ifS {s} : n.ifS = some s → Sub n s
  | thenS {s} : n.thenS = some s → Sub n s
  | elseS {s} : n.elseS = some s → Sub n s

/-- The graph has no cycle: `rank` decreases from a schema to its sub-schemas. -/
def Ranked (E : Env) (rank : Nat → Nat) : Prop :=
  ∀ id n s, (E.entry id).schema = .obj n → Sub n s → rank s < rank id

/-- The sub-schemas that are applied to the value itself, and not to something inside it. -/
inductive InPlace (n : Node) : Nat → Prop where
  | dependent {k s} : (k, s) ∈ n.dependentSchemas → InPlace n s
  | oneOf {ms s} : n.oneOf = some ms → s ∈ ms → InPlace n s
  | anyOf {ms s} : n.anyOf = some ms → s ∈ ms → InPlace n s
  | allOf {ms s} : n.allOf = some ms → s ∈ ms → InPlace n s
  | not {s} : n.not = some s → InPlace n s
  | ifS {s} : n.ifS = some s → InPlace n s
  | thenS {s} : n.thenS = some s → InPlace n s
  | elseS {s} : n.elseS = some s → InPlace n s

/-- The alternatives of a schema object. -/
inductive Alternative (n : Node) : Nat → Prop where
  | oneOf {ms s} : n.oneOf = some ms → s ∈ ms → Alternative n s
  | anyOf {ms s} : n.anyOf = some ms → s ∈ ms → Alternative n s

/-- The graph may have cycles, but not ones that stay at the same value (`rank`), and not ones that
go through an alternative (`level`). -/
structure Guarded (E : Env) (rank level : Nat → Nat) (bound : Nat) : Prop where
  inPlace : ∀ id n s, (E.entry id).schema = .obj n → InPlace n s → rank s < rank id
  bound : ∀ id, rank id ≤ bound
  down : ∀ id n s, (E.entry id).schema = .obj n → Sub n s → level s ≤ level id
  alternative : ∀ id n s, (E.entry id).schema = .obj n → Alternative n s → level s < level id

mutual
  /-- The depth of a value. -/
  def depth : Value → Nat
    | .bool _ => 0
    | .int _ => 0
    | .str _ => 0
    | .arr xs => depthList xs + 1
    | .tbl kvs => depthEntries kvs + 1
  def depthList : List Value → Nat
    | [] => 0
    | x :: xs => max (depth x) (depthList xs)
  def depthEntries : List (Key × Value) → Nat
    | [] => 0
    | (_, v) :: kvs => max (depth v) (depthEntries kvs)
end

/-- An integer that an `f64` represents without rounding neighbours together. -/
def Small (i : Int) : Prop := i.natAbs ≤ 2 ^ 53

mutual
  /-- A value in the fragment: unique keys, small integers, and strings (and keys) in which
  every character is one user-perceived character. -/
  def Plain (E : Env) : Value → Prop
    | .bool _ => True
    | .int i => Small i
    | .str s => E.graphemes s = s.length
    | .arr xs => PlainList E xs
    | .tbl kvs => (kvs.map Prod.fst).Nodup ∧ (∀ k ∈ kvs.map Prod.fst, E.graphemes k = k.length) ∧
        PlainEntries E kvs
  def PlainList (E : Env) : List Value → Prop
    | [] => True
    | x :: xs => Plain E x ∧ PlainList E xs
  def PlainEntries (E : Env) : List (Key × Value) → Prop
    | [] => True
    | (_, v) :: kvs => Plain E v ∧ PlainEntries E kvs
end

mutual
  /-- A literal in the fragment: unique keys, small integers. -/
  def PlainLit : Value → Prop
    | .bool _ => True
    | .int i => Small i
    | .str _ => True
    | .arr xs => PlainLits xs
    | .tbl kvs => (kvs.map Prod.fst).Nodup ∧ PlainLitEntries kvs
  def PlainLits : List Value → Prop
    | [] => True
    | x :: xs => PlainLit x ∧ PlainLits xs
  def PlainLitEntries : List (Key × Value) → Prop
    | [] => True
    | (_, v) :: kvs => PlainLit v ∧ PlainLitEntries kvs
end

/-- The schema object has `type`, `const` or `enum`. -/
def Asserts (n : Node) : Prop := n.types ≠ none ∨ n.const ≠ none ∨ n.enum ≠ none

/-- The schema object has none of `oneOf`, `anyOf`, `allOf`. -/
def NoApplicator (n : Node) : Prop := n.oneOf = none ∧ n.anyOf = none ∧ n.allOf = none

/-- The schema object without any keyword except the applicators and `deprecated`. -/
def OnlyApplicators (n : Node) : Node where
  oneOf := n.oneOf
  anyOf := n.anyOf
  allOf := n.allOf
  not := n.not
  ifS := n.ifS
  thenS := n.thenS
  elseS := n.elseS
  deprecated := n.deprecated

/-- The fragment of schema objects for which the validator follows JSON Schema.  Each field
excludes one of the deviations that are proved as separate theorems. -/
structure Supported (byRef strict : Bool) (n : Node) : Prop where
  /-- without `type`, `const`, `enum`: at most one of `oneOf`, `anyOf`, `allOf` -/
  single : ¬Asserts n → (n.oneOf ≠ none → n.anyOf = none ∧ n.allOf = none) ∧
    (n.anyOf ≠ none → n.allOf = none)
  /-- … and then no keyword beside the applicators -/
  bare : ¬Asserts n → ¬NoApplicator n → n = OnlyApplicators n
  /-- `if` stands beside an applicator or under `type` array or object -/
  conditional : n.ifS ≠ none → ¬NoApplicator n ∨
    ∃ ts, n.types = some ts ∧ ∀ t ∈ ts, t = .arr ∨ t = .obj
  /-- no `not` or `if` beside `oneOf` -/
  oneOf : n.oneOf ≠ none → n.not = none ∧ n.ifS = none
  /-- `anyOf` is not empty -/
  anyOf : n.anyOf ≠ some []
  /-- `type` with `number` but not `integer` has no applicator beside it -/
  number : ∀ ts, n.types = some ts → .num ∈ ts → .int ∉ ts → NoApplicator n
  /-- `multipleOf` only where no number view is used -/
  floatMultiple : n.multipleOf ≠ none → Asserts n → ∃ ts, n.types = some ts ∧ .num ∉ ts
  /-- `multipleOf` is positive -/
  multiple : ∀ m, n.multipleOf = some m → 0 < m
  /-- numbers are small -/
  small : ∀ m, n.minimum = some m ∨ n.maximum = some m ∨ n.exclusiveMinimum = some m ∨
    n.exclusiveMaximum = some m → Small m
  /-- `null` is only listed in `type` beside another type, alone with type-specific keywords -/
  null : ∀ ts, n.types = some ts → .null ∈ ts → n.const = none ∧ n.enum = none ∧
    NoApplicator n ∧ ∃ t ∈ ts, t ≠ .null
  /-- `const` is a plain literal -/
  const : ∀ l, n.const = some l → ∃ w, l = some w ∧ PlainLit w
  /-- `enum` has plain literals -/
  enum : ∀ ls l, n.enum = some ls → l ∈ ls → ∃ w, l = some w ∧ PlainLit w
  /-- in strict mode `patternProperties` comes with `additionalProperties` -/
  strict : strict = true → n.patternProperties ≠ none → n.additional ≠ .absent
  /-- behind a `$ref`, `const` and `enum` come with `type` -/
  byRef : byRef = true → Asserts n → n.types ≠ none

/-- The rules that are no violation of the schema: the lint against empty keys, deprecation,
keys that only strict mode objects to, and problems of comment directives. -/
def Advisory (r : Rule) : Prop :=
  r = .keyEmpty ∨ r = .deprecated ∨ r = .strictAdditionalKeys ∨ r = .unusedNoqa ∨ r = .commentDirective

/-- The keyword behind a rule is violated by an integer. -/
def Violated (n : Node) (i : Int) : Rule → Prop
  | .constValue => ∃ l, n.const = some l ∧ l ≠ some (.int i)
  | .enumValue => ∃ ls, n.enum = some ls ∧ some (.int i) ∉ ls
  | .minimum => ∃ m, n.minimum = some m ∧ i < m
  | .maximum => ∃ m, n.maximum = some m ∧ m < i
  | .exclusiveMinimum => ∃ m, n.exclusiveMinimum = some m ∧ i ≤ m
  | .exclusiveMaximum => ∃ m, n.exclusiveMaximum = some m ∧ m ≤ i
  | .multipleOf => ∃ m, n.multipleOf = some m ∧ ¬∃ c : Int, i = m * c
  | _ => False

/-- Every object of the graph is in the fragment. -/
def AllSupported (E : Env) (strict : Bool) : Prop :=
  ∀ id n, (E.entry id).schema = .obj n → Supported (E.entry id).byRef strict n

end Tombi.Spec.Validate
