import Verif.Model.Outline
/-! Specification: nested outlines, and where the parts of a syntax tree are. -/
namespace Tombi.Outline

/-- The range `a` lies inside `b`. -/
def Inside (a b : Range) : Prop := b.start.le a.start = true ∧ a.stop.le b.stop = true

/-- A range that does not end before it starts. -/
def Proper (r : Range) : Prop := r.start.le r.stop = true

instance (a b : Range) : Decidable (Inside a b) := inferInstanceAs (Decidable (_ ∧ _))
instance (r : Range) : Decidable (Proper r) := inferInstanceAs (Decidable (_ = _))

/-- The range of a symbol. -/
def Symbol.range : Symbol → Range
  | .mk _ _ r _ => r

/-- The kind of a symbol. -/
def Symbol.kind : Symbol → SymbolKind
  | .mk _ k _ _ => k

/-- Every symbol contains its children. -/
inductive Nested : Symbol → Prop where
  | mk {n k r cs} : (∀ c ∈ cs, Inside c.range r) → (∀ c ∈ cs, Nested c) → Nested (.mk n k r cs)

/-- The symbol and everything below it lie inside `out`; every table contains its children, and every array contains its elements or is an
array of tables, whose elements need only lie inside `out`, that is, in what contains the array. -/
inductive Laid : Range → Symbol → Prop where
  | leaf {out n k r} : Inside r out → Laid out (.mk n k r [])
  | table {out n r cs} : Inside r out → (∀ c ∈ cs, Laid r c) → Laid out (.mk n .object r cs)
  | array {out n r cs} : Inside r out → (∀ c ∈ cs, Laid r c) → Laid out (.mk n .array r cs)
  | tables {out n r cs} : Inside r out → (∀ c ∈ cs, c.kind = .object) → (∀ c ∈ cs, Laid out c) → Laid out (.mk n .array r cs)

/-- The symbol shows the value under the name: the symbols of an array are its elements, numbered from zero, and those of a table are its
key-values, in order. An empty name is written as quotes. -/
inductive Shows {σ : Type} (kindOf : σ → SymbolKind) : List Char → DValue σ → Symbol → Prop where
  | scalar {n s r} : Shows kindOf n (.scalar s) (.mk (if n = [] then ['"', '"'] else n) (kindOf s) r [])
  | array {n k vs r cs} : cs.length = vs.length →
      (∀ (i : Nat) v c, vs[i]? = some v → cs[i]? = some c → Shows kindOf (s!"[{i}]").toList v c) →
      Shows kindOf n (.array k vs) (.mk (if n = [] then ['"', '"'] else n) .array r cs)
  | table {n k es r cs} : cs.length = es.length →
      (∀ (i : Nat) kv c, es[i]? = some kv → cs[i]? = some c → Shows kindOf kv.1 kv.2 c) →
      Shows kindOf n (.table k es) (.mk (if n = [] then ['"', '"'] else n) .object r cs)

/-- Keys that follow each other inside a range, which ends after them. -/
def KeysFollow (out : Range) : List RKey → Position → Prop
  | [], stop => out.start.le stop = true
  | k :: ks, stop => out.start.le k.range.start = true ∧ Proper k.range ∧ KeysFollow ⟨k.range.stop, out.stop⟩ ks stop

mutual
/-- The value of a syntax tree lies inside `out`, and its parts lie inside it. -/
def RAstValue.Placed {σ : Type} (out : Range) : RAstValue σ → Prop
  | .scalar r _ => Proper r ∧ Inside r out
  | .bad r => Proper r ∧ Inside r out
  | .array r items => (Proper r ∧ Inside r out) ∧ ItemsPlaced r items
  | .inlineTable r kvs => (Proper r ∧ Inside r out) ∧ KeyValuesPlaced r kvs
/-- All of them do. -/
def ItemsPlaced {σ : Type} (out : Range) : List (RAstItem σ) → Prop
  | [] => True
  | i :: is => i.Placed out ∧ ItemsPlaced out is
/-- The element does. -/
def RAstItem.Placed {σ : Type} (out : Range) : RAstItem σ → Prop
  | .value v => v.Placed out
  | .keyValue kv => kv.Placed out
/-- The key-value does; its value comes after its keys. -/
def RAstKeyValue.Placed {σ : Type} (out : Range) : RAstKeyValue σ → Prop
  | .mk range keys value => (Proper range ∧ Inside range out) ∧
    ∃ p, KeysFollow range (keys.getD []) p ∧ p.le range.stop = true ∧ OptPlaced ⟨p, range.stop⟩ value
/-- The value does if there is one. -/
def OptPlaced {σ : Type} (out : Range) : Option (RAstValue σ) → Prop
  | none => True
  | some v => v.Placed out
/-- All of them do. -/
def KeyValuesPlaced {σ : Type} (out : Range) : List (RAstKeyValue σ) → Prop
  | [] => True
  | kv :: kvs => kv.Placed out ∧ KeyValuesPlaced out kvs
end

/-- The section lies inside `out`, and its header and key-values inside it. -/
def RAstSection.Placed {σ : Type} (out : Range) (s : RAstSection σ) : Prop :=
  (Proper s.range ∧ Inside s.range out) ∧ (∀ h, s.header = some h → ∀ k ∈ h, Proper k.range ∧ Inside k.range s.range) ∧
  KeyValuesPlaced s.range s.kvs

/-- A syntax tree whose nodes contain their parts. -/
def RAstRoot.Placed {σ : Type} (root : RAstRoot σ) : Prop :=
  Proper root.range ∧ KeyValuesPlaced root.range root.kvs ∧ ∀ s ∈ root.sections, s.Placed root.range

/-- No section belongs to an element of an array of tables: no header continues the header of an earlier array of tables. -/
def NoneBelow {σ : Type} (sections : List (RAstSection σ)) : Prop :=
  ∀ pre s post, sections = pre ++ s :: post → ∀ a ∈ pre, a.isArray = true → ∀ ha hs, a.header = some ha → s.header = some hs →
    ¬ ∃ k ks, hs.map RKey.text = ha.map RKey.text ++ k :: ks

end Tombi.Outline
