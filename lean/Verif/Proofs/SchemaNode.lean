import Verif.Proofs.SchemaPlaces
/-! A schema object that is read has the meaning of its keywords. -/
namespace Tombi.SchemaFile
open Tombi.Offer (J Text typeAssertion asSize tyOfName nameTy)
open Tombi.Spec.SchemaFile
open Tombi.Validate (Key Value Ty Node Env)
open Tombi.Spec.Validate (HasType NodeHolds Same Count)

/-! ### literals -/

mutual
theorem denotes_iff : ∀ (c : Json) (w : Value), Denotes c w ↔ literal c = some w
  | .bool b, w => ⟨fun h => by cases h; rfl, fun h => by simp only [literal, Option.some.injEq] at h; subst h; exact .bool b⟩
  | .int b, w => ⟨fun h => by cases h; rfl, fun h => by simp only [literal, Option.some.injEq] at h; subst h; exact .int b⟩
  | .str b, w => ⟨fun h => by cases h; rfl, fun h => by simp only [literal, Option.some.injEq] at h; subst h; exact .str b⟩
  | .null, w => ⟨(fun h => by cases h), fun h => by simp [literal] at h⟩
  | .float _, w => ⟨(fun h => by cases h), fun h => by simp [literal] at h⟩
  | .arr xs, w => by
    rw [literal, Option.map_eq_some_iff]
    constructor
    · intro h
      cases h with
      | arr h => exact ⟨_, (denotesAll_iff xs _).1 h, rfl⟩
    · rintro ⟨ws, h, rfl⟩
      exact .arr ((denotesAll_iff xs ws).2 h)
  | .obj ms, w => by
    rw [literal, Option.map_eq_some_iff]
    constructor
    · intro h
      cases h with
      | obj h => exact ⟨_, (denotesMembers_iff ms _).1 h, rfl⟩
    · rintro ⟨ws, h, rfl⟩
      exact .obj ((denotesMembers_iff ms ws).2 h)
theorem denotesAll_iff : ∀ (xs : List Json) (ws : List Value), DenotesAll xs ws ↔ literals xs = some ws
  | [], ws => ⟨fun h => by cases h; rfl, fun h => by simp only [literals, Option.some.injEq] at h; subst h; exact .nil⟩
  | x :: xs, ws => by
    rw [literals, Option.bind_eq_some_iff]
    constructor
    · intro h
      cases h with
      | cons h1 h2 => exact ⟨_, (denotes_iff x _).1 h1, Option.map_eq_some_iff.2 ⟨_, (denotesAll_iff xs _).1 h2, rfl⟩⟩
    · rintro ⟨w, h1, h2⟩
      obtain ⟨ws', h3, rfl⟩ := Option.map_eq_some_iff.1 h2
      exact .cons ((denotes_iff x w).2 h1) ((denotesAll_iff xs ws').2 h3)
theorem denotesMembers_iff : ∀ (ms : Members) (ws : List (Key × Value)), DenotesMembers ms ws ↔ literalMembers ms = some ws
  | [], ws => ⟨fun h => by cases h; rfl, fun h => by simp only [literalMembers, Option.some.injEq] at h; subst h; exact .nil⟩
  | (k, x) :: ms, ws => by
    rw [literalMembers, Option.bind_eq_some_iff]
    constructor
    · intro h
      cases h with
      | cons h1 h2 => exact ⟨_, (denotes_iff x _).1 h1, Option.map_eq_some_iff.2 ⟨_, (denotesMembers_iff ms _).1 h2, rfl⟩⟩
    · rintro ⟨w, h1, h2⟩
      obtain ⟨ws', h3, rfl⟩ := Option.map_eq_some_iff.1 h2
      exact .cons ((denotes_iff x w).2 h1) ((denotesMembers_iff ms ws').2 h3)
end

theorem equals_iff (c : Json) (v : Value) : Equals c v ↔ ∃ w, literal c = some w ∧ Same v w := by
  simp only [Equals, denotes_iff]

/-! ### numbers and texts -/

theorem bind_asInt {x : Option Json} {m : Int} : x.bind asInt = some m ↔ x = some (.int m) := by
  cases x with
  | none => simp
  | some j => cases j <;> simp [asInt]

theorem bind_asSize {x : Option Json} {n : Nat} : x.bind asSize = some n ↔ x = some (.int n) := by
  cases x with
  | none => simp
  | some j =>
    cases j with
    | int i =>
      simp only [Option.bind_some, asSize, Option.some.injEq, J.int.injEq]
      split <;> simp <;> omega
    | _ => simp [asSize]

theorem bind_asText {x : Option Json} {s : Text} : x.bind asText = some s ↔ x = some (.str s) := by
  cases x with
  | none => simp
  | some j => cases j <;> simp [asText]

theorem mem_texts {xs : List Json} {s : Text} : s ∈ xs.filterMap asText ↔ J.str s ∈ xs := by
  rw [List.mem_filterMap]
  constructor
  · rintro ⟨j, hj, h⟩
    cases j <;> simp only [asText, Option.some.injEq, reduceCtorEq] at h
    subst h
    exact hj
  · exact fun h => ⟨_, h, rfl⟩

/-! ### types -/

/-- The name of a type. -/
def nameOf : Ty → String
  | .null => "null"
  | .bool => "boolean"
  | .obj => "object"
  | .arr => "array"
  | .num => "number"
  | .str => "string"
  | .int => "integer"

theorem tyOfName_iff {n : Text} {t : Ty} : tyOfName n = some t ↔ n = (nameOf t).toList := by
  constructor
  · intro h
    unfold tyOfName at h
    split at h
    · simp only [Option.some.injEq] at h; subst h; assumption
    split at h
    · simp only [Option.some.injEq] at h; subst h; assumption
    split at h
    · simp only [Option.some.injEq] at h; subst h; assumption
    split at h
    · simp only [Option.some.injEq] at h; subst h; assumption
    split at h
    · simp only [Option.some.injEq] at h; subst h; assumption
    split at h
    · simp only [Option.some.injEq] at h; subst h; assumption
    split at h
    · simp only [Option.some.injEq] at h; subst h; assumption
    · cases h
  · rintro rfl
    cases t <;> decide

theorem ofType_iff {n : Text} {v : Value} : OfType n v ↔ ∃ t, n = (nameOf t).toList ∧ HasType v t := by
  cases v with
  | bool => exact ⟨fun h => ⟨.bool, h, rfl⟩, by rintro ⟨t, h, rfl⟩; exact h⟩
  | int =>
    constructor
    · rintro (h | h)
      · exact ⟨.int, h, .inl rfl⟩
      · exact ⟨.num, h, .inr rfl⟩
    · rintro ⟨t, h, rfl | rfl⟩
      · exact .inl h
      · exact .inr h
  | str => exact ⟨fun h => ⟨.str, h, rfl⟩, by rintro ⟨t, h, rfl⟩; exact h⟩
  | arr => exact ⟨fun h => ⟨.arr, h, rfl⟩, by rintro ⟨t, h, rfl⟩; exact h⟩
  | tbl => exact ⟨fun h => ⟨.obj, h, rfl⟩, by rintro ⟨t, h, rfl⟩; exact h⟩

theorem nameOf_of_mem {n : Text} (h : n ∈ typeNames) : ∃ t, n = (nameOf t).toList := by
  simp only [typeNames, List.map_cons, List.map_nil, List.mem_cons, List.not_mem_nil, or_false] at h
  rcases h with rfl | rfl | rfl | rfl | rfl | rfl | rfl
  · exact ⟨.null, rfl⟩
  · exact ⟨.bool, rfl⟩
  · exact ⟨.obj, rfl⟩
  · exact ⟨.arr, rfl⟩
  · exact ⟨.num, rfl⟩
  · exact ⟨.str, rfl⟩
  · exact ⟨.int, rfl⟩

theorem nameTy_iff {j : Json} {t : Ty} : nameTy j = some t ↔ j = .str (nameOf t).toList := by
  cases j <;> simp [nameTy, tyOfName_iff]

/-- The types of a well-formed `type`. -/
theorem types_of_form {j : Json} (h : HasForm .types j) : ∃ ts, typeAssertion (some j) = some ts ∧
    ∀ t, t ∈ ts ↔ (j = .str (nameOf t).toList ∨ ∃ ns, j = .arr ns ∧ J.str (nameOf t).toList ∈ ns) := by
  rcases h with ⟨n, hn, rfl⟩ | ⟨ns, rfl, hne, hns⟩
  · obtain ⟨t, rfl⟩ := nameOf_of_mem hn
    refine ⟨[t], ?_, ?_⟩
    · simp [typeAssertion, show tyOfName (nameOf t).toList = some t from tyOfName_iff.2 rfl]
    · intro t'
      simp only [List.mem_singleton, J.str.injEq, reduceCtorEq, false_and, exists_false, or_false]
      constructor
      · rintro rfl
        rfl
      · intro h
        have h1 := tyOfName_iff.2 h
        rw [tyOfName_iff.2 rfl] at h1
        exact (Option.some.inj h1).symm
  · refine ⟨ns.filterMap nameTy, ?_, ?_⟩
    · simp only [typeAssertion, Option.bind_some]
      rw [if_neg]
      intro he
      cases ns with
      | nil => exact hne rfl
      | cons x xs =>
        obtain ⟨n, hn, rfl⟩ := hns x List.mem_cons_self
        obtain ⟨t, rfl⟩ := nameOf_of_mem hn
        have hm : t ∈ (J.str (nameOf t).toList :: xs).filterMap nameTy :=
          List.mem_filterMap.2 ⟨_, List.mem_cons_self, nameTy_iff.2 rfl⟩
        rw [List.isEmpty_iff.1 he] at hm
        cases hm
    · intro t
      rw [List.mem_filterMap]
      simp only [nameTy_iff]
      constructor
      · rintro ⟨j, hj, rfl⟩
        exact .inr ⟨ns, rfl, hj⟩
      · rintro (h | ⟨ns', h, hm⟩)
        · cases h
        · cases h
          exact ⟨_, hm, rfl⟩

/-! ### the schemas inside -/

theorem schemaItems_get {root : Json} {p : Pointer} : ∀ {xs : List Json} {i : Nat}, (∀ x ∈ xs, isSchema x = true) → ∀ n,
    (schemaItems root p i xs)[n]? = xs[n]?.map fun _ => idOf root (p ++ [.index (i + n)])
  | [], i, _, n => by simp [schemaItems]
  | x :: xs, i, h, n => by
    rw [schemaItems, if_pos (h x List.mem_cons_self)]
    cases n with
    | zero => simp
    | succ n =>
      have := schemaItems_get (root := root) (p := p) (i := i + 1) (fun x hx => h x (List.mem_cons_of_mem _ hx)) n
      simp only [List.getElem?_cons_succ, this]
      rw [show i + 1 + n = i + (n + 1) by omega]

theorem schemaItems_length {root : Json} {p : Pointer} : ∀ {xs : List Json} {i : Nat}, (∀ x ∈ xs, isSchema x = true) →
    (schemaItems root p i xs).length = xs.length
  | [], i, _ => by simp [schemaItems]
  | x :: xs, i, h => by
    rw [schemaItems, if_pos (h x List.mem_cons_self)]
    simp [schemaItems_length (i := i + 1) (fun x hx => h x (List.mem_cons_of_mem _ hx))]

theorem schemaMembers_eq {root : Json} {p : Pointer} : ∀ {ms : Members}, (∀ k x, (k, x) ∈ ms → isSchema x = true) →
    schemaMembers root p ms = ms.map fun (k, _) => (k, idOf root (p ++ [.key k]))
  | [], _ => by simp [schemaMembers]
  | (k, x) :: ms, h => by
    rw [schemaMembers, if_pos (h k x List.mem_cons_self), schemaMembers_eq fun k x hx => h k x (List.mem_cons_of_mem _ hx)]
    rfl

section
variable {d : Option Dialect} {strict : Bool} {root : Json} (hc : CoveredFile d strict root)
include hc

theorem distinct_of_covered : Distinct root := by
  refine ⟨hc.nodup, ?_⟩
  intro o k ms hi hk hm
  obtain ⟨name, hname, rfl⟩ := List.mem_map.1 hk
  have hl := lookup_of_mem (hc.nodup o hi) hm
  have hf : (name, Form.schemasByName) ∈ forms := by
    simp only [List.mem_cons, List.not_mem_nil, or_false] at hname
    rcases hname with rfl | rfl | rfl | rfl | rfl <;> simp [forms]
  obtain ⟨ms', he, hn, _⟩ := hc.form o name _ _ hi hf hl
  cases he
  exact hn

theorem isSchema_of_inside {j : Json} (h : Inside root j) : isSchema j = true := by
  rcases hc.schema j h with ⟨b, rfl⟩ | ⟨o, rfl⟩
  · rfl
  · have hx : kw o "x-taplo" = none := Classical.byContradiction fun hn => hc.uncovered o h "x-taplo" (by simp [uncovered]) hn
    have hh : hidden o = false := by
      rw [hidden, show o.lookup "x-taplo".toList = none from hx]
    simp [isSchema, hh]

variable {p : Pointer} {o : Members} (hp : Place root p (.obj o))
include hp

theorem inside_of_place : Inside root (.obj o) := (hp.inside (distinct_of_covered hc)).1

theorem form_at {name : String} {f : Form} (hf : (name, f) ∈ forms) {j : Json} (h : kw o name = some j) : HasForm f j :=
  hc.form o name f j (inside_of_place hc hp) hf h

/-- A schema below a keyword. -/
theorem direct_form {name : String} (hn : name ∈ ["items", "additionalItems", "contains", "additionalProperties", "propertyNames",
    "not", "if", "then", "else"]) {s : Json} (h : kw o name = some s) : IsSchema s ∨ ∃ xs, s = .arr xs := by
  simp only [List.mem_cons, List.not_mem_nil, or_false] at hn
  rcases hn with rfl | rfl | rfl | rfl | rfl | rfl | rfl | rfl | rfl
  · rcases form_at hc hp (f := .tupleOrSchema) (by simp [forms]) h with h | ⟨xs, h, _⟩
    · exact .inl h
    · exact .inr ⟨xs, h⟩
  all_goals exact .inl (form_at hc hp (f := .schema) (by simp [forms]) h)

theorem direct_place {name : String} (hn : name ∈ ["items", "additionalItems", "contains", "additionalProperties", "propertyNames",
    "not", "if", "then", "else"]) {s : Json} (h : kw o name = some s) (ha : ∀ xs, s ≠ .arr xs) :
    Place root (p ++ [.key name.toList]) s := by
  rcases direct_form hc hp hn h with hs | ⟨xs, e⟩
  · exact hp.trans (.direct (List.mem_map.2 ⟨name, hn, rfl⟩) (mem_of_lookup h) hs (.here _))
  · exact absurd e (ha xs)

theorem sub_iff {name : String} (hn : name ∈ ["items", "additionalItems", "contains", "additionalProperties", "propertyNames",
    "not", "if", "then", "else"]) {id : Nat} : sub root p o name = some id ↔
    (∃ s, kw o name = some s ∧ ∀ xs, s ≠ .arr xs) ∧ id = idOf root (p ++ [.key name.toList]) := by
  constructor
  · intro h
    unfold sub at h
    split at h
    · rename_i j hj
      split at h
      · rename_i hs
        refine ⟨⟨j, hj, ?_⟩, (Option.some.inj h).symm⟩
        rintro xs rfl
        cases hs
      · cases h
    · cases h
  · rintro ⟨⟨s, h, ha⟩, rfl⟩
    have hs := isSchema_of_inside hc ((direct_place hc hp hn h ha).inside (distinct_of_covered hc)).1
    simp only [sub, show o.lookup name.toList = some s from h, hs, if_true]

theorem list_form {name : String} (hn : name ∈ ["prefixItems", "oneOf", "anyOf", "allOf"]) {j : Json} (h : kw o name = some j) :
    ∃ xs, j = .arr xs := by
  simp only [List.mem_cons, List.not_mem_nil, or_false] at hn
  rcases hn with rfl | rfl | rfl | rfl
  all_goals
    obtain ⟨xs, h, _⟩ := form_at hc hp (f := .schemas) (by simp [forms]) h
    exact ⟨xs, h⟩

omit hc in
theorem list_place {name : String} (hn : name ∈ ["items", "prefixItems", "oneOf", "anyOf", "allOf"]) {xs : List Json}
    (h : kw o name = some (.arr xs)) {i : Nat} {s : Json} (hs : xs[i]? = some s) :
    Place root (p ++ [.key name.toList] ++ [.index i]) s := by
  rw [List.append_assoc]
  exact hp.trans (.listed (List.mem_map.2 ⟨name, hn, rfl⟩) (mem_of_lookup h) hs (.here _))

theorem list_schema {name : String} (hn : name ∈ ["items", "prefixItems", "oneOf", "anyOf", "allOf"]) {xs : List Json}
    (h : kw o name = some (.arr xs)) : ∀ x ∈ xs, isSchema x = true := by
  intro x hx
  obtain ⟨i, hi⟩ := List.mem_iff_getElem?.1 hx
  exact isSchema_of_inside hc ((list_place hp hn h hi).inside (distinct_of_covered hc)).1

theorem subList_iff {name : String} (hn : name ∈ ["prefixItems", "oneOf", "anyOf", "allOf"]) {l : List Nat} :
    subList root p o name = some l ↔ ∃ xs, kw o name = some (.arr xs) ∧ l = schemaItems root (p ++ [.key name.toList]) 0 xs := by
  cases hk : kw o name with
  | none => simp [subList, show o.lookup name.toList = none from hk]
  | some j =>
    obtain ⟨xs, rfl⟩ := list_form hc hp hn hk
    simp only [subList, show o.lookup name.toList = some (.arr xs) from hk, Option.some.injEq, J.arr.injEq]
    constructor
    · intro h
      exact ⟨xs, rfl, h.symm⟩
    · rintro ⟨_, rfl, h⟩
      exact h.symm

theorem map_form {name : String} (hn : name ∈ ["properties", "patternProperties", "dependentSchemas", "definitions", "$defs"])
    {j : Json} (h : kw o name = some j) : ∃ ms, j = .obj ms ∧ (ms.map Prod.fst).Nodup := by
  simp only [List.mem_cons, List.not_mem_nil, or_false] at hn
  rcases hn with rfl | rfl | rfl | rfl | rfl
  all_goals
    obtain ⟨xs, h, h', _⟩ := form_at hc hp (f := .schemasByName) (by simp [forms]) h
    exact ⟨xs, h, h'⟩

omit hc in
theorem map_place {name : String} (hn : name ∈ ["properties", "patternProperties", "dependentSchemas", "definitions", "$defs"])
    {ms : Members} (h : kw o name = some (.obj ms)) {k : Text} {s : Json} (hs : (k, s) ∈ ms) :
    Place root (p ++ [.key name.toList] ++ [.key k]) s := by
  rw [List.append_assoc]
  exact hp.trans (.named (List.mem_map.2 ⟨name, hn, rfl⟩) (mem_of_lookup h) hs (.here _))

theorem map_schema {name : String} (hn : name ∈ ["properties", "patternProperties", "dependentSchemas", "definitions", "$defs"])
    {ms : Members} (h : kw o name = some (.obj ms)) : ∀ k x, (k, x) ∈ ms → isSchema x = true := by
  intro k x hx
  exact isSchema_of_inside hc ((map_place hp hn h hx).inside (distinct_of_covered hc)).1

theorem subMap_iff {name : String} (hn : name ∈ ["properties", "patternProperties", "dependentSchemas", "definitions", "$defs"])
    {l : List (Text × Nat)} : subMap root p o name = some l ↔
      ∃ ms, kw o name = some (.obj ms) ∧ l = ms.map fun (k, _) => (k, idOf root (p ++ [.key name.toList] ++ [.key k])) := by
  cases hk : kw o name with
  | none => simp [subMap, show o.lookup name.toList = none from hk]
  | some j =>
    obtain ⟨ms, rfl, _⟩ := map_form hc hp hn hk
    simp only [subMap, show o.lookup name.toList = some (.obj ms) from hk, Option.some.injEq, J.obj.injEq,
      schemaMembers_eq (map_schema hc hp hn hk)]
    constructor
    · intro h
      exact ⟨ms, rfl, h.symm⟩
    · rintro ⟨_, rfl, h⟩
      exact h.symm

end

/-! ### the meaning of the schemas by number -/

/-- The meaning of the schema with a number. -/
def truth (H : Json → Value → Prop) (root : Json) (id : Nat) (v : Value) : Prop :=
  ∀ p j, (places root)[id]? = some p → valueAt root p = some j → H j v

theorem truth_place {H : Json → Value → Prop} {root j : Json} {p : Pointer} (hd : Distinct root) (h : Place root p j) (v : Value) :
    truth H root (idOf root p) v ↔ H j v := by
  constructor
  · intro ht
    exact ht p j (idOf_place h) (h.inside hd).2
  · intro hj p' j' h1 h2
    rw [idOf_place h] at h1
    cases h1
    rw [(h.inside hd).2] at h2
    cases h2
    exact hj

end Tombi.SchemaFile
