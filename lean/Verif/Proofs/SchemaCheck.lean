import Verif.Proofs.SchemaMeaning
/-! A test for the files that are covered. -/
namespace Tombi.SchemaFile
open Tombi.Offer (J Text)
open Tombi.Spec.SchemaFile
open Tombi.Validate (Key Value)
open Tombi.Spec.Validate (Small)

/-! ### the schemas of a file -/

mutual
/-- All schemas in a schema. -/
def insides : Json → List Json
  | .obj o => .obj o :: insidesIn o
  | j => [j]
def insidesIn : Members → List Json
  | [] => []
  | (k, j) :: o => insidesOf k j ++ insidesIn o
def insidesOf (k : Text) : Json → List Json
  | .arr xs => if k ∈ listKeywords then insidesItems xs else []
  | .obj ms => (if k ∈ mapKeywords then insidesMap ms else []) ++ if k ∈ schemaKeywords then .obj ms :: insidesIn ms else []
  | j => if k ∈ schemaKeywords then [j] else []
def insidesItems : List Json → List Json
  | [] => []
  | x :: xs => insides x ++ insidesItems xs
def insidesMap : Members → List Json
  | [] => []
  | (_, j) :: ms => insides j ++ insidesMap ms
end

theorem mem_insidesIn : ∀ {o : Members} {k : Text} {j x : Json}, (k, j) ∈ o → x ∈ insidesOf k j → x ∈ insidesIn o
  | (l, y) :: o, k, j, x, h, hx => by
    rw [insidesIn, List.mem_append]
    rcases List.mem_cons.1 h with h | h
    · cases h
      exact .inl hx
    · exact .inr (mem_insidesIn h hx)

theorem mem_insidesItems : ∀ {xs : List Json} {s x : Json}, s ∈ xs → x ∈ insides s → x ∈ insidesItems xs
  | y :: xs, s, x, h, hx => by
    rw [insidesItems, List.mem_append]
    rcases List.mem_cons.1 h with h | h
    · cases h
      exact .inl hx
    · exact .inr (mem_insidesItems h hx)

theorem mem_insidesMap : ∀ {ms : Members} {k : Text} {s x : Json}, (k, s) ∈ ms → x ∈ insides s → x ∈ insidesMap ms
  | (l, y) :: ms, k, s, x, h, hx => by
    rw [insidesMap, List.mem_append]
    rcases List.mem_cons.1 h with h | h
    · cases h
      exact .inl hx
    · exact .inr (mem_insidesMap h hx)

theorem mem_insidesOf {o : Members} {s : Json} (h : Child o s) : ∃ k j, (k, j) ∈ o ∧ ∀ x ∈ insides s, x ∈ insidesOf k j := by
  cases h with
  | @direct name s hn hk ha =>
    have hn : name.toList ∈ schemaKeywords := List.mem_map.2 ⟨name, hn, rfl⟩
    refine ⟨name.toList, s, mem_of_lookup hk, ?_⟩
    intro x hx
    cases s with
    | arr xs => exact absurd rfl (ha xs)
    | obj ms =>
      rw [insidesOf, List.mem_append, if_pos hn]
      rw [insides] at hx
      exact .inr hx
    | null => simpa [insidesOf, insides, hn] using hx
    | bool => simpa [insidesOf, insides, hn] using hx
    | int => simpa [insidesOf, insides, hn] using hx
    | float => simpa [insidesOf, insides, hn] using hx
    | str => simpa [insidesOf, insides, hn] using hx
  | @listed name ss s hn hk hs =>
    have hn : name.toList ∈ listKeywords := List.mem_map.2 ⟨name, hn, rfl⟩
    refine ⟨name.toList, .arr ss, mem_of_lookup hk, ?_⟩
    intro x hx
    rw [insidesOf, if_pos hn]
    exact mem_insidesItems hs hx
  | @named name ms k s hn hk hs =>
    have hn : name.toList ∈ mapKeywords := List.mem_map.2 ⟨name, hn, rfl⟩
    refine ⟨name.toList, .obj ms, mem_of_lookup hk, ?_⟩
    intro x hx
    rw [insidesOf, List.mem_append, if_pos hn]
    exact .inl (mem_insidesMap hs hx)

theorem self_mem_insides (j : Json) : j ∈ insides j := by
  cases j <;> simp [insides]

theorem mem_insides {a b : Json} (h : Inside a b) : b ∈ insides a := by
  induction h with
  | refl j => exact self_mem_insides j
  | child hch _ ih =>
    obtain ⟨k, j, h1, h2⟩ := mem_insidesOf hch
    rw [insides]
    exact List.mem_cons_of_mem _ (mem_insidesIn h1 (h2 _ ih))

/-! ### forms -/

/-- A schema. -/
def schemaCheck : Json → Bool
  | .bool _ => true
  | .obj _ => true
  | _ => false

theorem schemaCheck_sound {j : Json} (h : schemaCheck j = true) : IsSchema j := by
  cases j with
  | bool b => exact .inl ⟨b, rfl⟩
  | obj o => exact .inr ⟨o, rfl⟩
  | _ => cases h

mutual
/-- A plain literal. -/
def plainCheck : Json → Bool
  | .bool _ => true
  | .int i => decide (i.natAbs ≤ 2 ^ 53)
  | .str _ => true
  | .arr xs => plainsCheck xs
  | .obj ms => decide (ms.map Prod.fst).Nodup && plainMembersCheck ms
  | _ => false
def plainsCheck : List Json → Bool
  | [] => true
  | x :: xs => plainCheck x && plainsCheck xs
def plainMembersCheck : Members → Bool
  | [] => true
  | (_, x) :: ms => plainCheck x && plainMembersCheck ms
end

mutual
theorem plainCheck_sound : ∀ (j : Json), plainCheck j = true → PlainLiteral j
  | .bool _, _ => trivial
  | .int i, h => by simpa [plainCheck, PlainLiteral, Small] using h
  | .str _, _ => trivial
  | .arr xs, h => by
    rw [plainCheck] at h
    rw [PlainLiteral]
    exact plainsCheck_sound xs h
  | .obj ms, h => by
    rw [plainCheck, Bool.and_eq_true] at h
    rw [PlainLiteral]
    exact ⟨of_decide_eq_true h.1, plainMembersCheck_sound ms h.2⟩
  | .null, h => by simp [plainCheck] at h
  | .float _, h => by simp [plainCheck] at h
theorem plainsCheck_sound : ∀ (xs : List Json), plainsCheck xs = true → PlainLiterals xs
  | [], _ => trivial
  | x :: xs, h => by
    rw [plainsCheck, Bool.and_eq_true] at h
    exact ⟨plainCheck_sound x h.1, plainsCheck_sound xs h.2⟩
theorem plainMembersCheck_sound : ∀ (ms : Members), plainMembersCheck ms = true → PlainMembers ms
  | [], _ => trivial
  | (_, x) :: ms, h => by
    rw [plainMembersCheck, Bool.and_eq_true] at h
    exact ⟨plainCheck_sound x h.1, plainMembersCheck_sound ms h.2⟩
end

/-- A text. -/
def textCheck : Json → Bool
  | .str _ => true
  | _ => false

theorem textCheck_sound {j : Json} (h : textCheck j = true) : ∃ s, j = .str s := by
  cases j with
  | str s => exact ⟨s, rfl⟩
  | _ => cases h

/-- The name of a type. -/
def typeNameCheck : Json → Bool
  | .str n => decide (n ∈ typeNames)
  | _ => false

theorem typeNameCheck_sound {j : Json} (h : typeNameCheck j = true) : ∃ n ∈ typeNames, j = .str n := by
  cases j with
  | str s => exact ⟨s, of_decide_eq_true h, rfl⟩
  | _ => cases h

/-- An array of texts. -/
def textsCheck : Json → Bool
  | .arr xs => xs.all textCheck
  | _ => false

theorem textsCheck_sound {j : Json} (h : textsCheck j = true) : ∃ xs, j = .arr xs ∧ ∀ x ∈ xs, ∃ s, x = .str s := by
  cases j with
  | arr xs => exact ⟨xs, rfl, fun x hx => textCheck_sound (List.all_eq_true.1 h x hx)⟩
  | _ => cases h

/-- A value of a form. -/
def formCheck : Form → Json → Bool
  | .int, .int _ => true
  | .nat, .int i => decide (0 ≤ i)
  | .text, .str _ => true
  | .bool, .bool _ => true
  | .types, .arr ns => !ns.isEmpty && ns.all typeNameCheck
  | .types, j => typeNameCheck j
  | .literal, j => plainCheck j
  | .literals, .arr xs => xs.all plainCheck
  | .texts, j => textsCheck j
  | .textsByName, .obj ms => ms.all fun (_, x) => textsCheck x
  | .schema, j => schemaCheck j
  | .tupleOrSchema, .arr xs => xs.all schemaCheck
  | .tupleOrSchema, j => schemaCheck j
  | .schemas, .arr xs => xs.all schemaCheck
  | .schemasByName, .obj ms => decide (ms.map Prod.fst).Nodup && ms.all fun (_, x) => schemaCheck x
  | _, _ => false

theorem formCheck_sound {f : Form} {j : Json} (h : formCheck f j = true) : HasForm f j := by
  cases f with
  | int => cases j with
    | int i => exact ⟨i, rfl⟩
    | _ => cases h
  | nat => cases j with
    | int i =>
      have h : 0 ≤ i := of_decide_eq_true h
      exact ⟨i.toNat, by rw [Int.toNat_of_nonneg h]⟩
    | _ => cases h
  | text => cases j with
    | str s => exact ⟨s, rfl⟩
    | _ => cases h
  | bool => cases j with
    | bool b => exact ⟨b, rfl⟩
    | _ => cases h
  | types => cases j with
    | str n => exact .inl ⟨n, of_decide_eq_true h, rfl⟩
    | arr ns =>
      have h := (Bool.and_eq_true _ _ ▸ (show (!ns.isEmpty && ns.all typeNameCheck) = true from h) : _ ∧ _)
      refine .inr ⟨ns, rfl, ?_, fun x hx => typeNameCheck_sound (List.all_eq_true.1 h.2 x hx)⟩
      rintro rfl
      exact absurd h.1 (by decide)
    | _ => cases h
  | literal => cases j <;> exact plainCheck_sound _ h
  | literals => cases j with
    | arr xs => exact ⟨xs, rfl, fun x hx => plainCheck_sound x (List.all_eq_true.1 h x hx)⟩
    | _ => cases h
  | texts => cases j <;> exact textsCheck_sound h
  | textsByName => cases j with
    | obj ms => exact ⟨ms, rfl, fun k x hx => textsCheck_sound (List.all_eq_true.1 h (k, x) hx)⟩
    | _ => cases h
  | schema => cases j <;> exact schemaCheck_sound h
  | tupleOrSchema => cases j with
    | arr xs => exact .inr ⟨xs, rfl, fun x hx => schemaCheck_sound (List.all_eq_true.1 h x hx)⟩
    | bool b => exact .inl (schemaCheck_sound h)
    | obj b => exact .inl (schemaCheck_sound h)
    | _ => cases h
  | schemas => cases j with
    | arr xs => exact ⟨xs, rfl, fun x hx => schemaCheck_sound (List.all_eq_true.1 h x hx)⟩
    | _ => cases h
  | schemasByName => cases j with
    | obj ms =>
      have h := (Bool.and_eq_true _ _ ▸ (show (decide (ms.map Prod.fst).Nodup && ms.all fun (_, x) => schemaCheck x) = true from h) : _ ∧ _)
      exact ⟨ms, rfl, of_decide_eq_true h.1, fun k x hx => schemaCheck_sound (List.all_eq_true.1 h.2 (k, x) hx)⟩
    | _ => cases h

/-! ### schema objects -/

/-- The object has the keyword. -/
def has (o : Members) (name : String) : Bool := (kw o name).isSome

theorem has_iff {o : Members} {name : String} : has o name = true ↔ Has o name := by
  unfold has Has
  cases kw o name <;> simp

instance {o : Members} {name : String} : Decidable (Has o name) := decidable_of_iff _ has_iff

/-- The names of the types. -/
def typesOf (o : Members) : List Text :=
  match kw o "type" with
  | some (.str n) => [n]
  | some (.arr ns) => ns.filterMap asText
  | _ => []

theorem typesOf_iff {o : Members} {n : String} : n.toList ∈ typesOf o ↔ HasTypeName o n := by
  unfold typesOf HasTypeName
  cases kw o "type" with
  | none => simp
  | some j =>
    cases j with
    | str s =>
      simp only [List.mem_singleton, Option.some.injEq, J.str.injEq, reduceCtorEq, false_and, exists_false, or_false]
      exact ⟨fun h => h.symm, fun h => h.symm⟩
    | arr ns =>
      simp only [mem_texts, Option.some.injEq, reduceCtorEq, J.arr.injEq, false_or]
      exact ⟨fun h => ⟨ns, rfl, h⟩, by rintro ⟨_, rfl, h⟩; exact h⟩
    | _ => simp

instance {o : Members} {n : String} : Decidable (HasTypeName o n) := decidable_of_iff _ typesOf_iff

instance {o : Members} : Decidable (Asserts o) := inferInstanceAs (Decidable (_ ∨ _))
instance {o : Members} : Decidable (Applies o) := inferInstanceAs (Decidable (_ ∨ _))

/-- The integer of a keyword has a property. -/
def intCheck (P : Int → Bool) (o : Members) (name : String) : Bool :=
  match kw o name with
  | some (.int n) => P n
  | _ => true

theorem intCheck_sound {P : Int → Bool} {o : Members} {name : String} (h : intCheck P o name = true) :
    ∀ n, kw o name = some (.int n) → P n = true := by
  intro n hn
  rw [intCheck, hn] at h
  exact h

/-- The object is covered. -/
def coveredCheck (strict : Bool) (o : Members) : Bool :=
  decide (¬ Asserts o → (Has o "oneOf" → ¬ Has o "anyOf" ∧ ¬ Has o "allOf") ∧ (Has o "anyOf" → ¬ Has o "allOf")) &&
  decide (¬ Asserts o → Applies o → ∀ name ∈ assertions, ¬ Has o name) &&
  decide (Has o "if" → Applies o ∨ Has o "type" ∧ ∀ n ∈ typesOf o, n = "array".toList ∨ n = "object".toList) &&
  decide (Has o "oneOf" → ¬ Has o "not" ∧ ¬ Has o "if") &&
  (match kw o "anyOf" with
    | some (.arr []) => false
    | _ => true) &&
  decide (HasTypeName o "number" → ¬ HasTypeName o "integer" → ¬ Applies o) &&
  decide (Has o "multipleOf" → Asserts o → Has o "type" ∧ ¬ HasTypeName o "number") &&
  intCheck (fun n => decide (0 < n)) o "multipleOf" &&
  (["minimum", "maximum", "exclusiveMinimum", "exclusiveMaximum"].all fun name => intCheck (fun n => decide (n.natAbs ≤ 2 ^ 53)) o name) &&
  decide (HasTypeName o "null" → ¬ Has o "const" ∧ ¬ Has o "enum" ∧ ¬ Applies o ∧ ∃ n ∈ typesOf o, n ≠ "null".toList) &&
  decide (strict = true → Has o "patternProperties" → Has o "additionalProperties")

theorem coveredCheck_sound {strict : Bool} {o : Members} (h : coveredCheck strict o = true) : Covered strict o := by
  unfold coveredCheck at h
  simp only [Bool.and_eq_true] at h
  obtain ⟨⟨⟨⟨⟨⟨⟨⟨⟨⟨h1, h2⟩, h3⟩, h4⟩, h5⟩, h6⟩, h7⟩, h8⟩, h9⟩, h10⟩, h11⟩ := h
  refine ⟨of_decide_eq_true h1, of_decide_eq_true h2, ?_, of_decide_eq_true h4, ?_, of_decide_eq_true h6, of_decide_eq_true h7, ?_, ?_,
    ?_, of_decide_eq_true h11⟩
  · intro hif
    rcases of_decide_eq_true h3 hif with h | ⟨h, h'⟩
    · exact .inl h
    · refine .inr ⟨h, ?_⟩
      intro n hn
      rcases h' _ (typesOf_iff.2 hn) with e | e
      · exact .inl (toList_inj e)
      · exact .inr (toList_inj e)
  · intro e
    rw [e] at h5
    cases h5
  · intro n hn
    exact of_decide_eq_true (intCheck_sound h8 n hn)
  · intro name hname n hn
    exact of_decide_eq_true (p := n.natAbs ≤ 2 ^ 53) (intCheck_sound (List.all_eq_true.1 h9 name hname) n hn)
  · intro hn
    obtain ⟨g1, g2, g3, t, ht, hne⟩ := of_decide_eq_true h10 hn
    refine ⟨g1, g2, g3, String.ofList t, ?_, ?_⟩
    · intro e
      apply hne
      rw [← e, String.toList_ofList]
    · rw [← typesOf_iff, String.toList_ofList]
      exact ht

/-- A covered reference. -/
def refCheck (root : Json) (o : Members) (r : Text) : Bool :=
  (assertions ++ applicators).all (fun name => !has o name) &&
  ["definitions", "$defs"].any fun name => match root with
    | .obj o' => match kw o' name with
      | some (.obj ds) => ds.any fun (k, _) => decide ('/' ∉ k) && decide ('~' ∉ k) && (r == ("#/" ++ name ++ "/").toList ++ k)
      | _ => false
    | _ => false

theorem refCheck_sound {root : Json} {o : Members} {r : Text} (h : refCheck root o r = true) : CoveredRef root o r := by
  unfold refCheck at h
  rw [Bool.and_eq_true] at h
  obtain ⟨h1, h2⟩ := h
  refine ⟨?_, ?_⟩
  · intro name hn hh
    have := List.all_eq_true.1 h1 name hn
    rw [has_iff.2 hh] at this
    cases this
  · obtain ⟨name, hname, h⟩ := List.any_eq_true.1 h2
    split at h
    · rename_i o'
      split at h
      · rename_i ds hk
        obtain ⟨⟨k, s⟩, hs, h⟩ := List.any_eq_true.1 h
        simp only [Bool.and_eq_true, decide_eq_true_eq] at h
        exact ⟨name, hname, k, h.1.1, h.1.2, eq_of_beq h.2, o', ds, s, rfl, hk, hs⟩
      · cases h
    · cases h

/-- A schema object of a file. -/
def objectCheck (d : Option Dialect) (strict : Bool) (root : Json) (o : Members) : Bool :=
  decide (o.map Prod.fst).Nodup &&
  (forms.all fun (name, f) => match kw o name with
    | some j => formCheck f j
    | none => true) &&
  uncovered.all (fun name => !has o name) &&
  (if usesPrefixItems d then (match kw o "items" with
    | some (.arr _) => false
    | _ => true) else !has o "prefixItems") &&
  (d != some .draft07 || ["minContains", "maxContains", "dependentRequired", "dependentSchemas"].all fun name => !has o name) &&
  match kw o "$ref" with
  | some (.str r) => refCheck root o r && match target root r with
    | some (.obj o') => refOf o' != none || decide (Asserts o' → Has o' "type")
    | _ => true
  | _ => coveredCheck strict o

/-- The file is covered. -/
def fileCheck (d : Option Dialect) (strict : Bool) (root : Json) : Bool :=
  (insides root).all fun j => match j with
    | .bool _ => true
    | .obj o => objectCheck d strict root o
    | _ => false

theorem fileCheck_sound {d : Option Dialect} {strict : Bool} {root : Json} (h : fileCheck d strict root = true) :
    CoveredFile d strict root := by
  have hobj : ∀ o, Inside root (.obj o) → objectCheck d strict root o = true := fun o hi =>
    List.all_eq_true.1 h _ (mem_insides hi)
  have hparts : ∀ o, Inside root (.obj o) → _ := fun o hi => by
    have h := hobj o hi
    unfold objectCheck at h
    simp only [Bool.and_eq_true] at h
    exact h
  have not_has_of : ∀ {o : Members} {name : String}, (!has o name) = true → ¬ Has o name := by
    intro o name h hh
    rw [has_iff.2 hh] at h
    cases h
  refine ⟨?_, ?_, ?_, ?_, ?_, ?_, ?_, ?_, ?_⟩
  · intro j hi
    have hj := List.all_eq_true.1 h _ (mem_insides hi)
    cases j with
    | bool b => exact .inl ⟨b, rfl⟩
    | obj o => exact .inr ⟨o, rfl⟩
    | _ => cases hj
  · intro o hi
    exact of_decide_eq_true (hparts o hi).1.1.1.1.1
  · intro o name f j hi hf hk
    have := List.all_eq_true.1 (hparts o hi).1.1.1.1.2 (name, f) hf
    simp only [hk] at this
    exact formCheck_sound this
  · intro o hi name hn
    exact not_has_of (List.all_eq_true.1 (hparts o hi).1.1.1.2 name hn)
  · intro o hi
    have h4 := (hparts o hi).1.1.2
    split at h4
    · rename_i hu
      refine ⟨fun ho => absurd ho (usesPrefixItems_iff.1 hu), fun _ ps e => ?_⟩
      rw [e] at h4
      cases h4
    · rename_i hu
      refine ⟨fun _ => not_has_of h4, fun ho => absurd (usesPrefixItems_iff.2 ho) hu⟩
  · intro hd o hi name hn
    have h5 := (hparts o hi).1.2
    rw [hd] at h5
    exact not_has_of (List.all_eq_true.1 h5 name hn)
  · intro o hi hr
    have h6 := (hparts o hi).2
    split at h6
    · rename_i r hk
      exact absurd hk (hr r)
    · exact coveredCheck_sound h6
  · intro o r hi hr
    have h6 := (hparts o hi).2
    rw [hr] at h6
    simp only [Bool.and_eq_true] at h6
    exact refCheck_sound h6.1
  · intro o r o' hi hr ht hnr ha
    have h6 := (hparts o hi).2
    rw [hr] at h6
    simp only [Bool.and_eq_true, ht, Bool.or_eq_true] at h6
    rcases h6.2 with h7 | h7
    · cases hn : refOf o' with
      | none =>
        rw [hn] at h7
        cases h7
      | some r' => exact absurd (bind_asText.1 hn) (hnr r')
    · exact of_decide_eq_true h7 ha

/-! ### ranks -/

/-- The schemas directly inside a schema object. -/
def children (o : Members) : List Json :=
  o.flatMap fun (k, j) => match j with
    | .arr xs => if k ∈ listKeywords then xs else []
    | .obj ms => (if k ∈ mapKeywords then ms.map Prod.snd else []) ++ if k ∈ schemaKeywords then [.obj ms] else []
    | j => if k ∈ schemaKeywords then [j] else []

theorem mem_children {o : Members} {s : Json} (h : Child o s) : s ∈ children o := by
  cases h with
  | @direct name s hn hk ha =>
    have hn : name.toList ∈ schemaKeywords := List.mem_map.2 ⟨name, hn, rfl⟩
    refine List.mem_flatMap.2 ⟨(name.toList, s), mem_of_lookup hk, ?_⟩
    cases s with
    | arr xs => exact absurd rfl (ha xs)
    | obj ms =>
      simp only [List.mem_append]
      rw [if_pos hn]
      exact .inr (List.mem_singleton.2 rfl)
    | null => simp [hn]
    | bool => simp [hn]
    | int => simp [hn]
    | float => simp [hn]
    | str => simp [hn]
  | @listed name ss s hn hk hs =>
    have hn : name.toList ∈ listKeywords := List.mem_map.2 ⟨name, hn, rfl⟩
    refine List.mem_flatMap.2 ⟨(name.toList, .arr ss), mem_of_lookup hk, ?_⟩
    simp only []
    rw [if_pos hn]
    exact hs
  | @named name ms k s hn hk hs =>
    have hn : name.toList ∈ mapKeywords := List.mem_map.2 ⟨name, hn, rfl⟩
    refine List.mem_flatMap.2 ⟨(name.toList, .obj ms), mem_of_lookup hk, ?_⟩
    simp only [List.mem_append]
    rw [if_pos hn]
    exact .inl (List.mem_map.2 ⟨(k, s), hs, rfl⟩)

/-- The keywords for lists of schemas that are applied to the same value. -/
def appliedLists : List Text := ["oneOf", "anyOf", "allOf"].map String.toList

/-- The keywords for schemas that are applied to the same value. -/
def appliedSchemas : List Text := ["not", "if", "then", "else"].map String.toList

/-- The schemas inside that are applied to the same value. -/
def applieds (o : Members) : List Json :=
  o.flatMap fun (k, j) => (if k ∈ appliedSchemas then [j] else []) ++ match j with
    | .arr xs => if k ∈ appliedLists then xs else []
    | .obj ms => if k = "dependentSchemas".toList then ms.map Prod.snd else []
    | _ => []

theorem mem_applieds {o : Members} {s : Json} (h : Applied o s) : s ∈ applieds o := by
  cases h with
  | @direct name s hn hk =>
    have hn : name.toList ∈ appliedSchemas := List.mem_map.2 ⟨name, hn, rfl⟩
    refine List.mem_flatMap.2 ⟨(name.toList, s), mem_of_lookup hk, List.mem_append.2 (.inl ?_)⟩
    rw [if_pos hn]
    exact List.mem_singleton.2 rfl
  | @listed name ss s hn hk hs =>
    have hn : name.toList ∈ appliedLists := List.mem_map.2 ⟨name, hn, rfl⟩
    refine List.mem_flatMap.2 ⟨(name.toList, .arr ss), mem_of_lookup hk, List.mem_append.2 (.inr ?_)⟩
    simp only []
    rw [if_pos hn]
    exact hs
  | @named ms k s hk hs =>
    refine List.mem_flatMap.2 ⟨("dependentSchemas".toList, .obj ms), mem_of_lookup hk, List.mem_append.2 (.inr ?_)⟩
    simp only []
    rw [if_pos trivial]
    exact List.mem_map.2 ⟨(k, s), hs, rfl⟩

/-- The alternatives. -/
def alternates (o : Members) : List Json :=
  o.flatMap fun (k, j) => match j with
    | .arr xs => if k = "oneOf".toList ∨ k = "anyOf".toList then xs else []
    | _ => []

theorem mem_alternates {o : Members} {s : Json} (h : Alternate o s) : s ∈ alternates o := by
  obtain ⟨name, hn, ss, hk, hs⟩ := h
  refine List.mem_flatMap.2 ⟨(name.toList, .arr ss), mem_of_lookup hk, ?_⟩
  simp only []
  rw [if_pos]
  · exact hs
  · simp only [List.mem_cons, List.not_mem_nil, or_false] at hn
    rcases hn with rfl | rfl
    · exact .inl rfl
    · exact .inr rfl

/-- The schema that is referred to. -/
def targets (root : Json) (o : Members) : List Json :=
  match refOf o with
  | some r => (target root r).toList
  | none => []

theorem mem_targets {root : Json} {o : Members} {r : Text} {t : Json} (hr : kw o "$ref" = some (.str r)) (ht : target root r = some t) :
    t ∈ targets root o := by
  rw [targets, show refOf o = some r from bind_asText.2 hr]
  simp only [ht, Option.toList_some, List.mem_singleton]

/-- The longest chain of schemas that are applied to the same value and of references, up to `n`. -/
def height (root : Json) : Nat → Json → Nat
  | 0, _ => 0
  | n + 1, .obj o => 1 + ((applieds o ++ targets root o).map (height root n)).foldr max 0
  | _ + 1, _ => 0

/-- The most alternatives inside each other, on chains of up to `n` schemas and references. -/
def steps (root : Json) : Nat → Json → Nat
  | 0, _ => 0
  | n + 1, .obj o => max (((children o ++ targets root o).map (steps root n)).foldr max 0)
      (((alternates o).map fun s => 1 + steps root n s).foldr max 0)
  | _ + 1, _ => 0

/-- The chains decrease everywhere. -/
def groundedCheck (root : Json) (n : Nat) : Bool :=
  (insides root).all fun j => decide (height root n j ≤ n) && match j with
    | .obj o => (applieds o).all (fun s => decide (height root n s < height root n (.obj o))) &&
        (targets root o).all (fun t => decide (height root n t < height root n (.obj o) ∧ steps root n t ≤ steps root n (.obj o))) &&
        (children o).all (fun s => decide (steps root n s ≤ steps root n (.obj o))) &&
        (alternates o).all (fun s => decide (steps root n s < steps root n (.obj o)))
    | _ => true

theorem groundedCheck_sound {root : Json} {n : Nat} (h : groundedCheck root n = true) :
    Grounded root (height root n) (steps root n) n := by
  have key : ∀ o, Inside root (.obj o) → _ := fun o hi => (Bool.and_eq_true _ _ ▸ List.all_eq_true.1 h _ (mem_insides hi) : _ ∧ _).2
  simp only [Bool.and_eq_true] at key
  refine ⟨?_, ?_, ?_, ?_, ?_⟩
  · intro j hi
    exact of_decide_eq_true (Bool.and_eq_true _ _ ▸ List.all_eq_true.1 h _ (mem_insides hi) : _ ∧ _).1
  · intro o s hi hs
    exact of_decide_eq_true (List.all_eq_true.1 (key o hi).1.1.1 s (mem_applieds hs))
  · intro o r t hi hr ht
    exact of_decide_eq_true (List.all_eq_true.1 (key o hi).1.1.2 t (mem_targets hr ht))
  · intro o s hi hs
    exact of_decide_eq_true (List.all_eq_true.1 (key o hi).1.2 s (mem_children hs))
  · intro o s hi hs
    exact of_decide_eq_true (List.all_eq_true.1 (key o hi).2 s (mem_alternates hs))

/-! ### few keywords -/

theorem holds_of_few {d : Option Dialect} {m : Text → Option (Key → Bool)} {H : Json → Value → Prop} {o : Members} {v : Value}
    (hn : ∀ name ∈ assertions ++ applicators, name ∉ ["type", "properties", "additionalProperties", "anyOf", "items"] → has o name = false)
    (h1 : ∀ t, kw o "type" = some t → ∃ name, (t = .str name ∨ ∃ names, t = .arr names ∧ .str name ∈ names) ∧ OfType name v)
    (h2 : ∀ ps kvs k x s, kw o "properties" = some (.obj ps) → v = .tbl kvs → (k, x) ∈ kvs → (k, s) ∈ ps → H s x)
    (h3 : ∀ s kvs k x, kw o "additionalProperties" = some s → v = .tbl kvs → (k, x) ∈ kvs → ¬ Listed m o k → H s x)
    (h4 : ∀ ms, kw o "anyOf" = some (.arr ms) → ∃ s ∈ ms, H s v)
    (h5 : ∀ xs x s, v = .arr xs → x ∈ xs → kw o "items" = some s → (∀ ps, s ≠ .arr ps) ∧ H s x) :
    Holds d m H o v := by
  have hn : ∀ name j, name ∈ assertions ++ applicators → name ∉ ["type", "properties", "additionalProperties", "anyOf", "items"] →
      kw o name = some j → False := by
    intro name j h h' hk
    have := hn name h h'
    rw [has, hk] at this
    cases this
  have no : ∀ {name : String} {j : Json} {P : Prop}, kw o name = some j →
      (name ∈ assertions ++ applicators ∧ name ∉ ["type", "properties", "additionalProperties", "anyOf", "items"]) → P :=
    fun hk h => (hn _ _ h.1 h.2 hk).elim
  have hi : ∀ xs (i : Nat) x, v = .arr xs → xs[i]? = some x → Element d H o i x := by
    intro xs i x hx hi
    have h5 := fun s => h5 xs x s hx (List.mem_of_getElem? hi)
    refine ⟨?_, ?_, ?_, ?_, ?_⟩
    · intro _ ps s hk
      exact no hk ⟨by decide, by decide⟩
    · intro _ _ s hk
      exact (h5 s hk).2
    · intro _ ps s hk
      exact absurd rfl ((h5 _ hk).1 ps)
    · intro _ ps s hk
      exact absurd rfl ((h5 _ hk).1 ps)
    · intro _ s hk _
      exact (h5 s hk).2
  refine { type := h1, properties := h2, additionalProperties := h3, anyOf := h4, const := ?_, enum := ?_, minimum := ?_, maximum := ?_,
           exclusiveMinimum := ?_, exclusiveMaximum := ?_, multipleOf := ?_, minLength := ?_, maxLength := ?_, pattern := ?_,
           items := hi, contains := ?_, minItems := ?_, maxItems := ?_, uniqueItems := ?_, patternProperties := ?_,
           required := ?_, minProperties := ?_, maxProperties := ?_, propertyNames := ?_, dependentRequired := ?_,
           dependentSchemas := ?_, allOf := ?_, oneOf := ?_, not := ?_, thenIf := ?_, elseIf := ?_ }
  all_goals
    intros
    exact no (by assumption) ⟨by decide, by decide⟩

end Tombi.SchemaFile
