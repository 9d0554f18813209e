import Verif.Proofs.SchemaObject
/-! A covered schema object that is read is in the fragment of the validator. -/
namespace Tombi.SchemaFile
open Tombi.Offer (J Text typeAssertion asSize tyOfName nameTy)
open Tombi.Spec.SchemaFile
open Tombi.Validate (Key Value Ty Node Env Items Rest Additional)
open Tombi.Spec.Validate (HasType NodeHolds Same Sub Supported PlainLit PlainLits PlainLitEntries NoApplicator OnlyApplicators Small)

mutual
theorem plain_literal : ∀ (c : Json), PlainLiteral c → ∃ w, literal c = some w ∧ PlainLit w
  | .bool b, _ => ⟨.bool b, rfl, trivial⟩
  | .int i, h => ⟨.int i, rfl, h⟩
  | .str s, _ => ⟨.str s, rfl, trivial⟩
  | .arr xs, h => by
    obtain ⟨ws, hw, hp⟩ := plain_literals xs (by simpa only [PlainLiteral] using h)
    exact ⟨.arr ws, by rw [literal, hw]; rfl, by simpa only [PlainLit] using hp⟩
  | .obj ms, h => by
    simp only [PlainLiteral] at h
    obtain ⟨ws, hw, hp, hk⟩ := plain_members ms h.2
    refine ⟨.tbl ws, by rw [literal, hw]; rfl, ?_⟩
    simp only [PlainLit]
    exact ⟨by rw [hk]; exact h.1, hp⟩
  | .null, h => by simp [PlainLiteral] at h
  | .float _, h => by simp [PlainLiteral] at h
theorem plain_literals : ∀ (xs : List Json), PlainLiterals xs → ∃ ws, literals xs = some ws ∧ PlainLits ws
  | [], _ => ⟨[], rfl, trivial⟩
  | x :: xs, h => by
    simp only [PlainLiterals] at h
    obtain ⟨w, h1, h2⟩ := plain_literal x h.1
    obtain ⟨ws, h3, h4⟩ := plain_literals xs h.2
    exact ⟨w :: ws, by rw [literals, h1, h3]; rfl, h2, h4⟩
theorem plain_members : ∀ (ms : Members), PlainMembers ms →
    ∃ ws, literalMembers ms = some ws ∧ PlainLitEntries ws ∧ ws.map Prod.fst = ms.map Prod.fst
  | [], _ => ⟨[], rfl, trivial, rfl⟩
  | (k, x) :: ms, h => by
    simp only [PlainMembers] at h
    obtain ⟨w, h1, h2⟩ := plain_literal x h.1
    obtain ⟨ws, h3, h4, h5⟩ := plain_members ms h.2
    exact ⟨(k, w) :: ws, by rw [literalMembers, h1, h3]; rfl, ⟨h2, h4⟩, by simp [h5]⟩
end

theorem nameOf_inj {a b : Ty} (h : nameOf a = nameOf b) : a = b := by
  cases a <;> cases b <;> first | rfl | (exact absurd h (by decide))

theorem not_has {o : Members} {name : String} : ¬ Has o name ↔ kw o name = none := by
  unfold Has
  exact ⟨fun h => Classical.byContradiction h, fun h hn => hn h⟩

section
variable {d : Option Dialect} {strict : Bool} {root : Json} (hc : CoveredFile d strict root)
variable {p : Pointer} {o : Members} (hp : Place root p (.obj o)) (dep : Bool)
include hc hp

theorem types_iff {ts : List Ty} (h : (readNode d root p o dep).types = some ts) (t : Ty) : t ∈ ts ↔ HasTypeName o (nameOf t) := by
  have h : typeAssertion (kw o "type") = some ts := h
  cases ht : kw o "type" with
  | none =>
    rw [ht] at h
    cases h
  | some j =>
    obtain ⟨ts', h1, h2⟩ := types_of_form (form_at hc hp (name := "type") (f := .types) (by simp [forms]) ht)
    rw [ht, h1] at h
    cases h
    rw [h2, HasTypeName, ht]
    simp only [Option.some.injEq]

theorem types_none : (readNode d root p o dep).types ≠ none ↔ Has o "type" := by
  show typeAssertion (kw o "type") ≠ none ↔ _
  unfold Has
  cases ht : kw o "type" with
  | none => simp [typeAssertion]
  | some j =>
    obtain ⟨ts', h1, h2⟩ := types_of_form (form_at hc hp (name := "type") (f := .types) (by simp [forms]) ht)
    simp [h1]

omit hc hp in
theorem const_none : (readNode d root p o dep).const ≠ none ↔ Has o "const" := by
  show (kw o "const").map literal ≠ none ↔ kw o "const" ≠ none
  cases kw o "const" <;> simp

theorem enum_none : (readNode d root p o dep).enum ≠ none ↔ Has o "enum" := by
  show (match kw o "enum" with
    | some (.arr xs) => some (xs.map literal)
    | _ => none) ≠ none ↔ kw o "enum" ≠ none
  cases hk : kw o "enum" with
  | none => simp
  | some j =>
    obtain ⟨xs, rfl, _⟩ := form_at hc hp (name := "enum") (f := .literals) (by simp [forms]) hk
    simp

theorem asserts_iff : Tombi.Spec.Validate.Asserts (readNode d root p o dep) ↔ Asserts o := by
  unfold Tombi.Spec.Validate.Asserts Asserts
  rw [types_none hc hp dep, const_none dep, enum_none hc hp dep]

omit hc hp in
theorem subList_none {name : String} : subList root p o name = none ↔ kw o name = none := by
  rw [kw_eq, subList]
  cases o.lookup name.toList with
  | none => exact ⟨fun _ => rfl, fun _ => rfl⟩
  | some j => cases j <;> exact ⟨(fun h => by cases h), (fun h => by cases h)⟩

omit hc hp in
theorem noApplicator_iff : NoApplicator (readNode d root p o dep) ↔ ¬ Applies o := by
  have h : NoApplicator (readNode d root p o dep) ↔
    (subList root p o "oneOf" = none ∧ subList root p o "anyOf" = none ∧ subList root p o "allOf" = none) := Iff.rfl
  rw [h, subList_none, subList_none, subList_none]
  unfold Applies
  rw [not_or, not_or, not_has, not_has, not_has]

omit hc hp in
theorem sub_has {name : String} (h : sub root p o name ≠ none) : Has o name := fun hn => h (sub_none hn)

omit hc hp in
theorem bare_read (h : ∀ name ∈ assertions, kw o name = none) :
    readNode d root p o dep = OnlyApplicators (readNode d root p o dep) := by
  have g : ∀ name ∈ assertions, o.lookup name.toList = none := h
  have hi : readItems d root p o = .absent := by
    simp only [readItems, prefixItems, itemsSchema, sub, g "prefixItems" (by simp [assertions]), g "items" (by simp [assertions])]
  have hadd : readAdditional root p o = .absent := by
    simp only [readAdditional, g "additionalProperties" (by simp [assertions])]
  have hm : ∀ name ∈ assertions, subMap root p o name = none := by
    intro name hn
    simp only [subMap, g name hn]
  have hs : ∀ name ∈ assertions, sub root p o name = none := fun name hn => sub_none (h name hn)
  have hu : isTrue o "uniqueItems" = false := by
    simp only [isTrue, g "uniqueItems" (by simp [assertions])]
  have ht : ∀ name ∈ ["type"], typeAssertion (o.lookup "type".toList) = none := by
    intro name _
    rw [g "type" (by simp [assertions])]
    rfl
  unfold readNode OnlyApplicators
  simp only [hi, hadd, hu, ht "type" (by simp), hm "properties" (by simp [assertions]), hm "patternProperties" (by simp [assertions]),
    hm "dependentSchemas" (by simp [assertions]), hs "contains" (by simp [assertions]), hs "propertyNames" (by simp [assertions]),
    g "const" (by simp [assertions]), g "enum" (by simp [assertions]), g "minimum" (by simp [assertions]),
    g "maximum" (by simp [assertions]), g "exclusiveMinimum" (by simp [assertions]), g "exclusiveMaximum" (by simp [assertions]),
    g "multipleOf" (by simp [assertions]), g "minLength" (by simp [assertions]), g "maxLength" (by simp [assertions]),
    g "pattern" (by simp [assertions]), g "minContains" (by simp [assertions]), g "maxContains" (by simp [assertions]),
    g "minItems" (by simp [assertions]), g "maxItems" (by simp [assertions]), g "required" (by simp [assertions]),
    g "minProperties" (by simp [assertions]), g "maxProperties" (by simp [assertions]), g "dependentRequired" (by simp [assertions]),
    Option.map_none, Option.bind_none, Option.getD_none]

theorem supported_read (hcov : Covered strict o) (byRef : Bool) (href : byRef = true → Asserts o → Has o "type") :
    Supported byRef strict (readNode d root p o dep) where
  single := by
    rw [asserts_iff hc hp dep]
    intro h
    obtain ⟨h1, h2⟩ := hcov.single h
    constructor
    · intro ho
      have := h1 fun hn => ho (subList_none.2 hn)
      exact ⟨subList_none.2 (not_has.1 this.1), subList_none.2 (not_has.1 this.2)⟩
    · intro ho
      exact subList_none.2 (not_has.1 (h2 fun hn => ho (subList_none.2 hn)))
  bare := by
    rw [asserts_iff hc hp dep, noApplicator_iff]
    intro h hn
    exact bare_read dep fun name hname => not_has.1 (hcov.bare h (Classical.byContradiction hn) name hname)
  conditional := by
    intro h
    rw [noApplicator_iff]
    rcases hcov.conditional (sub_has h) with h1 | ⟨h1, h2⟩
    · exact .inl fun hn => hn h1
    · right
      cases ht : (readNode d root p o dep).types with
      | none => exact absurd ht ((types_none hc hp dep).2 h1)
      | some ts =>
        refine ⟨ts, rfl, ?_⟩
        intro t hm
        rcases h2 _ ((types_iff hc hp dep ht t).1 hm) with h | h
        · exact .inl (nameOf_inj (b := .arr) h)
        · exact .inr (nameOf_inj (b := .obj) h)
  oneOf := by
    intro h
    obtain ⟨h1, h2⟩ := hcov.oneOf fun hn => h (subList_none.2 hn)
    exact ⟨sub_none (not_has.1 h1), sub_none (not_has.1 h2)⟩
  anyOf := by
    intro h
    obtain ⟨xs, hk, hl⟩ := (subList_iff hc hp (name := "anyOf") (by simp)).1 h
    have := schemaItems_length (root := root) (p := p ++ [.key "anyOf".toList]) (i := 0) (list_schema hc hp (name := "anyOf") (by simp) hk)
    rw [← hl] at this
    cases xs with
    | nil => exact hcov.anyOf hk
    | cons x xs => simp at this
  number := by
    intro ts ht hn hi
    rw [noApplicator_iff]
    exact hcov.number ((types_iff hc hp dep ht _).1 hn) fun h => hi ((types_iff hc hp dep ht .int).2 h)
  floatMultiple := by
    intro hm ha
    rw [asserts_iff hc hp dep] at ha
    have hh : Has o "multipleOf" := by
      intro hn
      exact hm (congrArg (Option.bind · asInt) hn)
    obtain ⟨h1, h2⟩ := hcov.floatMultiple hh ha
    cases ht : (readNode d root p o dep).types with
    | none => exact absurd ht ((types_none hc hp dep).2 h1)
    | some ts => exact ⟨ts, rfl, fun h => h2 ((types_iff hc hp dep ht _).1 h)⟩
  multiple := fun m hm => hcov.multiple m (bind_asInt.1 hm)
  small := by
    rintro m (h | h | h | h)
    · exact hcov.small "minimum" (by simp) m (bind_asInt.1 h)
    · exact hcov.small "maximum" (by simp) m (bind_asInt.1 h)
    · exact hcov.small "exclusiveMinimum" (by simp) m (bind_asInt.1 h)
    · exact hcov.small "exclusiveMaximum" (by simp) m (bind_asInt.1 h)
  null := by
    intro ts ht hn
    obtain ⟨h1, h2, h3, n, h4, h5⟩ := hcov.null ((types_iff hc hp dep ht _).1 hn)
    refine ⟨?_, ?_, (noApplicator_iff dep).2 h3, ?_⟩
    · exact Classical.byContradiction fun h => h1 ((const_none dep).1 h)
    · exact Classical.byContradiction fun h => h2 ((enum_none hc hp dep).1 h)
    · have hn : n.toList ∈ typeNames := by
        rcases h5 with h | ⟨ns, h, hm⟩
        · rcases form_at hc hp (name := "type") (f := .types) (by simp [forms]) h with ⟨m, hm, e⟩ | ⟨ns, e, _⟩
          · cases e
            exact hm
          · cases e
        · rcases form_at hc hp (name := "type") (f := .types) (by simp [forms]) h with ⟨m, hm, e⟩ | ⟨ns', e, _, hx⟩
          · cases e
          · cases e
            obtain ⟨m, hm', e⟩ := hx _ hm
            cases e
            exact hm'
      obtain ⟨t, he⟩ := nameOf_of_mem hn
      have he := toList_inj he
      subst he
      refine ⟨t, (types_iff hc hp dep ht t).2 h5, ?_⟩
      rintro rfl
      exact h4 rfl
  const := by
    intro l hl
    obtain ⟨c, hk, rfl⟩ := Option.map_eq_some_iff.1 (show (kw o "const").map literal = some l from hl)
    exact plain_literal c (form_at hc hp (name := "const") (f := .literal) (by simp [forms]) hk)
  enum := by
    intro ls l hl hm
    have hl : (match kw o "enum" with
        | some (.arr xs) => some (xs.map literal)
        | _ => none) = some ls := hl
    split at hl
    · rename_i xs hk
      cases hl
      obtain ⟨c, hc1, rfl⟩ := List.mem_map.1 hm
      obtain ⟨xs', e, hx⟩ := form_at hc hp (name := "enum") (f := .literals) (by simp [forms]) hk
      cases e
      exact plain_literal c (hx c hc1)
    · cases hl
  strict := by
    intro hs hpp
    have h1 : Has o "patternProperties" := by
      intro hn
      apply hpp
      show (subMap root p o "patternProperties").map _ = none
      rw [kw_eq] at hn
      simp only [subMap, hn, Option.map_none]
    have h2 := hcov.strict hs h1
    show readAdditional root p o ≠ .absent
    cases hk : kw o "additionalProperties" with
    | none => exact absurd hk h2
    | some j =>
      have hk' := hk
      rw [kw_eq] at hk'
      rcases form_at hc hp (name := "additionalProperties") (f := .schema) (by simp [forms]) hk with ⟨b, rfl⟩ | ⟨o', rfl⟩
      · simp only [readAdditional, hk', ne_eq, reduceCtorEq, not_false_eq_true]
      · simp only [readAdditional, hk']
        split <;> simp
  byRef := by
    rw [asserts_iff hc hp dep, types_none hc hp dep]
    exact href

/-- The schemas below a schema object that is read. -/
theorem sub_child {id : Nat} (h : Sub (readNode d root p o dep) id) :
    ∃ q s, id = idOf root q ∧ Place root q s ∧ Child o s := by
  have direct : ∀ {name : String}, name ∈ ["items", "additionalItems", "contains", "additionalProperties", "propertyNames", "not",
      "if", "then", "else"] → ∀ {id}, sub root p o name = some id → ∃ q s, id = idOf root q ∧ Place root q s ∧ Child o s := by
    intro name hn id h
    obtain ⟨⟨s, hk, ha⟩, rfl⟩ := (sub_iff hc hp hn).1 h
    exact ⟨_, s, rfl, direct_place hc hp hn hk ha, .direct hn hk ha⟩
  have listed : ∀ {name : String}, name ∈ ["items", "prefixItems", "oneOf", "anyOf", "allOf"] → ∀ {xs id},
      kw o name = some (.arr xs) → id ∈ schemaItems root (p ++ [.key name.toList]) 0 xs →
      ∃ q s, id = idOf root q ∧ Place root q s ∧ Child o s := by
    intro name hn xs id hk hm
    obtain ⟨i, hi⟩ := List.mem_iff_getElem?.1 hm
    obtain ⟨⟨s, hs⟩, rfl⟩ := (items_get hc hp hn hk).1 hi
    exact ⟨_, s, rfl, list_place hp hn hk hs, .listed hn hk (List.mem_of_getElem? hs)⟩
  have applied : ∀ {name : String}, name ∈ ["prefixItems", "oneOf", "anyOf", "allOf"] → ∀ {l id}, subList root p o name = some l →
      id ∈ l → ∃ q s, id = idOf root q ∧ Place root q s ∧ Child o s := by
    intro name hn l id hl hm
    obtain ⟨xs, hk, rfl⟩ := (subList_iff hc hp hn).1 hl
    exact listed (List.mem_cons_of_mem _ hn) hk hm
  have named : ∀ {name : String}, name ∈ ["properties", "patternProperties", "dependentSchemas", "definitions", "$defs"] → ∀ {k id},
      (k, id) ∈ (subMap root p o name).getD [] → ∃ q s, id = idOf root q ∧ Place root q s ∧ Child o s := by
    intro name hn k id hm
    obtain ⟨ms, s, hk, hs, rfl⟩ := (named_mem hc hp hn).1 hm
    exact ⟨_, s, rfl, map_place hp hn hk hs, .named hn hk hs⟩
  have items_sub : ∀ {id}, itemsSchema d root p o = some id → sub root p o "items" = some id := by
    intro id h
    unfold itemsSchema at h
    split at h
    · split at h
      · cases h
      · exact h
    · exact h
  cases h with
  | all h =>
    have h : readItems d root p o = .all id := h
    unfold readItems at h
    split at h
    · cases h
    · split at h
      · rename_i s hs
        cases h
        exact direct (name := "items") (by simp) (items_sub hs)
      · cases h
  | @pre ps r s h hm =>
    have h : readItems d root p o = .tuple ps r := h
    unfold readItems at h
    split at h
    · rename_i l hl
      cases h
      unfold prefixItems at hl
      split at hl
      · rename_i xs hk
        cases hl
        exact listed (name := "prefixItems") (by simp) hk hm
      · cases hl
      · split at hl
        · rename_i xs hk
          cases hl
          exact listed (name := "items") (by simp) hk hm
        · cases hl
    · split at h <;> cases h
  | @rest ps s h =>
    have h : readItems d root p o = .tuple ps (.schema id) := h
    unfold readItems at h
    split at h
    · simp only [Items.tuple.injEq] at h
      obtain ⟨_, h⟩ := h
      split at h
      · rename_i s hs
        cases h
        rcases Option.or_eq_some_iff.1 hs with hs | ⟨_, hs⟩
        · unfold additionalItemsSchema at hs
          split at hs
          · cases hs
          · split at hs
            · exact direct (name := "additionalItems") (by simp) hs
            · cases hs
        · exact direct (name := "items") (by simp) (items_sub hs)
      · split at h <;> cases h
    · split at h <;> cases h
  | contains h => exact direct (name := "contains") (by simp) h
  | prop h => exact named (name := "properties") (by simp) h
  | @pattern ps r s h hm =>
    obtain ⟨ms, hk, hi⟩ := patterns_iff hc hp h
    obtain ⟨t, s, hs, rfl, rfl⟩ := (hi _ _).1 hm
    exact ⟨_, s, rfl, map_place hp (name := "patternProperties") (by simp) hk hs, .named (name := "patternProperties") (by simp) hk hs⟩
  | additional h =>
    have h : readAdditional root p o = .schema id := h
    unfold readAdditional at h
    split at h
    · cases h
    · split at h
      · rename_i s hs
        cases h
        exact direct (name := "additionalProperties") (by simp) hs
      · cases h
    · cases h
  | names h => exact direct (name := "propertyNames") (by simp) h
  | dependent h => exact named (name := "dependentSchemas") (by simp) h
  | oneOf h hm => exact applied (name := "oneOf") (by simp) h hm
  | anyOf h hm => exact applied (name := "anyOf") (by simp) h hm
  | allOf h hm => exact applied (name := "allOf") (by simp) h hm
  | not h => exact direct (name := "not") (by simp) h
  | ifS h => exact direct (name := "if") (by simp) h
  | thenS h =>
    obtain ⟨_, _, h⟩ := Option.bind_eq_some_iff.1 (show (sub root p o "if").bind (fun _ => sub root p o "then") = some id from h)
    exact direct (name := "then") (by simp) h
  | elseS h =>
    obtain ⟨_, _, h⟩ := Option.bind_eq_some_iff.1 (show (sub root p o "if").bind (fun _ => sub root p o "else") = some id from h)
    exact direct (name := "else") (by simp) h

/-- The schemas below that are applied to the same value. -/
theorem inPlace_applied {id : Nat} (h : Tombi.Spec.Validate.InPlace (readNode d root p o dep) id) :
    ∃ q s, id = idOf root q ∧ Place root q s ∧ Applied o s := by
  have direct : ∀ {name : String}, name ∈ ["not", "if", "then", "else"] → ∀ {id}, sub root p o name = some id →
      ∃ q s, id = idOf root q ∧ Place root q s ∧ Applied o s := by
    intro name hn id h
    have hn' : name ∈ ["items", "additionalItems", "contains", "additionalProperties", "propertyNames", "not", "if", "then", "else"] := by
      simp only [List.mem_cons, List.not_mem_nil, or_false] at hn ⊢
      rcases hn with h | h | h | h <;> simp [h]
    obtain ⟨⟨s, hk, ha⟩, rfl⟩ := (sub_iff hc hp hn').1 h
    exact ⟨_, s, rfl, direct_place hc hp hn' hk ha, .direct hn hk⟩
  have applied : ∀ {name : String}, name ∈ ["oneOf", "anyOf", "allOf"] → ∀ {l id}, subList root p o name = some l →
      id ∈ l → ∃ q s, id = idOf root q ∧ Place root q s ∧ Applied o s := by
    intro name hn l id hl hm
    have hn' : name ∈ ["prefixItems", "oneOf", "anyOf", "allOf"] := List.mem_cons_of_mem _ hn
    obtain ⟨xs, hk, rfl⟩ := (subList_iff hc hp hn').1 hl
    obtain ⟨i, hi⟩ := List.mem_iff_getElem?.1 hm
    obtain ⟨⟨s, hs⟩, rfl⟩ := (items_get hc hp (List.mem_cons_of_mem _ hn') hk).1 hi
    exact ⟨_, s, rfl, list_place hp (List.mem_cons_of_mem _ hn') hk hs, .listed hn hk (List.mem_of_getElem? hs)⟩
  cases h with
  | dependent h =>
    obtain ⟨ms, s, hk, hs, rfl⟩ := (named_mem hc hp (name := "dependentSchemas") (by simp)).1 h
    exact ⟨_, s, rfl, map_place hp (name := "dependentSchemas") (by simp) hk hs, .named hk hs⟩
  | oneOf h hm => exact applied (name := "oneOf") (by simp) h hm
  | anyOf h hm => exact applied (name := "anyOf") (by simp) h hm
  | allOf h hm => exact applied (name := "allOf") (by simp) h hm
  | not h => exact direct (name := "not") (by simp) h
  | ifS h => exact direct (name := "if") (by simp) h
  | thenS h =>
    obtain ⟨_, _, h⟩ := Option.bind_eq_some_iff.1 (show (sub root p o "if").bind (fun _ => sub root p o "then") = some id from h)
    exact direct (name := "then") (by simp) h
  | elseS h =>
    obtain ⟨_, _, h⟩ := Option.bind_eq_some_iff.1 (show (sub root p o "if").bind (fun _ => sub root p o "else") = some id from h)
    exact direct (name := "else") (by simp) h

/-- The alternatives. -/
theorem alternative_alternate {id : Nat} (h : Tombi.Spec.Validate.Alternative (readNode d root p o dep) id) :
    ∃ q s, id = idOf root q ∧ Place root q s ∧ Alternate o s := by
  have applied : ∀ {name : String}, name ∈ ["oneOf", "anyOf"] → ∀ {l id}, subList root p o name = some l →
      id ∈ l → ∃ q s, id = idOf root q ∧ Place root q s ∧ Alternate o s := by
    intro name hn l id hl hm
    have hn' : name ∈ ["prefixItems", "oneOf", "anyOf", "allOf"] := by
      simp only [List.mem_cons, List.not_mem_nil, or_false] at hn ⊢
      rcases hn with h | h <;> simp [h]
    obtain ⟨xs, hk, rfl⟩ := (subList_iff hc hp hn').1 hl
    obtain ⟨i, hi⟩ := List.mem_iff_getElem?.1 hm
    obtain ⟨⟨s, hs⟩, rfl⟩ := (items_get hc hp (List.mem_cons_of_mem _ hn') hk).1 hi
    exact ⟨_, s, rfl, list_place hp (List.mem_cons_of_mem _ hn') hk hs, name, hn, xs, hk, List.mem_of_getElem? hs⟩
  cases h with
  | oneOf h hm => exact applied (name := "oneOf") (by simp) h hm
  | anyOf h hm => exact applied (name := "anyOf") (by simp) h hm

end
end Tombi.SchemaFile
