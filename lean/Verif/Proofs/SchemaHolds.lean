import Verif.Proofs.SchemaMeans
/-! A schema object that is read has the meaning of its keywords: the theorem. -/
namespace Tombi.SchemaFile
open Tombi.Offer (J Text typeAssertion asSize tyOfName nameTy)
open Tombi.Spec.SchemaFile
open Tombi.Validate (Key Value Ty Node Env Items Rest Additional)
open Tombi.Spec.Validate (HasType NodeHolds Same Count ItemHolds Declared General Typed Applied)

theorem lookup_map_key {A B : Type} (f : Text → B) : ∀ (ms : List (Text × A)) (k : Text) (b : B),
    (ms.map fun (x : Text × A) => (x.1, f x.1)).lookup k = some b ↔ (∃ s, (k, s) ∈ ms) ∧ b = f k
  | [], k, b => by simp
  | (l, x) :: ms, k, b => by
    have ih := lookup_map_key f ms k b
    by_cases e : k = l
    · subst e
      simp only [List.map_cons, List.lookup, beq_self_eq_true, Option.some.injEq, List.mem_cons, Prod.mk.injEq, true_and]
      constructor
      · intro h
        exact ⟨⟨x, .inl rfl⟩, h.symm⟩
      · rintro ⟨_, h⟩
        exact h.symm
    · have hb : (k == l) = false := by rw [beq_eq_false_iff_ne]; exact e
      simp only [List.map_cons, List.lookup, hb, ih, List.mem_cons, Prod.mk.injEq, e, false_and, false_or]

theorem mem_map_key {A B : Type} (f : Text → B) {ms : List (Text × A)} {k : Text} {b : B} :
    (k, b) ∈ (ms.map fun (x : Text × A) => (x.1, f x.1)) ↔ (∃ s, (k, s) ∈ ms) ∧ b = f k := by
  rw [List.mem_map]
  constructor
  · rintro ⟨⟨k', s⟩, hm, h⟩
    simp only [Prod.mk.injEq] at h
    obtain ⟨rfl, rfl⟩ := h
    exact ⟨⟨s, hm⟩, rfl⟩
  · rintro ⟨⟨s, hm⟩, rfl⟩
    exact ⟨(k, s), hm, rfl⟩

theorem mem_dependentRequired : ∀ {ms : Members} {k : Key} {rs : List Key},
    (k, rs) ∈ dependentRequired ms ↔ ∃ xs, (k, .arr xs) ∈ ms ∧ rs = xs.filterMap asText
  | [], k, rs => by simp [dependentRequired]
  | (l, .arr ys) :: ms, k, rs => by
    rw [dependentRequired, List.mem_cons, mem_dependentRequired]
    constructor
    · rintro (h | ⟨xs, h, rfl⟩)
      · cases h
        exact ⟨ys, List.mem_cons_self, rfl⟩
      · exact ⟨xs, List.mem_cons_of_mem _ h, rfl⟩
    · rintro ⟨xs, h, rfl⟩
      rcases List.mem_cons.1 h with h | h
      · cases h
        exact .inl rfl
      · exact .inr ⟨xs, h, rfl⟩
  | (l, .obj _) :: ms, k, rs | (l, .null) :: ms, k, rs | (l, .bool _) :: ms, k, rs | (l, .int _) :: ms, k, rs
  | (l, .float _) :: ms, k, rs | (l, .str _) :: ms, k, rs => by
    rw [dependentRequired, mem_dependentRequired]
    · simp only [List.mem_cons, Prod.mk.injEq, reduceCtorEq, and_false, false_or]
    · intro k xs e
      cases e

section
variable {d : Option Dialect} {strict : Bool} {root : Json} (hc : CoveredFile d strict root)
variable {p : Pointer} {o : Members} (hp : Place root p (.obj o)) {H : Json → Value → Prop} (hb : ∀ b v, H (.bool b) v ↔ b = true)
include hc hp

theorem named_lookup {name : String} (hn : name ∈ ["properties", "patternProperties", "dependentSchemas", "definitions", "$defs"])
    {k : Text} {id : Nat} : ((subMap root p o name).getD []).lookup k = some id ↔
      ∃ ms s, kw o name = some (.obj ms) ∧ (k, s) ∈ ms ∧ id = idOf root (p ++ [.key name.toList] ++ [.key k]) := by
  cases hm : subMap root p o name with
  | none =>
    simp only [Option.getD_none, List.lookup_nil, reduceCtorEq, false_iff]
    rintro ⟨ms, s, h, _, _⟩
    have := (subMap_iff hc hp hn).2 ⟨ms, h, rfl⟩
    rw [hm] at this
    cases this
  | some l =>
    obtain ⟨ms, h, rfl⟩ := (subMap_iff hc hp hn).1 hm
    simp only [Option.getD_some]
    rw [lookup_map_key (fun k => idOf root (p ++ [Step.key name.toList] ++ [Step.key k]))]
    constructor
    · rintro ⟨⟨s, hs⟩, rfl⟩
      exact ⟨ms, s, h, hs, rfl⟩
    · rintro ⟨ms', s, h', hs, rfl⟩
      rw [h] at h'
      cases h'
      exact ⟨⟨s, hs⟩, rfl⟩

theorem named_mem {name : String} (hn : name ∈ ["properties", "patternProperties", "dependentSchemas", "definitions", "$defs"])
    {k : Text} {id : Nat} : (k, id) ∈ (subMap root p o name).getD [] ↔
      ∃ ms s, kw o name = some (.obj ms) ∧ (k, s) ∈ ms ∧ id = idOf root (p ++ [.key name.toList] ++ [.key k]) := by
  cases hm : subMap root p o name with
  | none =>
    simp only [Option.getD_none, List.not_mem_nil, false_iff]
    rintro ⟨ms, s, h, _, _⟩
    have := (subMap_iff hc hp hn).2 ⟨ms, h, rfl⟩
    rw [hm] at this
    cases this
  | some l =>
    obtain ⟨ms, h, rfl⟩ := (subMap_iff hc hp hn).1 hm
    simp only [Option.getD_some]
    rw [mem_map_key (fun k => idOf root (p ++ [Step.key name.toList] ++ [Step.key k]))]
    constructor
    · rintro ⟨⟨s, hs⟩, rfl⟩
      exact ⟨ms, s, h, hs, rfl⟩
    · rintro ⟨ms', s, h', hs, rfl⟩
      rw [h] at h'
      cases h'
      exact ⟨⟨s, hs⟩, rfl⟩

theorem patterns_iff {dep : Bool} {ps : List (Nat × Nat)} (h : (readNode d root p o dep).patternProperties = some ps) :
    ∃ ms, kw o "patternProperties" = some (.obj ms) ∧ ∀ r id, (r, id) ∈ ps ↔
      ∃ t s, (t, s) ∈ ms ∧ id = idOf root (p ++ [.key "patternProperties".toList] ++ [.key t]) ∧ r = 2 * id + 1 := by
  have h : (subMap root p o "patternProperties").map (·.map fun (_, s) => (2 * s + 1, s)) = some ps := h
  obtain ⟨l, hl, rfl⟩ := Option.map_eq_some_iff.1 h
  obtain ⟨ms, hk, rfl⟩ := (subMap_iff hc hp (name := "patternProperties") (by simp)).1 hl
  refine ⟨ms, hk, ?_⟩
  intro r id
  rw [List.mem_map]
  constructor
  · rintro ⟨⟨t, id'⟩, hm, he⟩
    simp only [Prod.mk.injEq] at he
    obtain ⟨rfl, rfl⟩ := he
    obtain ⟨⟨t', s⟩, hm', he⟩ := List.mem_map.1 hm
    simp only [Prod.mk.injEq] at he
    obtain ⟨rfl, rfl⟩ := he
    exact ⟨_, s, hm', rfl, rfl⟩
  · rintro ⟨t, s, hm, rfl, rfl⟩
    exact ⟨(t, _), List.mem_map.2 ⟨(t, s), hm, rfl⟩, rfl⟩

theorem patterns_of {dep : Bool} {ms : Members} (h : kw o "patternProperties" = some (.obj ms)) :
    ∃ ps, (readNode d root p o dep).patternProperties = some ps ∧ ∀ t s, (t, s) ∈ ms →
      (2 * idOf root (p ++ [.key "patternProperties".toList] ++ [.key t]) + 1,
        idOf root (p ++ [.key "patternProperties".toList] ++ [.key t])) ∈ ps := by
  have hs := (subMap_iff hc hp (name := "patternProperties") (by simp)).2 ⟨ms, h, rfl⟩
  have hr : (readNode d root p o dep).patternProperties = (subMap root p o "patternProperties").map (·.map fun (_, s) => (2 * s + 1, s)) :=
    rfl
  rw [hs, Option.map_some] at hr
  obtain ⟨ms', h', hi⟩ := patterns_iff hc hp hr
  rw [h] at h'
  cases h'
  exact ⟨_, hr, fun t s hm => (hi _ _).2 ⟨t, s, hm, rfl, rfl⟩⟩

variable (L : Libraries) (hops : Nat)

theorem regex_key {ms : Members} (h : kw o "patternProperties" = some (.obj ms)) {t : Text} {s : Json} (hs : (t, s) ∈ ms) :
    (fileEnv L root hops).regex (2 * idOf root (p ++ [.key "patternProperties".toList] ++ [.key t]) + 1) = L.compile t := by
  have hpl := map_place hp (name := "patternProperties") (by simp) h hs
  show (patternText root _).bind L.compile = _
  have e : patternText root (2 * idOf root (p ++ [.key "patternProperties".toList] ++ [.key t]) + 1) = some t := by
    unfold patternText
    rw [show (2 * idOf root (p ++ [.key "patternProperties".toList] ++ [.key t]) + 1) / 2 =
      idOf root (p ++ [.key "patternProperties".toList] ++ [.key t]) by omega, idOf_place hpl]
    simp only []
    rw [if_neg (by omega), List.getLast?_append]
    simp only [List.getLast?_singleton, Option.some_or]
  rw [e, Option.bind_some]

theorem regex_own : (fileEnv L root hops).regex (2 * idOf root p) = ((kw o "pattern").bind asText).bind L.compile := by
  show (patternText root _).bind L.compile = _
  have e : patternText root (2 * idOf root p) = (kw o "pattern").bind asText := by
    unfold patternText
    rw [show (2 * idOf root p) / 2 = idOf root p by omega, idOf_place hp]
    simp only []
    rw [if_pos (by omega), (hp.inside (distinct_of_covered hc)).2]
    rfl
  rw [e]

theorem declared_iff (dep : Bool) (k : Key) :
    Declared (fileEnv L root hops) (readNode d root p o dep) k ↔ Listed L.compile o k := by
  constructor
  · rintro (⟨id, h⟩ | ⟨ps, r, id, f, h, hm, hr, hf⟩)
    · obtain ⟨ms, s, h1, h2, _⟩ := (named_lookup hc hp (name := "properties") (by simp)).1 h
      exact .inl ⟨ms, s, h1, h2⟩
    · obtain ⟨ms, hk, hi⟩ := patterns_iff hc hp h
      obtain ⟨t, s, hs, rfl, rfl⟩ := (hi _ _).1 hm
      rw [regex_key hc hp L hops hk hs] at hr
      exact .inr ⟨ms, t, s, f, hk, hs, hr, hf⟩
  · rintro (⟨ms, s, h1, h2⟩ | ⟨ms, t, s, f, hk, hs, hr, hf⟩)
    · exact .inl ⟨_, (named_lookup hc hp (name := "properties") (by simp)).2 ⟨ms, s, h1, h2, rfl⟩⟩
    · obtain ⟨ps, h, hi⟩ := patterns_of hc hp (dep := dep) hk
      exact .inr ⟨ps, _, _, f, h, hi t s hs, by rw [regex_key hc hp L hops hk hs]; exact hr, hf⟩

/-- A schema below a keyword that is not `items`. -/
theorem only_schema {name : String} (hn : name ∈ ["additionalItems", "contains", "additionalProperties", "propertyNames", "not", "if",
    "then", "else"]) {s : Json} (h : kw o name = some s) : ∀ xs, s ≠ .arr xs := by
  apply not_arr
  simp only [List.mem_cons, List.not_mem_nil, or_false] at hn
  rcases hn with rfl | rfl | rfl | rfl | rfl | rfl | rfl | rfl
  all_goals exact form_at hc hp (f := .schema) (by simp [forms]) h

theorem sub_means {name : String} (hn : name ∈ ["contains", "propertyNames", "not", "if", "then", "else"]) {s : Json}
    (h : kw o name = some s) : sub root p o name = some (idOf root (p ++ [.key name.toList])) ∧
      ∀ v, truth H root (idOf root (p ++ [.key name.toList])) v ↔ H s v := by
  have h1 : name ∈ ["additionalItems", "contains", "additionalProperties", "propertyNames", "not", "if", "then", "else"] := by
    simp only [List.mem_cons, List.not_mem_nil, or_false] at hn ⊢
    rcases hn with h | h | h | h | h | h <;> simp [h]
  have h2 := List.mem_cons_of_mem "items" h1
  exact ⟨sub_some hc hp h2 h (only_schema hc hp h1 h), truth_direct hc hp h2 h (only_schema hc hp h1 h)⟩

theorem sub_from {name : String} (hn : name ∈ ["contains", "propertyNames", "not", "if", "then", "else"]) {id : Nat}
    (h : sub root p o name = some id) : ∃ s, kw o name = some s ∧ ∀ v, truth H root id v ↔ H s v := by
  cases hk : kw o name with
  | none =>
    rw [sub_none hk] at h
    cases h
  | some s =>
    obtain ⟨h1, h2⟩ := sub_means hc hp (H := H) hn hk
    rw [h1] at h
    cases h
    exact ⟨s, rfl, h2⟩

theorem list_from {name : String} (hn : name ∈ ["oneOf", "anyOf", "allOf"]) {l : List Nat} (h : subList root p o name = some l) :
    ∃ xs, kw o name = some (.arr xs) ∧ ∀ (i m : Nat), l[i]? = some m → ∃ s, xs[i]? = some s ∧ ∀ v, truth H root m v ↔ H s v := by
  have h1 : name ∈ ["prefixItems", "oneOf", "anyOf", "allOf"] := List.mem_cons_of_mem _ hn
  have h2 : name ∈ ["items", "prefixItems", "oneOf", "anyOf", "allOf"] := List.mem_cons_of_mem _ h1
  obtain ⟨xs, hk, rfl⟩ := (subList_iff hc hp h1).1 h
  refine ⟨xs, hk, ?_⟩
  intro i m hm
  obtain ⟨⟨s, hs⟩, rfl⟩ := (items_get hc hp h2 hk).1 hm
  exact ⟨s, hs, truth_listed hc hp h2 hk hs⟩

theorem list_means {name : String} (hn : name ∈ ["oneOf", "anyOf", "allOf"]) {xs : List Json} (h : kw o name = some (.arr xs)) :
    ∃ l, subList root p o name = some l ∧
      (∀ (i : Nat) s, xs[i]? = some s → ∃ m, l[i]? = some m ∧ ∀ v, truth H root m v ↔ H s v) ∧
      ∀ (i m : Nat), l[i]? = some m → ∃ s, xs[i]? = some s ∧ ∀ v, truth H root m v ↔ H s v := by
  have h1 : name ∈ ["prefixItems", "oneOf", "anyOf", "allOf"] := List.mem_cons_of_mem _ hn
  have h2 : name ∈ ["items", "prefixItems", "oneOf", "anyOf", "allOf"] := List.mem_cons_of_mem _ h1
  have hl := (subList_iff hc hp h1).2 ⟨xs, h, rfl⟩
  refine ⟨_, hl, ?_, ?_⟩
  · intro i s hs
    exact ⟨_, (items_get hc hp h2 h).2 ⟨⟨s, hs⟩, rfl⟩, truth_listed hc hp h2 h hs⟩
  · obtain ⟨xs', h', hx⟩ := list_from hc hp (H := H) hn hl
    rw [h] at h'
    cases h'
    exact hx

theorem general_iff (dep : Bool) (v : Value) : General (readNode d root p o dep) v ↔
    (∀ t, kw o "type" = some t → ∃ name, (t = .str name ∨ ∃ names, t = .arr names ∧ .str name ∈ names) ∧ OfType name v) ∧
    (∀ c, kw o "const" = some c → Equals c v) ∧ ∀ cs, kw o "enum" = some (.arr cs) → ∃ c ∈ cs, Equals c v := by
  constructor
  · intro h
    refine ⟨?_, ?_, ?_⟩
    · intro t ht
      obtain ⟨ts, h1, h2⟩ := types_of_form (form_at hc hp (name := "type") (f := .types) (by simp [forms]) ht)
      obtain ⟨ty, hty, hv⟩ := h.types ts (by rw [← ht] at h1; exact h1)
      exact ⟨_, (h2 ty).1 hty, ofType_iff.2 ⟨ty, rfl, hv⟩⟩
    · intro c hk
      rw [equals_iff]
      exact h.const (literal c) (congrArg (Option.map literal) hk)
    · intro cs hk
      have he : (readNode d root p o dep).enum = some (cs.map literal) := by
        show (match kw o "enum" with
          | some (.arr xs) => some (xs.map literal)
          | _ => none) = _
        rw [hk]
      obtain ⟨w, hw, hs⟩ := h.enum _ he
      obtain ⟨c, hc1, hc2⟩ := List.mem_map.1 hw
      exact ⟨c, hc1, (equals_iff c v).2 ⟨w, hc2, hs⟩⟩
  · rintro ⟨h1, h2, h3⟩
    refine ⟨?_, ?_, ?_⟩
    · intro ts hts
      cases ht : kw o "type" with
      | none =>
        have : typeAssertion (kw o "type") = some ts := hts
        rw [ht] at this
        cases this
      | some t =>
        obtain ⟨ts', h4, h5⟩ := types_of_form (form_at hc hp (name := "type") (f := .types) (by simp [forms]) ht)
        have : typeAssertion (kw o "type") = some ts := hts
        rw [ht, h4] at this
        cases this
        obtain ⟨name, hn, hv⟩ := h1 t ht
        obtain ⟨ty, rfl, hv'⟩ := ofType_iff.1 hv
        exact ⟨ty, (h5 ty).2 hn, hv'⟩
    · intro l hl
      obtain ⟨c, hk, rfl⟩ := Option.map_eq_some_iff.1 (show (kw o "const").map literal = some l from hl)
      exact (equals_iff c v).1 (h2 c hk)
    · intro ls hl
      have hl : (match kw o "enum" with
          | some (.arr xs) => some (xs.map literal)
          | _ => none) = some ls := hl
      split at hl
      · rename_i xs hk
        cases hl
        obtain ⟨c, hc1, hc2⟩ := h3 xs hk
        obtain ⟨w, hw, hs⟩ := (equals_iff c v).1 hc2
        exact ⟨w, List.mem_map.2 ⟨c, hc1, hw⟩, hs⟩
      · cases hl

include hb in
theorem additional_iff (dep : Bool) (x : Value) : (match (readNode d root p o dep).additional with
    | .absent => True
    | .allowed b => b = true
    | .schema s => truth H root s x) ↔ ∀ s, kw o "additionalProperties" = some s → H s x := by
  have key : ∀ a, readAdditional root p o = a → ((match a with
    | .absent => True
    | .allowed b => b = true
    | .schema s => truth H root s x) ↔ ∀ s, kw o "additionalProperties" = some s → H s x) →
    ((match (readNode d root p o dep).additional with
    | .absent => True
    | .allowed b => b = true
    | .schema s => truth H root s x) ↔ ∀ s, kw o "additionalProperties" = some s → H s x) := by
    rintro a rfl h
    exact h
  cases hk : kw o "additionalProperties" with
  | none =>
    have hk' := hk
    rw [kw_eq] at hk'
    rw [← hk]
    refine key .absent ?_ ?_
    · simp only [readAdditional, hk']
    · simp [hk]
  | some j =>
    have hk' := hk
    rw [kw_eq] at hk'
    rw [← hk]
    rcases form_at hc hp (name := "additionalProperties") (f := .schema) (by simp [forms]) hk with ⟨b, rfl⟩ | ⟨o', rfl⟩
    · refine key (.allowed b) ?_ ?_
      · simp only [readAdditional, hk']
      · simp [hk, hb]
    · have ha : ∀ xs, (J.obj o' : Json) ≠ .arr xs := fun xs e => by cases e
      refine key (.schema (idOf root (p ++ [.key "additionalProperties".toList]))) ?_ ?_
      · simp only [readAdditional, hk', sub_some hc hp (name := "additionalProperties") (by simp) hk ha]
      · show truth H root _ x ↔ _
        rw [truth_direct hc hp (name := "additionalProperties") (by simp) hk ha, hk]
        exact ⟨fun h s e => by cases e; exact h, fun h => h _ rfl⟩

omit hc hp in
theorem uniqueItems_iff (dep : Bool) : (readNode d root p o dep).uniqueItems = true ↔ kw o "uniqueItems" = some (.bool true) := by
  show isTrue o "uniqueItems" = true ↔ _
  rw [isTrue, kw_eq]
  split
  · rename_i b h
    rw [h]
    simp
  · rename_i h
    simp only [Bool.false_eq_true, false_iff]
    intro h'
    exact h _ h'

omit hc hp in
theorem required_iff (dep : Bool) (r : Key) : r ∈ (readNode d root p o dep).required ↔
    ∃ rs, kw o "required" = some (.arr rs) ∧ .str r ∈ rs := by
  show r ∈ ((kw o "required").bind asTexts).getD [] ↔ _
  cases hk : kw o "required" with
  | none => simp
  | some j =>
    cases j with
    | arr xs => simp [asTexts, mem_texts, -List.mem_filterMap]
    | _ => simp [asTexts]

omit hc hp in
theorem dependents_iff (dep : Bool) (k : Key) (rs : List Key) : (k, rs) ∈ (readNode d root p o dep).dependentRequired ↔
    ∃ ds xs, kw o "dependentRequired" = some (.obj ds) ∧ (k, .arr xs) ∈ ds ∧ rs = xs.filterMap asText := by
  show (k, rs) ∈ (match kw o "dependentRequired" with
    | some (.obj ms) => dependentRequired ms
    | _ => []) ↔ _
  split
  · rename_i ms h
    rw [mem_dependentRequired, h]
    constructor
    · rintro ⟨xs, h1, h2⟩
      exact ⟨ms, xs, rfl, h1, h2⟩
    · rintro ⟨ds, xs, h0, h1, h2⟩
      cases h0
      exact ⟨xs, h1, h2⟩
  · rename_i h
    simp only [List.not_mem_nil, false_iff]
    rintro ⟨ds, xs, h0, _⟩
    exact h ds h0

end
end Tombi.SchemaFile
