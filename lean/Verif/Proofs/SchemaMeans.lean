import Verif.Proofs.SchemaNode
/-! A schema object that is read has the meaning of its keywords: all keywords together. -/
namespace Tombi.SchemaFile
open Tombi.Offer (J Text typeAssertion asSize tyOfName nameTy)
open Tombi.Spec.SchemaFile
open Tombi.Validate (Key Value Ty Node Env Items Rest Additional)
open Tombi.Spec.Validate (HasType NodeHolds Same Count ItemHolds Declared)

theorem count_congr {A : Type} {P Q : A → Prop} (h : ∀ x, P x ↔ Q x) : ∀ {xs : List A} {c : Nat}, Count P xs c → Count Q xs c
  | _, _, .nil => .nil
  | _, _, .yes hx ht => .yes ((h _).1 hx) (count_congr h ht)
  | _, _, .no hx ht => .no (fun hq => hx ((h _).2 hq)) (count_congr h ht)

theorem usesPrefixItems_iff {d : Option Dialect} : usesPrefixItems d = true ↔ ¬ Older d := by
  rcases d with _ | _ | _ | _ <;> simp [usesPrefixItems, Older]

section
variable {d : Option Dialect} {strict : Bool} {root : Json} (hc : CoveredFile d strict root)
variable {p : Pointer} {o : Members} (hp : Place root p (.obj o)) {H : Json → Value → Prop} (hb : ∀ b v, H (.bool b) v ↔ b = true)
include hc hp

theorem truth_direct {name : String} (hn : name ∈ ["items", "additionalItems", "contains", "additionalProperties", "propertyNames",
    "not", "if", "then", "else"]) {s : Json} (h : kw o name = some s) (ha : ∀ xs, s ≠ .arr xs) (v : Value) :
    truth H root (idOf root (p ++ [.key name.toList])) v ↔ H s v :=
  truth_place (distinct_of_covered hc) (direct_place hc hp hn h ha) v

theorem truth_listed {name : String} (hn : name ∈ ["items", "prefixItems", "oneOf", "anyOf", "allOf"]) {xs : List Json}
    (h : kw o name = some (.arr xs)) {i : Nat} {s : Json} (hs : xs[i]? = some s) (v : Value) :
    truth H root (idOf root (p ++ [.key name.toList] ++ [.index i])) v ↔ H s v :=
  truth_place (distinct_of_covered hc) (list_place hp hn h hs) v

theorem truth_named {name : String} (hn : name ∈ ["properties", "patternProperties", "dependentSchemas", "definitions", "$defs"])
    {ms : Members} (h : kw o name = some (.obj ms)) {k : Text} {s : Json} (hs : (k, s) ∈ ms) (v : Value) :
    truth H root (idOf root (p ++ [.key name.toList] ++ [.key k])) v ↔ H s v :=
  truth_place (distinct_of_covered hc) (map_place hp hn h hs) v

/-! ### elements of arrays -/

theorem items_get {name : String} (hn : name ∈ ["items", "prefixItems", "oneOf", "anyOf", "allOf"]) {xs : List Json}
    (h : kw o name = some (.arr xs)) {i m : Nat} : (schemaItems root (p ++ [.key name.toList]) 0 xs)[i]? = some m ↔
      (∃ s, xs[i]? = some s) ∧ m = idOf root (p ++ [.key name.toList] ++ [.index i]) := by
  rw [schemaItems_get (list_schema hc hp hn h), Option.map_eq_some_iff, Nat.zero_add]
  constructor
  · rintro ⟨s, hs, rfl⟩
    exact ⟨⟨s, hs⟩, rfl⟩
  · rintro ⟨⟨s, hs⟩, rfl⟩
    exact ⟨s, hs, rfl⟩

theorem tuple_iff {name : String} (hn : name ∈ ["items", "prefixItems", "oneOf", "anyOf", "allOf"]) {xs : List Json}
    (h : kw o name = some (.arr xs)) (i : Nat) (x : Value) :
    (∀ m, (schemaItems root (p ++ [.key name.toList]) 0 xs)[i]? = some m → truth H root m x) ↔ ∀ s, xs[i]? = some s → H s x := by
  constructor
  · intro hm s hs
    exact (truth_listed hc hp hn h hs x).1 (hm _ ((items_get hc hp hn h).2 ⟨⟨s, hs⟩, rfl⟩))
  · intro hs m hm
    obtain ⟨⟨s, h1⟩, rfl⟩ := (items_get hc hp hn h).1 hm
    exact (truth_listed hc hp hn h h1 x).2 (hs s h1)

theorem sub_some {name : String} (hn : name ∈ ["items", "additionalItems", "contains", "additionalProperties", "propertyNames",
    "not", "if", "then", "else"]) {s : Json} (h : kw o name = some s) (ha : ∀ xs, s ≠ .arr xs) :
    sub root p o name = some (idOf root (p ++ [.key name.toList])) := (sub_iff hc hp hn).2 ⟨⟨s, h, ha⟩, rfl⟩

omit hc hp in
theorem sub_none {name : String} (h : kw o name = none) : sub root p o name = none := by
  rw [kw_eq] at h
  simp only [sub, h]

include hb in
theorem item_iff (dep : Bool) (i : Nat) (x : Value) :
    ItemHolds (truth H root) (readNode d root p o dep) x i ↔ Element d H o i x := by
  obtain ⟨ht1, ht2⟩ := hc.tuple o (inside_of_place hc hp)
  have hready : ∀ {it : Items}, readItems d root p o = it → (readNode d root p o dep).items = it := fun h => h
  by_cases hold : Older d
  · have hu : usesPrefixItems d = false := by
      cases h : usesPrefixItems d
      · rfl
      · exact absurd hold (usesPrefixItems_iff.1 h)
    have hpre : kw o "prefixItems" = none := Classical.byContradiction fun h => ht1 hold h
    have hpre' := hpre
    rw [kw_eq] at hpre'
    cases hi : kw o "items" with
    | none =>
      have hi' := hi
      rw [kw_eq] at hi'
      have hr : readItems d root p o = .absent := by
        simp only [readItems, prefixItems, hpre', hi', itemsSchema, sub]
      unfold ItemHolds
      rw [hready hr]
      refine ⟨fun _ => ⟨fun h => absurd hold h, fun h => absurd hold h, ?_, ?_, ?_⟩, fun _ => trivial⟩
      · intro _ ps s h
        rw [hi] at h
        cases h
      · intro _ ps s h
        rw [hi] at h
        cases h
      · intro _ s h
        rw [hi] at h
        cases h
    | some j =>
      have hi' := hi
      rw [kw_eq] at hi'
      by_cases ha : ∀ xs, j ≠ .arr xs
      · have hr : readItems d root p o = .all (idOf root (p ++ [.key "items".toList])) := by
          have hs : itemsSchema d root p o = some (idOf root (p ++ [.key "items".toList])) := by
            have := sub_some hc hp (name := "items") (by simp) hi ha
            unfold itemsSchema
            split
            · simp only [hu, Bool.false_and, Bool.false_eq_true, if_false, this]
            · exact this
          have hq : prefixItems root p o = none := by
            simp only [prefixItems, hpre', hi']
            split
            · rename_i xs he
              exact absurd (Option.some.inj he) (ha xs)
            · rfl
          simp only [readItems, hq, hs]
        unfold ItemHolds
        rw [hready hr]
        show truth H root _ x ↔ _
        rw [truth_direct hc hp (name := "items") (by simp) hi ha]
        constructor
        · intro h
          refine ⟨fun h => absurd hold h, fun h => absurd hold h, ?_, ?_, ?_⟩
          · intro _ ps s h1
            rw [hi] at h1
            exact absurd (Option.some.inj h1) (ha ps)
          · intro _ ps s h1
            rw [hi] at h1
            exact absurd (Option.some.inj h1) (ha ps)
          · intro _ s h1 _
            rw [hi] at h1
            cases h1
            exact h
        · intro h
          exact h.olderItems hold j hi ha
      · have ⟨ps, hps⟩ : ∃ ps, j = .arr ps := by
          refine Classical.byContradiction fun h => ha ?_
          intro xs e
          exact h ⟨xs, e⟩
        subst hps
        have hq : prefixItems root p o = some (schemaItems root (p ++ [.key "items".toList]) 0 ps) := by
          simp only [prefixItems, hpre', hi']
        have hs : itemsSchema d root p o = none := by
          simp only [itemsSchema, hi', sub, isSchema, Bool.false_eq_true, if_false]
        have hlen := schemaItems_length (root := root) (p := p ++ [.key "items".toList]) (i := 0)
          (list_schema hc hp (name := "items") (by simp) hi)
        have key : ∀ (rest : Rest), readItems d root p o = .tuple (schemaItems root (p ++ [.key "items".toList]) 0 ps) rest →
            ((match rest with
              | .absent => True
              | .allowed b => b = true
              | .schema s => truth H root s x) ↔ ∀ s, kw o "additionalItems" = some s → H s x) →
            (ItemHolds (truth H root) (readNode d root p o dep) x i ↔ Element d H o i x) := by
          intro rest hr hrest
          unfold ItemHolds
          rw [hready hr]
          show (_ ∧ (_ → _)) ↔ _
          rw [tuple_iff hc hp (name := "items") (by simp) hi, hlen]
          constructor
          · rintro ⟨h1, h2⟩
            refine ⟨fun h => absurd hold h, fun h => absurd hold h, ?_, ?_, ?_⟩
            · intro _ ps' s h3 h4
              rw [hi] at h3
              cases h3
              exact h1 s h4
            · intro _ ps' s h3 h4 h5
              rw [hi] at h3
              cases h3
              exact hrest.1 (h2 h4) s h5
            · intro _ s h3 h4
              rw [hi] at h3
              exact absurd (Option.some.inj h3).symm (h4 ps)
          · intro h
            exact ⟨fun s h1 => h.olderTuple hold ps s hi h1, fun h1 => hrest.2 fun s h2 => h.olderRest hold ps s hi h1 h2⟩
        cases hadd : kw o "additionalItems" with
        | none =>
          have hadd' := hadd
          rw [kw_eq] at hadd'
          refine key .absent ?_ ?_
          · simp only [readItems, hq, hs, additionalItemsSchema, additionalItems, hu, hadd', Bool.false_eq_true, if_false, if_true, Option.none_or, Option.or_none, Option.isSome_some, Option.isSome_none, Bool.true_or, Bool.false_or, Bool.and_true, Bool.and_false, Bool.true_and, Bool.false_and]
          · simp [hadd]
        | some a =>
          have hadd' := hadd
          rw [kw_eq] at hadd'
          rcases form_at hc hp (name := "additionalItems") (f := .schema) (by simp [forms]) hadd with ⟨b, rfl⟩ | ⟨o', rfl⟩
          · refine key (.allowed b) ?_ ?_
            · simp only [readItems, hq, hs, additionalItemsSchema, additionalItems, hu, hadd', Bool.false_eq_true, if_false, if_true, Option.none_or, Option.or_none, Option.isSome_some, Option.isSome_none, Bool.true_or, Bool.false_or, Bool.and_true, Bool.and_false, Bool.true_and, Bool.false_and]
            · simp [hadd, hb]
          · have ha' : ∀ xs, (J.obj o' : Json) ≠ .arr xs := fun xs e => by cases e
            refine key (.schema (idOf root (p ++ [.key "additionalItems".toList]))) ?_ ?_
            · simp only [readItems, hq, hs, additionalItemsSchema, hu, hadd', Bool.false_eq_true, if_false,
                sub_some hc hp (name := "additionalItems") (by simp) hadd ha', Option.some_or]
            · show truth H root _ x ↔ _
              rw [truth_direct hc hp (name := "additionalItems") (by simp) hadd ha', hadd]
              exact ⟨fun h s e => by cases e; exact h, fun h => h _ rfl⟩
  · have hu := usesPrefixItems_iff.2 hold
    have hna := ht2 hold
    cases hpre : kw o "prefixItems" with
    | none =>
      have hpre' := hpre
      rw [kw_eq] at hpre'
      cases hi : kw o "items" with
      | none =>
        have hi' := hi
        rw [kw_eq] at hi'
        have hr : readItems d root p o = .absent := by
          simp only [readItems, prefixItems, hpre', hi', itemsSchema, sub]
        unfold ItemHolds
        rw [hready hr]
        refine ⟨fun _ => ⟨?_, ?_, fun h => absurd h hold, fun h => absurd h hold, fun h => absurd h hold⟩, fun _ => trivial⟩
        · intro _ ps s h
          rw [hpre] at h
          cases h
        · intro _ _ s h
          rw [hi] at h
          cases h
      | some j =>
        have hi' := hi
        rw [kw_eq] at hi'
        have ha : ∀ xs, j ≠ .arr xs := fun xs e => hna xs (by rw [hi, e])
        have hq : prefixItems root p o = none := by
          simp only [prefixItems, hpre', hi']
          split
          · rename_i xs he
            exact absurd (Option.some.inj he) (ha xs)
          · rfl
        have hs : itemsSchema d root p o = some (idOf root (p ++ [.key "items".toList])) := by
          have := sub_some hc hp (name := "items") (by simp) hi ha
          unfold itemsSchema
          split
          · rename_i b he
            simp only [hasPrefixItems, hpre', he, this, Bool.false_eq_true, if_false, if_true, Option.none_or, Option.or_none, Option.isSome_some, Option.isSome_none, Bool.true_or, Bool.false_or, Bool.and_true, Bool.and_false, Bool.true_and, Bool.false_and]
          · exact this
        have hr : readItems d root p o = .all (idOf root (p ++ [.key "items".toList])) := by
          simp only [readItems, hq, hs]
        unfold ItemHolds
        rw [hready hr]
        show truth H root _ x ↔ _
        rw [truth_direct hc hp (name := "items") (by simp) hi ha]
        constructor
        · intro h
          refine ⟨?_, ?_, fun h => absurd h hold, fun h => absurd h hold, fun h => absurd h hold⟩
          · intro _ ps s h1
            rw [hpre] at h1
            cases h1
          · intro _ _ s h1
            rw [hi] at h1
            cases h1
            exact h
        · intro h
          refine h.items hold ?_ j hi
          intro ps h1
          rw [hpre] at h1
          cases h1
    | some q =>
      obtain ⟨ps, rfl⟩ := list_form hc hp (name := "prefixItems") (by simp) hpre
      have hpre' := hpre
      rw [kw_eq] at hpre'
      have hq : prefixItems root p o = some (schemaItems root (p ++ [.key "prefixItems".toList]) 0 ps) := by
        simp only [prefixItems, hpre']
      have hlen := schemaItems_length (root := root) (p := p ++ [.key "prefixItems".toList]) (i := 0)
        (list_schema hc hp (name := "prefixItems") (by simp) hpre)
      have hadds : additionalItemsSchema d root p o = none := by simp [additionalItemsSchema, hu]
      have key : ∀ (rest : Rest), readItems d root p o = .tuple (schemaItems root (p ++ [.key "prefixItems".toList]) 0 ps) rest →
          ((match rest with
            | .absent => True
            | .allowed b => b = true
            | .schema s => truth H root s x) ↔ ∀ s, kw o "items" = some s → H s x) →
          (ItemHolds (truth H root) (readNode d root p o dep) x i ↔ Element d H o i x) := by
        intro rest hr hrest
        unfold ItemHolds
        rw [hready hr]
        show (_ ∧ (_ → _)) ↔ _
        rw [tuple_iff hc hp (name := "prefixItems") (by simp) hpre, hlen]
        constructor
        · rintro ⟨h1, h2⟩
          refine ⟨?_, ?_, fun h => absurd h hold, fun h => absurd h hold, fun h => absurd h hold⟩
          · intro _ ps' s h3 h4
            rw [hpre] at h3
            cases h3
            exact h1 s h4
          · intro _ h3 s h4
            exact hrest.1 (h2 (h3 ps hpre)) s h4
        · intro h
          refine ⟨fun s h1 => h.prefixItems hold ps s hpre h1, fun h1 => hrest.2 fun s h2 => h.items hold ?_ s h2⟩
          intro ps' h3
          rw [hpre] at h3
          cases h3
          exact h1
      cases hi : kw o "items" with
      | none =>
        have hi' := hi
        rw [kw_eq] at hi'
        refine key .absent ?_ ?_
        · simp only [readItems, hq, hadds, itemsSchema, sub, additionalItems, hu, hi', Bool.false_eq_true, if_false, if_true, Option.none_or, Option.or_none, Option.isSome_some, Option.isSome_none, Bool.true_or, Bool.false_or, Bool.and_true, Bool.and_false, Bool.true_and, Bool.false_and]
        · simp [hi]
      | some a =>
        have hi' := hi
        rw [kw_eq] at hi'
        rcases direct_form hc hp (name := "items") (by simp) hi with (⟨b, rfl⟩ | ⟨o', rfl⟩) | ⟨xs, rfl⟩
        · refine key (.allowed b) ?_ ?_
          · simp only [readItems, hq, hadds, itemsSchema, hasPrefixItems, hpre', additionalItems, hu, hi', Bool.false_eq_true, if_false, if_true, Option.none_or, Option.or_none, Option.isSome_some, Option.isSome_none, Bool.true_or, Bool.false_or, Bool.and_true, Bool.and_false, Bool.true_and, Bool.false_and]
          · simp [hi, hb]
        · have ha' : ∀ xs, (J.obj o' : Json) ≠ .arr xs := fun xs e => by cases e
          refine key (.schema (idOf root (p ++ [.key "items".toList]))) ?_ ?_
          · simp only [readItems, hq, hadds, itemsSchema, hi', sub_some hc hp (name := "items") (by simp) hi ha', Option.none_or]
          · show truth H root _ x ↔ _
            rw [truth_direct hc hp (name := "items") (by simp) hi ha', hi]
            exact ⟨fun h s e => by cases e; exact h, fun h => h _ rfl⟩
        · exact absurd hi (hna xs)

end
end Tombi.SchemaFile
