import Verif.Proofs.SchemaFile
import Verif.Proofs.ValidateMeaning
/-! The meaning of a schema file whose recursion goes down into the value exists, and there is only one. -/
namespace Tombi.SchemaFile
open Tombi.Offer (J Text)
open Tombi.Spec.SchemaFile
open Tombi.Validate (Key Value)
open Tombi.Spec.Validate (Count depth count_mono)
open Tombi.Validate (depth_element depth_entry)

theorem child_of_place {d : Option Dialect} {strict : Bool} {root : Json} (hc : CoveredFile d strict root) {o : Members}
    (hi : Inside root (.obj o)) {name : String} (hn : name ∈ ["contains", "additionalProperties", "propertyNames", "not", "if",
      "then", "else", "additionalItems"]) {s : Json} (hk : kw o name = some s) : Child o s := by
  have hs : IsSchema s := by
    simp only [List.mem_cons, List.not_mem_nil, or_false] at hn
    rcases hn with rfl | rfl | rfl | rfl | rfl | rfl | rfl | rfl
    all_goals exact hc.form o _ .schema s hi (by simp [forms]) hk
  refine .direct (name := name) ?_ hk (not_arr hs)
  simp only [List.mem_cons, List.not_mem_nil, or_false] at hn ⊢
  rcases hn with h | h | h | h | h | h | h | h <;> simp [h]

/-- The value that a schema inside of `o` is applied to. -/
def On (o : Members) (v : Value) (s : Json) (w : Value) : Prop := Applied o s ∧ w = v ∨ depth w < depth v

theorem holds_congr {d : Option Dialect} {strict : Bool} {root : Json} (hc : CoveredFile d strict root) {o : Members}
    (hi : Inside root (.obj o)) {m : Text → Option (Key → Bool)} {H H' : Json → Value → Prop} {v : Value}
    (h : ∀ s w, Child o s → On o v s w → (H s w ↔ H' s w)) (hv : Holds d m H o v) : Holds d m H' o v := by
  have items : ∀ s, kw o "items" = some s → (∀ xs, s ≠ .arr xs) → Child o s := fun s hk hs =>
    .direct (name := "items") (by simp) hk hs
  have listed : ∀ {name : String}, name ∈ ["items", "prefixItems", "oneOf", "anyOf", "allOf"] → ∀ ss s, kw o name = some (.arr ss) →
      s ∈ ss → Child o s := fun hn ss s hk hs => .listed hn hk hs
  have named : ∀ {name : String}, name ∈ ["properties", "patternProperties", "dependentSchemas", "definitions", "$defs"] →
      ∀ ms k s, kw o name = some (.obj ms) → (k, s) ∈ ms → Child o s := fun hn ms k s hk hs => .named hn hk hs
  have direct : ∀ {name : String}, name ∈ ["contains", "additionalProperties", "propertyNames", "not", "if",
      "then", "else", "additionalItems"] → ∀ s, kw o name = some s → Child o s := fun hn s hk => child_of_place hc hi hn hk
  have element : ∀ {xs x s}, v = .arr xs → x ∈ xs → On o v s x := by
    intro xs x s hx hm
    have := depth_element hm
    exact .inr (by rw [hx, depth]; omega)
  have entry : ∀ {kvs k x s}, v = .tbl kvs → (k, x) ∈ kvs → On o v s x := by
    intro kvs k x s hx hm
    have := depth_entry hm
    exact .inr (by rw [hx, depth]; omega)
  refine ⟨hv.type, hv.const, hv.enum, hv.minimum, hv.maximum, hv.exclusiveMinimum, hv.exclusiveMaximum, hv.multipleOf, hv.minLength,
    hv.maxLength, hv.pattern, ?_, ?_, hv.minItems, hv.maxItems, hv.uniqueItems, ?_, ?_, ?_, hv.required, hv.minProperties,
    hv.maxProperties, ?_, hv.dependentRequired, ?_, ?_, ?_, ?_, ?_, ?_, ?_⟩
  · intro xs i x hx hxi
    have e := hv.items xs i x hx hxi
    have hon : ∀ {s}, On o v s x := element hx (List.mem_of_getElem? hxi)
    refine ⟨?_, ?_, ?_, ?_, ?_⟩
    · intro ho ps s hk hs
      exact (h s x (listed (name := "prefixItems") (by simp) ps s hk (List.mem_of_getElem? hs)) hon).1 (e.prefixItems ho ps s hk hs)
    · intro ho hp s hk
      refine (h s x (items s hk ?_) hon).1 (e.items ho hp s hk)
      intro xs e'
      exact (hc.tuple o hi).2 ho xs (by rw [hk, e'])
    · intro ho ps s hk hs
      exact (h s x (listed (name := "items") (by simp) ps s hk (List.mem_of_getElem? hs)) hon).1 (e.olderTuple ho ps s hk hs)
    · intro ho ps s hk hp ha
      exact (h s x (direct (by simp) s ha) hon).1 (e.olderRest ho ps s hk hp ha)
    · intro ho s hk hs
      exact (h s x (items s hk hs) hon).1 (e.olderItems ho s hk hs)
  · intro s xs hk hx
    obtain ⟨c, hcnt, h1, h2, h3⟩ := hv.contains s xs hk hx
    exact ⟨c, count_mono hcnt (fun x hm => h s x (direct (by simp) s hk) (element hx hm)), h1, h2, h3⟩
  · intro ps kvs k x s hk hx hm hs
    exact (h s x (named (name := "properties") (by simp) ps k s hk hs) (entry hx hm)).1 (hv.properties ps kvs k x s hk hx hm hs)
  · intro ps kvs k x r s f hk hx hm hs hf hfk
    exact (h s x (named (name := "patternProperties") (by simp) ps r s hk hs) (entry hx hm)).1
      (hv.patternProperties ps kvs k x r s f hk hx hm hs hf hfk)
  · intro s kvs k x hk hx hm hl
    exact (h s x (direct (by simp) s hk) (entry hx hm)).1 (hv.additionalProperties s kvs k x hk hx hm hl)
  · intro s kvs k hk hx hm
    refine (h s _ (direct (by simp) s hk) (.inr ?_)).1 (hv.propertyNames s kvs k hk hx hm)
    rw [hx, depth, depth]
    omega
  · intro ds kvs k s hk hx hs hm
    exact (h s v (named (name := "dependentSchemas") (by simp) ds k s hk hs) (.inl ⟨.named hk hs, rfl⟩)).1
      (hv.dependentSchemas ds kvs k s hk hx hs hm)
  · intro ms s hk hs
    exact (h s v (listed (name := "allOf") (by simp) ms s hk hs) (.inl ⟨.listed (name := "allOf") (by simp) hk hs, rfl⟩)).1
      (hv.allOf ms s hk hs)
  · intro ms hk
    obtain ⟨s, hs, hv'⟩ := hv.anyOf ms hk
    exact ⟨s, hs, (h s v (listed (name := "anyOf") (by simp) ms s hk hs) (.inl ⟨.listed (name := "anyOf") (by simp) hk hs, rfl⟩)).1 hv'⟩
  · intro ms hk
    obtain ⟨i, s, hs, hv', hu⟩ := hv.oneOf ms hk
    have one : ∀ s ∈ ms, (H s v ↔ H' s v) := fun s hs =>
      h s v (listed (name := "oneOf") (by simp) ms s hk hs) (.inl ⟨.listed (name := "oneOf") (by simp) hk hs, rfl⟩)
    refine ⟨i, s, hs, (one s (List.mem_of_getElem? hs)).1 hv', ?_⟩
    intro j s' hs' hv''
    exact hu j s' hs' ((one s' (List.mem_of_getElem? hs')).2 hv'')
  · intro s hk hs
    exact hv.not s hk ((h s v (direct (by simp) s hk) (.inl ⟨.direct (name := "not") (by simp) hk, rfl⟩)).2 hs)
  · intro c s hk hk' hcv
    exact (h s v (direct (by simp) s hk') (.inl ⟨.direct (name := "then") (by simp) hk', rfl⟩)).1 (hv.thenIf c s hk hk'
      ((h c v (direct (by simp) c hk) (.inl ⟨.direct (name := "if") (by simp) hk, rfl⟩)).2 hcv))
  · intro c s hk hk' hcv
    exact (h s v (direct (by simp) s hk') (.inl ⟨.direct (name := "else") (by simp) hk', rfl⟩)).1 (hv.elseIf c s hk hk' fun hcv' =>
      hcv ((h c v (direct (by simp) c hk) (.inl ⟨.direct (name := "if") (by simp) hk, rfl⟩)).1 hcv'))

section
variable {d : Option Dialect} {strict : Bool} {root : Json} (hc : CoveredFile d strict root) (m : Text → Option (Key → Bool))
variable {rank level : Json → Nat} {bound : Nat} (ha : Grounded root rank level bound)

/-- The meaning of a schema, given that of the schemas below. -/
def unfoldOnce (d : Option Dialect) (m : Text → Option (Key → Bool)) (root : Json) (H : Json → Value → Prop) : Json → Value → Prop
  | .bool b, _ => b = true
  | .obj o, v => ((∀ r, kw o "$ref" ≠ some (.str r)) → Holds d m H o v) ∧
      ∀ r, kw o "$ref" = some (.str r) → ∃ t, target root r = some t ∧ H t v
  | _, _ => True

/-- Unfolded a number of times. -/
def unfolded (d : Option Dialect) (m : Text → Option (Key → Bool)) (root : Json) : Nat → Json → Value → Prop
  | 0 => fun _ _ => True
  | n + 1 => unfoldOnce d m root (unfolded d m root n)

include hc in
theorem target_inside {o : Members} {r : Text} (hi : Inside root (.obj o)) (hr : kw o "$ref" = some (.str r)) {t : Json}
    (ht : target root r = some t) : Inside root t := by
  obtain ⟨name, hname, k, h1, h2, rfl, o', ds, s, hroot, hk, hs⟩ := (hc.ref o r hi hr).definition
  subst hroot
  have hname' : name ∈ ["properties", "patternProperties", "dependentSchemas", "definitions", "$defs"] := by
    simp only [List.mem_cons, List.not_mem_nil, or_false] at hname ⊢
    rcases hname with h | h <;> simp [h]
  obtain ⟨ds', e, hnd⟩ := map_form hc (.here _) hname' hk
  cases e
  rw [target_definition hname h1 h2 hk (lookup_of_mem hnd hs)] at ht
  cases ht
  exact .child (.named hname' hk hs) (.refl _)

/-- What decreases from a schema and a value to the schemas inside and the values that they are applied to. -/
def measureOf (rank : Json → Nat) (bound : Nat) (j : Json) (v : Value) : Nat := depth v * (bound + 1) + rank j

include ha in
theorem measure_child {o : Members} {s : Json} {v w : Value} (hi : Inside root (.obj o)) (hs : Child o s) (h : On o v s w) :
    measureOf rank bound s w < measureOf rank bound (.obj o) v := by
  rcases h with ⟨hp, rfl⟩ | hlt
  · have := ha.applied o s hi hp
    simp only [measureOf]
    omega
  · have hb := ha.bound s (Inside.trans hi (.child hs (.refl _)))
    have : (depth w + 1) * (bound + 1) ≤ depth v * (bound + 1) := Nat.mul_le_mul_right _ hlt
    rw [Nat.add_mul] at this
    simp only [measureOf]
    omega

include hc ha in
theorem unfoldOnce_congr {H H' : Json → Value → Prop} {j : Json} (hi : Inside root j) {v : Value}
    (h : ∀ s w, Inside root s → measureOf rank bound s w < measureOf rank bound j v → (H s w ↔ H' s w))
    (hv : unfoldOnce d m root H j v) : unfoldOnce d m root H' j v := by
  cases j with
  | bool b => exact hv
  | obj o =>
    refine ⟨fun hr => ?_, fun r hr => ?_⟩
    · exact holds_congr hc hi (fun s w hs hon => h s w (Inside.trans hi (.child hs (.refl _))) (measure_child ha hi hs hon)) (hv.1 hr)
    · obtain ⟨t, ht, hv'⟩ := hv.2 r hr
      have := (ha.ref o r t hi hr ht).1
      exact ⟨t, ht, (h t v (target_inside hc hi hr ht) (by simp only [measureOf]; omega)).1 hv'⟩
  | null => trivial
  | int => trivial
  | float => trivial
  | str => trivial
  | arr => trivial

include hc ha in
theorem unfolded_stable : ∀ (n n' : Nat) {j : Json} {v : Value}, Inside root j → measureOf rank bound j v < n →
    measureOf rank bound j v < n' → (unfolded d m root n j v ↔ unfolded d m root n' j v) := by
  intro n
  induction n with
  | zero => intro n' j v _ h; omega
  | succ n ih =>
    intro n' j v hi h h'
    cases n' with
    | zero => omega
    | succ n' =>
      exact ⟨unfoldOnce_congr hc m ha hi fun s w hs hr => ih n' hs (by omega) (by omega),
        unfoldOnce_congr hc m ha hi fun s w hs hr => (ih n' hs (by omega) (by omega)).symm⟩

include hc ha in
theorem meaning_exists : ∃ H, Meaning d m root H := by
  have key : ∀ {j : Json}, Inside root j → ∀ v, unfolded d m root (measureOf rank bound j v + 1) j v ↔
      unfoldOnce d m root (fun j v => unfolded d m root (measureOf rank bound j v + 1) j v) j v := by
    intro j hi v
    exact ⟨unfoldOnce_congr hc m ha hi fun s w hs hr => unfolded_stable hc m ha _ _ hs (by omega) (by omega),
      unfoldOnce_congr hc m ha hi fun s w hs hr => unfolded_stable hc m ha _ _ hs (by omega) (by omega)⟩
  refine ⟨fun j v => unfolded d m root (measureOf rank bound j v + 1) j v, ?_, ?_, ?_⟩
  · intro b v
    exact Iff.rfl
  · intro o hi hr v
    rw [key hi v]
    exact ⟨fun h => h.1 hr, fun h => ⟨fun _ => h, fun r hr' => absurd hr' (hr r)⟩⟩
  · intro o r hi hr v
    rw [key hi v]
    refine ⟨fun h => h.2 r hr, fun h => ⟨fun hn => absurd hr (hn r), ?_⟩⟩
    intro r' hr'
    rw [hr] at hr'
    cases hr'
    exact h

include hc ha in
theorem meaning_unique {H H' : Json → Value → Prop} (hm : Meaning d m root H) (hm' : Meaning d m root H') :
    ∀ (n : Nat) {j : Json} {v : Value}, Inside root j → measureOf rank bound j v < n → (H j v ↔ H' j v) := by
  intro n
  induction n with
  | zero => intro j v _ h; omega
  | succ n ih =>
    intro j v hi h
    rcases hc.schema j hi with ⟨b, rfl⟩ | ⟨o, rfl⟩
    · rw [hm.bool, hm'.bool]
    · by_cases hr : ∃ r, kw o "$ref" = some (.str r)
      · obtain ⟨r, hr⟩ := hr
        have hlt : ∀ t, target root r = some t → measureOf rank bound t v < n := by
          intro t ht
          have := (ha.ref o r t hi hr ht).1
          simp only [measureOf] at h ⊢
          omega
        rw [hm.ref o r hi hr, hm'.ref o r hi hr]
        constructor
        · rintro ⟨t, ht, hv⟩
          exact ⟨t, ht, (ih (target_inside hc hi hr ht) (hlt t ht)).1 hv⟩
        · rintro ⟨t, ht, hv⟩
          exact ⟨t, ht, (ih (target_inside hc hi hr ht) (hlt t ht)).2 hv⟩
      · have hr : ∀ r, kw o "$ref" ≠ some (.str r) := fun r h => hr ⟨r, h⟩
        rw [hm.obj o hi hr, hm'.obj o hi hr]
        have hs : ∀ s w, Child o s → On o v s w → (H s w ↔ H' s w) := fun s w hs hon => by
          have := measure_child ha hi hs hon
          exact ih (Inside.trans hi (.child hs (.refl _))) (by omega)
        exact ⟨holds_congr hc hi hs, holds_congr hc hi fun s w hc' hon => (hs s w hc' hon).symm⟩

end
end Tombi.SchemaFile
