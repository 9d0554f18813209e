import Verif.Proofs.SchemaCheck
import Verif.Props.Validate
/-! # C83: a document is reported exactly if it does not follow the schema file

The schema is given as the JSON file that a user writes, `Tombi.Spec.SchemaFile` says what its keywords mean. -/
namespace Tombi.SchemaFile
open Tombi.Offer (J Text)
open Tombi.Validate (Key Value Ctx Rule plainCtx validateAt)
open Tombi.Spec.Validate (Plain Advisory depth)
open Tombi.Spec.SchemaFile

theorem inDialect (root : Json) : InDialect root (dialectOf root) := by
  have key : ∀ (uri : Text) (x : Dialect), dialectOfUri uri = some x ↔ ∃ scheme tail, scheme ∈ ["http://", "https://"] ∧
      tail ∈ ["", "#"] ∧ uri = (scheme ++ page x ++ tail).toList := by
    intro uri x
    constructor
    · intro h
      unfold dialectOfUri at h
      obtain ⟨⟨path, d⟩, hm, hs⟩ := List.exists_of_findSome?_eq_some h
      simp only [] at hs
      split at hs
      · next hu =>
        cases hs
        obtain ⟨scheme, h1, h2⟩ := List.mem_flatMap.1 hu
        have hp : path = page x := by
          simp only [List.mem_cons, Prod.mk.injEq, List.not_mem_nil, or_false] at hm
          rcases hm with ⟨rfl, rfl⟩ | ⟨rfl, rfl⟩ | ⟨rfl, rfl⟩ <;> rfl
        simp only [List.mem_cons, List.not_mem_nil, or_false] at h2
        rcases h2 with h2 | h2
        · exact ⟨scheme, "", h1, by simp, by rw [h2, hp, String.append_empty]⟩
        · exact ⟨scheme, "#", h1, by simp, by rw [h2, hp]⟩
      · cases hs
    · rintro ⟨scheme, tail, h1, h2, h3⟩
      simp only [List.mem_cons, List.not_mem_nil, or_false] at h1 h2
      rw [h3]
      rcases h1 with rfl | rfl <;> rcases h2 with rfl | rfl <;> cases x <;> decide +kernel
  intro x
  cases root with
  | obj o =>
    unfold dialectOf
    constructor
    · intro h
      simp only [] at h
      split at h
      · next uri hu =>
        obtain ⟨scheme, tail, h1, h2, h3⟩ := (key uri x).1 h
        exact ⟨o, scheme, tail, rfl, h1, h2, by rw [← h3]; exact hu⟩
      · cases h
    · rintro ⟨o', scheme, tail, h0, h1, h2, h3⟩
      cases h0
      have h3' : o.lookup "$schema".toList = some (.str (scheme ++ page x ++ tail).toList) := h3
      simp only [h3']
      exact (key _ x).2 ⟨scheme, tail, h1, h2, rfl⟩
  | _ =>
    constructor
    · intro h; cases h
    · rintro ⟨o', scheme, tail, h0, -⟩; cases h0

theorem dialect_unique {root : Json} {d d' : Option Dialect} (h : InDialect root d) (h' : InDialect root d') : d = d' := by
  cases d with
  | none =>
    cases d' with
    | none => rfl
    | some x => exact absurd ((h x).2 ((h' x).1 rfl)) (by simp)
  | some x => exact ((h' x).2 ((h x).1 rfl)).symm

/-- For every file of covered schemas whose recursion goes down into the value, and not through alternatives, and every plain document: the validator finds no violation exactly if the
document is valid against the file. `H` is the meaning of the file: it exists and there is only one (`C83_meaning_exists_unique`).
Missing: the schemas that `CoveredFile` excludes (fractional bounds, `format`, `dependencies`, `unevaluated…`, references to other
places than definitions, keywords beside `$ref`, and the combinations of `Covered`), recursion through `oneOf` and `anyOf`
(`C83_recursive_rejected_false`), floats and date-times. -/
theorem C83_file_outcome_is_meaning_partial (L : Libraries) {root : Json} {d : Option Dialect} (hd : InDialect root d) {strict : Bool}
    (hc : CoveredFile d strict root) {rank level : Json → Nat} {bound : Nat} (ha : Grounded root rank level bound)
    {H : Json → Value → Prop} (hm : Meaning d L.compile root H)
    (C : Ctx) {hops fuel : Nat} (hh : bound < hops) (v : Value) (hf : depth v * (bound + 1) + rank root < fuel)
    (hv : Plain (fileEnv L root hops) v) :
    (validateFile L root hops C fuel strict v).failed = false ↔ H root v := by
  rw [dialect_unique hd (inDialect root)] at hc hm
  have hp : Place root [] root := .here _
  rw [← truth_place (H := H) (distinct_of_covered hc) hp v]
  exact Tombi.Validate.C39_recursive_partial (file_meaning hc L hm ha hh) (file_guarded hc L hm ha hh) strict
    (file_supported hc L hm ha hh) C [] v hv (idOf root []) fuel (by rw [rankOf_place hc hp]; exact hf)

/-- The same for what is reported: if no rule is switched off, something other than a lint is reported exactly if the document is
not valid against the file. -/
theorem C83_reported_iff_invalid_partial (L : Libraries) {root : Json} {d : Option Dialect} (hd : InDialect root d) {strict : Bool}
    (hc : CoveredFile d strict root) {rank level : Json → Nat} {bound : Nat} (ha : Grounded root rank level bound)
    {H : Json → Value → Prop} (hm : Meaning d L.compile root H)
    (C : Ctx) (hC : ∀ p r, ¬ Advisory r → C.level p r ≠ .off) (hL : ∀ p, ∀ d ∈ C.lint p, Advisory d.rule)
    {hops fuel : Nat} (hh : bound < hops) (v : Value) (hf : depth v * (bound + 1) + rank root < fuel)
    (hv : Plain (fileEnv L root hops) v) :
    H root v ↔ ∀ d ∈ (validateFile L root hops C fuel strict v).diags, Advisory d.rule := by
  rw [dialect_unique hd (inDialect root)] at hc hm
  have hp : Place root [] root := .here _
  rw [← truth_place (H := H) (distinct_of_covered hc) hp v]
  exact Tombi.Validate.C58_recursive_partial (file_meaning hc L hm ha hh) (file_guarded hc L hm ha hh) strict
    (file_supported hc L hm ha hh) C hC hL [] v hv (idOf root []) fuel (by rw [rankOf_place hc hp]; exact hf)

/-- A file whose recursion goes down into the value has a meaning, and only one. -/
theorem C83_meaning_exists_unique {d : Option Dialect} (m : Text → Option (Key → Bool)) {root : Json} {strict : Bool}
    (hc : CoveredFile d strict root) {rank level : Json → Nat} {bound : Nat} (ha : Grounded root rank level bound) :
    (∃ H, Meaning d m root H) ∧
    ∀ H H', Meaning d m root H → Meaning d m root H' → ∀ j, Inside root j → ∀ v, H j v ↔ H' j v :=
  ⟨meaning_exists hc m ha, fun _ _ hm hm' j hi v => meaning_unique hc m ha hm hm' (measureOf rank bound j v + 1) hi (by omega)⟩

/-! ### examples -/

/-- A text in a file. -/
def str (s : String) : Json := .str s.toList

/-- An object of a file. -/
def obj (o : List (String × Json)) : Json := .obj (o.map fun (k, j) => (k.toList, j))

/-- Of the regular expressions only one is known, every character is a grapheme. -/
def sampleLibraries : Libraries where
  compile r := if r = "^x-".toList then some fun s => s.take 2 == "x-".toList else none
  graphemes s := s.length
  floatMultiple i m := decide (m ∣ i)

/-- A file with definitions, a reference to a reference, a tuple and `patternProperties`. -/
def sampleFile : Json := obj [
  ("$schema", str "http://json-schema.org/draft-07/schema#"),
  ("title", str "settings of a server"),
  ("type", str "object"),
  ("required", .arr [str "port"]),
  ("properties", obj [
    ("port", obj [("$ref", str "#/definitions/port")]),
    ("level", obj [("type", str "string"), ("enum", .arr [str "info", str "debug"])]),
    ("range", obj [("type", str "array"),
      ("items", .arr [obj [("type", str "integer")], obj [("$ref", str "#/definitions/positive")]]),
      ("additionalItems", .bool false), ("uniqueItems", .bool true)]),
    ("mode", obj [("oneOf", .arr [obj [("type", str "boolean")], obj [("$ref", str "#/definitions/positive")]])])]),
  ("patternProperties", obj [("^x-", .bool true)]),
  ("additionalProperties", .bool false),
  ("definitions", obj [
    ("port", obj [("$ref", str "#/definitions/positive"), ("description", str "a port")]),
    ("positive", obj [("type", str "integer"), ("minimum", .int 1), ("maximum", .int 65535)])])]

/-- The hypotheses are met, by a file with references and nested schemas. -/
example : CoveredFile (dialectOf sampleFile) true sampleFile ∧ Grounded sampleFile (height sampleFile 9) (steps sampleFile 9) 9 ∧
    InDialect sampleFile (dialectOf sampleFile) ∧ dialectOf sampleFile = some .draft07 :=
  ⟨fileCheck_sound (by decide +kernel), groundedCheck_sound (n := 9) (by decide +kernel), inDialect _, by decide +kernel⟩

/-- A table of a document. -/
def tbl (kvs : List (String × Value)) : Value := .tbl (kvs.map fun (k, v) => (k.toList, v))

/-- A plain document that follows it, … -/
example : Plain (fileEnv sampleLibraries sampleFile 9)
      (tbl [("port", .int 80), ("range", .arr [.int 0, .int 5]), ("mode", .bool true), ("x-a", .str [])]) ∧
    (validateFile sampleLibraries sampleFile 9 plainCtx 9 true
      (tbl [("port", .int 80), ("range", .arr [.int 0, .int 5]), ("mode", .bool true), ("x-a", .str [])])).failed = false := by
  refine ⟨?_, by decide +kernel⟩
  refine ⟨by decide, fun k _ => rfl, ?_⟩
  exact ⟨show (80 : Int).natAbs ≤ 2 ^ 53 by decide, ⟨show (0 : Int).natAbs ≤ 2 ^ 53 by decide, show (5 : Int).natAbs ≤ 2 ^ 53 by decide,
    trivial⟩, trivial, rfl, trivial⟩

/-- … and ones that do not: a port that is too high, one more element, another key, a missing port. -/
example : (validateFile sampleLibraries sampleFile 9 plainCtx 9 true (tbl [("port", .int 65536)])).failed = true ∧
    (validateFile sampleLibraries sampleFile 9 plainCtx 9 true
      (tbl [("port", .int 1), ("range", .arr [.int 0, .int 5, .int 6])])).failed = true ∧
    (validateFile sampleLibraries sampleFile 9 plainCtx 9 true (tbl [("port", .int 1), ("ports", .int 1)])).failed = true ∧
    (validateFile sampleLibraries sampleFile 9 plainCtx 9 true (tbl [("level", .str "info".toList)])).failed = true := by
  decide +kernel

/-- A file of the dialect 2020-12, with `$defs`, `prefixItems`, `contains`, `dependentRequired` and `if`. -/
def newerFile : Json := obj [
  ("$schema", str "https://json-schema.org/draft/2020-12/schema"),
  ("type", str "object"),
  ("properties", obj [
    ("pair", obj [("type", str "array"), ("prefixItems", .arr [obj [("type", str "string")]]),
      ("items", obj [("$ref", str "#/$defs/even")])]),
    ("list", obj [("type", str "array"), ("contains", obj [("const", .int 1)]), ("maxContains", .int 2)])]),
  ("dependentRequired", obj [("pair", .arr [str "list"])]),
  ("if", obj [("required", .arr [str "list"])]),
  ("then", obj [("minProperties", .int 2)]),
  ("$defs", obj [("even", obj [("type", str "integer"), ("multipleOf", .int 2)])])]

/-- The hypotheses are met. -/
example : CoveredFile (dialectOf newerFile) true newerFile ∧ Grounded newerFile (height newerFile 9) (steps newerFile 9) 9 ∧
    dialectOf newerFile = some .draft2020 :=
  ⟨fileCheck_sound (by decide +kernel), groundedCheck_sound (n := 9) (by decide +kernel), by decide +kernel⟩

example : (validateFile sampleLibraries newerFile 9 plainCtx 9 false
      (tbl [("pair", .arr [.str [], .int 2]), ("list", .arr [.int 0, .int 1])])).failed = false ∧
    (validateFile sampleLibraries newerFile 9 plainCtx 9 false
      (tbl [("pair", .arr [.str [], .int 3]), ("list", .arr [.int 0, .int 1])])).failed = true ∧
    (validateFile sampleLibraries newerFile 9 plainCtx 9 false (tbl [("list", .arr [.int 1])])).failed = true ∧
    (validateFile sampleLibraries newerFile 9 plainCtx 9 false (tbl [("pair", .arr []), ("other", .int 1)])).failed = true := by
  decide +kernel

/-- A file with recursion: a tree has a value, which is a text or a positive integer, and children. -/
def treeFile : Json := obj [
  ("type", str "object"),
  ("properties", obj [("tree", obj [("$ref", str "#/$defs/tree")])]),
  ("$defs", obj [
    ("tree", obj [("type", str "object"),
      ("properties", obj [
        ("value", obj [("$ref", str "#/$defs/value")]),
        ("children", obj [("type", str "array"), ("items", obj [("$ref", str "#/$defs/tree")])])]),
      ("required", .arr [str "value"]), ("additionalProperties", .bool false)]),
    ("value", obj [("anyOf", .arr [obj [("type", str "string")], obj [("type", str "integer"), ("minimum", .int 1)]])])])]

/-- The hypotheses are met. -/
example : CoveredFile (dialectOf treeFile) true treeFile ∧ Grounded treeFile (height treeFile 9) (steps treeFile 9) 9 :=
  ⟨fileCheck_sound (by decide +kernel), groundedCheck_sound (n := 9) (by decide +kernel)⟩

/-- A tree in a tree in a tree: it is valid, with another key or without a value it is not. -/
example : (validateFile sampleLibraries treeFile 10 plainCtx 100 true (tbl [("tree", tbl [("value", .int 1), ("children", .arr
      [tbl [("value", .str []), ("children", .arr [tbl [("value", .int 2)]])]])])])).failed = false ∧
    (validateFile sampleLibraries treeFile 10 plainCtx 100 true (tbl [("tree", tbl [("value", .int 1), ("children", .arr
      [tbl [("value", .str []), ("children", .arr [tbl [("value", .int 2), ("a", .int 1)]])]])])])).failed = true ∧
    (validateFile sampleLibraries treeFile 10 plainCtx 100 true (tbl [("tree", tbl [("value", .int 1), ("children", .arr
      [tbl [("value", .str []), ("children", .arr [tbl []])]])])])).failed = true := by
  decide +kernel

/-! ### where the validator does not follow the file -/

/-- False: a bound that is a fraction is dropped for integers. With `{"type": "integer", "minimum": 1.5}` the value 1 is accepted. -/
theorem C83_fraction_false : ∃ (root : Json) (v : Value),
    (∀ L : Libraries, ∀ H, Meaning (dialectOf root) L.compile root H → ¬ H root v) ∧
    (validateFile sampleLibraries root 9 plainCtx 9 true v).failed = false := by
  refine ⟨obj [("type", str "integer"), ("minimum", .float ⟨15, 1⟩)], .int 1, ?_, by decide +kernel⟩
  intro L H hm h
  have h := (hm.obj _ (.refl _) (fun r h => nomatch (show none = some (J.str r) from by rw [← h]; decide +kernel)) _).1 h
  have := h.minimum (.float ⟨15, 1⟩) 1 rfl rfl
  exact absurd (show (15 : Int) ≤ 1 * 10 ^ 1 from this) (by decide)

/-- False: the name of a definition is compared without decoding. `#/definitions/a~1b` is the definition `a/b`; if there is also one
with the name `a~1b`, that one is used. -/
theorem C83_escaped_name_false : ∃ (root : Json) (v : Value),
    (∀ L : Libraries, ∀ H, Meaning (dialectOf root) L.compile root H → ¬ H root v) ∧
    (validateFile sampleLibraries root 9 plainCtx 9 true v).failed = false := by
  refine ⟨obj [("$ref", str "#/definitions/a~1b"),
    ("definitions", obj [("a/b", .bool false), ("a~1b", .bool true)])], .int 1, ?_, by decide +kernel⟩
  intro L H hm h
  obtain ⟨t, ht, h⟩ := (hm.ref _ "#/definitions/a~1b".toList (.refl _) rfl _).1 h
  have e : t = .bool false := by
    have : some t = some (J.bool false) := ht.symm.trans (by rfl)
    exact Option.some.inj this
  rw [e, hm.bool] at h
  cases h

/-- False: a property whose schema has `"x-taplo": {"hidden": true}` counts as not declared, and is reported with
`"additionalProperties": false`. -/
theorem C83_hidden_false : ∃ (root : Json) (v : Value),
    (∀ L : Libraries, ∀ H, Meaning (dialectOf root) L.compile root H → H root v) ∧
    (validateFile sampleLibraries root 9 plainCtx 9 true v).failed = true := by
  refine ⟨obj [("type", str "object"), ("properties", obj [("a", obj [("x-taplo", obj [("hidden", .bool true)])])]),
    ("additionalProperties", .bool false)], tbl [("a", .int 1)], ?_, by decide +kernel⟩
  intro L H hm
  have empty : ∀ v, H (obj [("x-taplo", obj [("hidden", .bool true)])]) v := by
    intro v
    refine (hm.obj _ (.child (.named (name := "properties") (k := "a".toList) (by simp) rfl (List.mem_singleton.2 rfl)) (.refl _))
      (fun r h => nomatch (show none = some (J.str r) from h)) v).2 ?_
    refine holds_of_few (by decide +kernel) ?_ ?_ ?_ ?_ ?_
    · intro t h
      exact nomatch (show none = some t from h)
    · intro ps _ _ _ _ h
      exact nomatch (show none = some (J.obj ps) from h)
    · intro s _ _ _ h
      exact nomatch (show none = some s from h)
    · intro ms h
      exact nomatch (show none = some (J.arr ms) from h)
    · intro _ _ s _ _ h
      exact nomatch (show none = some s from h)
  refine (hm.obj _ (.refl _) (fun r h => nomatch (show none = some (J.str r) from h)) _).2 ?_
  refine holds_of_few (by decide +kernel) ?_ ?_ ?_ ?_ ?_
  · intro t h
    have e : str "object" = t := Option.some.inj (show some (str "object") = some t from h)
    exact ⟨"object".toList, .inl e.symm, rfl⟩
  · intro ps kvs k x s h hv hx hs
    have e : [("a".toList, obj [("x-taplo", obj [("hidden", .bool true)])])] = ps :=
      J.obj.inj (Option.some.inj (show some (J.obj [("a".toList, obj [("x-taplo", obj [("hidden", .bool true)])])]) = some (.obj ps) from h))
    subst e
    have hs := List.mem_singleton.1 hs
    cases hs
    exact empty x
  · intro s kvs k x h hv hx hl
    have e : [("a".toList, Value.int 1)] = kvs := Value.tbl.inj hv
    subst e
    have hx := List.mem_singleton.1 hx
    cases hx
    exact absurd (.inl ⟨_, _, rfl, List.mem_singleton.2 rfl⟩) hl
  · intro ms h
    exact nomatch (show none = some (J.arr ms) from h)
  · intro _ _ s _ _ h
    exact nomatch (show none = some s from h)

/-- False: with recursion through `anyOf`, a valid document is reported. `e` is a text, or a list of such values; `e = [["x"]]` is one. -/
theorem C83_recursive_rejected_false : ∃ (root : Json) (v : Value),
    (∀ L : Libraries, ∀ H, Meaning (dialectOf root) L.compile root H → H root v) ∧
    (validateFile sampleLibraries root 9 plainCtx 99 true v).failed = true := by
  let text := obj [("type", str "string")]
  let ref := obj [("$ref", str "#/definitions/e")]
  let list := obj [("type", str "array"), ("items", ref)]
  let either := obj [("anyOf", .arr [text, list])]
  refine ⟨obj [("type", str "object"), ("properties", obj [("e", ref)]), ("definitions", obj [("e", either)])],
    tbl [("e", .arr [.arr [.str ['x']]])], ?_, by decide +kernel⟩
  intro L H hm
  have hin : Inside (obj [("type", str "object"), ("properties", obj [("e", ref)]), ("definitions", obj [("e", either)])]) either :=
    .child (.named (name := "definitions") (k := "e".toList) (by simp) rfl (List.mem_singleton.2 rfl)) (.refl _)
  have hr : ∀ v, H either v → H ref v := by
    intro v h
    exact (hm.ref _ "#/definitions/e".toList
      (.child (.named (name := "properties") (k := "e".toList) (by simp) rfl (List.mem_singleton.2 rfl)) (.refl _)) rfl v).2 ⟨either, rfl, h⟩
  have up : ∀ s ∈ [text, list], ∀ v, H s v → H either v := by
    intro s hs v h
    refine (hm.obj _ hin (fun r h => nomatch (show none = some (J.str r) from h)) v).2 ?_
    refine holds_of_few (by decide +kernel) ?_ ?_ ?_ ?_ ?_
    · intro t h
      exact nomatch (show none = some t from h)
    · intro ps _ _ _ _ h
      exact nomatch (show none = some (J.obj ps) from h)
    · intro s _ _ _ h
      exact nomatch (show none = some s from h)
    · intro ms h'
      have e : [text, list] = ms := J.arr.inj (Option.some.inj (show some (J.arr [text, list]) = some (.arr ms) from h'))
      subst e
      exact ⟨s, hs, h⟩
    · intro _ _ s _ _ h
      exact nomatch (show none = some s from h)
  have nest : ∀ v, H either v → H either (.arr [v]) := by
    intro v h
    refine up list (by simp) _ ?_
    refine (hm.obj _ (Inside.trans hin (.child (.listed (name := "anyOf") (s := list) (by simp) rfl (by simp)) (.refl _)))
      (fun r h => nomatch (show none = some (J.str r) from h)) _).2 ?_
    refine holds_of_few (by decide +kernel) ?_ ?_ ?_ ?_ ?_
    · intro t h
      have e : str "array" = t := Option.some.inj (show some (str "array") = some t from h)
      exact ⟨"array".toList, .inl e.symm, rfl⟩
    · intro ps _ _ _ _ h
      exact nomatch (show none = some (J.obj ps) from h)
    · intro s _ _ _ h
      exact nomatch (show none = some s from h)
    · intro ms h
      exact nomatch (show none = some (J.arr ms) from h)
    · intro xs x s hx hmem hk
      have e : ref = s := Option.some.inj (show some ref = some s from hk)
      have e' : [v] = xs := Value.arr.inj hx
      subst e e'
      rw [List.mem_singleton.1 hmem]
      exact ⟨(fun ps e => nomatch e), hr v h⟩
  have leaf : H either (.str ['x']) := by
    refine up text (by simp) _ ?_
    refine (hm.obj _ (Inside.trans hin (.child (.listed (name := "anyOf") (s := text) (by simp) rfl (by simp)) (.refl _)))
      (fun r h => nomatch (show none = some (J.str r) from h)) _).2 ?_
    refine holds_of_few (by decide +kernel) ?_ ?_ ?_ ?_ ?_
    · intro t h
      have e : str "string" = t := Option.some.inj (show some (str "string") = some t from h)
      exact ⟨"string".toList, .inl e.symm, rfl⟩
    · intro ps _ _ _ _ h
      exact nomatch (show none = some (J.obj ps) from h)
    · intro s _ _ _ h
      exact nomatch (show none = some s from h)
    · intro ms h
      exact nomatch (show none = some (J.arr ms) from h)
    · intro _ _ s _ _ h
      exact nomatch (show none = some s from h)
  refine (hm.obj _ (.refl _) (fun r h => nomatch (show none = some (J.str r) from h)) _).2 ?_
  refine holds_of_few (by decide +kernel) ?_ ?_ ?_ ?_ ?_
  · intro t h
    have e : str "object" = t := Option.some.inj (show some (str "object") = some t from h)
    exact ⟨"object".toList, .inl e.symm, rfl⟩
  · intro ps kvs k x s h hv hx hs
    have e : [("e".toList, ref)] = ps := J.obj.inj (Option.some.inj (show some (J.obj [("e".toList, ref)]) = some (.obj ps) from h))
    subst e
    have e : [("e".toList, Value.arr [.arr [.str ['x']]])] = kvs := Value.tbl.inj hv
    subst e
    have hs := List.mem_singleton.1 hs
    have hx := List.mem_singleton.1 hx
    cases hs
    cases hx
    exact hr _ (nest _ (nest _ leaf))
  · intro s _ _ _ h
    exact nomatch (show none = some s from h)
  · intro ms h
    exact nomatch (show none = some (J.arr ms) from h)
  · intro _ _ s _ _ h
    exact nomatch (show none = some s from h)

/-- False: a reference that leads back to itself is followed for ever. -/
theorem C83_reference_cycle_false : ∃ (root : Json) (p : Pointer), (∃ o r, valueAt root p = some (.obj o) ∧ refOf o = some r) ∧
    ∀ hops, resolve root hops p = none := by
  refine ⟨obj [("definitions", obj [("a", obj [("$ref", str "#/definitions/a")])])],
    [.key "definitions".toList, .key "a".toList], ⟨_, _, rfl, rfl⟩, ?_⟩
  intro hops
  induction hops with
  | zero => rfl
  | succ n ih =>
    rw [resolve]
    have h1 : valueAt (obj [("definitions", obj [("a", obj [("$ref", str "#/definitions/a")])])])
      [.key "definitions".toList, .key "a".toList] = some (obj [("$ref", str "#/definitions/a")]) := rfl
    have h2 : definition (obj [("definitions", obj [("a", obj [("$ref", str "#/definitions/a")])])])
      "#/definitions/a".toList = some [.key "definitions".toList, .key "a".toList] := by decide +kernel
    rw [h1]
    show ((definition _ "#/definitions/a".toList).bind (resolve _ n)).map _ = none
    rw [h2, Option.bind_some, ih]
    rfl

end Tombi.SchemaFile
