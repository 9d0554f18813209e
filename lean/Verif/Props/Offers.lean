import Verif.Proofs.OffersText
/-!
C82: where a schema allows only finitely many values, completion offers exactly those that it allows.

Proved for schemas of the keywords that completion tests, at every depth of `allOf`, `anyOf`, `oneOf` and `not`. Witnesses show that
other keywords are not tested, and that texts with a backslash are inserted as texts that stand for something else.
-/
namespace Tombi.Offer
open Tombi.Spec
open SyntaxKind
open Tombi.Reading (LiteralMeans)

variable {F : Type} [DecidableEq F]

/-- C82. What is missing: keywords that completion does not test (`untested`), arrays, objects and null (they are never offered),
texts with backslashes or control characters, and floats that are not shown as TOML floats. Equality of floats and the test for
multiples are those of the program. -/
theorem C82_offers_partial (fl : Floats F) (m : Text → Text → Prop) (schema : J F) (ht : Tested schema) (texts : List Text)
    (h : offers fl schema = some texts) (v : TomlVersion) :
    (∀ t ∈ texts, ∃ x, Allows fl m x schema ∧ (scalarOf fl x).isSome ∧ (Writable fl x → Writes fl v x t)) ∧
    (∀ x, Allows fl m x schema → (scalarOf fl x).isSome → Writable fl x → ∃ t ∈ texts, Writes fl v x t) := by
  unfold offers at h
  obtain ⟨cs, hc, rfl⟩ := Option.map_eq_some_iff.1 h
  obtain ⟨t, hs, hf⟩ := Option.bind_eq_some_iff.1 hc
  have he := finite_exact fl t cs hf
  constructor
  · intro w hw
    obtain ⟨x, hx, e⟩ := List.mem_filterMap.1 hw
    refine ⟨x, (accepts_iff fl m x schema ht t hs).1 ((he x).2 (holds_iff.2 ⟨x, hx, rfl⟩)), ?_, fun hw => insertText_writes v hw e⟩
    cases x <;> first | rfl | cases e
  · intro x hx hsc hw
    obtain ⟨s, hs'⟩ := Option.isSome_iff_exists.1 hsc
    obtain ⟨c, hcm, e⟩ := holds_iff.1 ((he x).1 ((accepts_iff fl m x schema ht t hs).2 hx))
    cases scalar_same e hs'
    obtain ⟨w, ew⟩ := insertText_some hs'
    exact ⟨w, List.mem_filterMap.2 ⟨x, hcm, ew⟩, insertText_writes v hw ew⟩

/-- C82: the candidates, of any shape. What is missing: keywords that completion does not test. -/
theorem C82_candidates_partial (fl : Floats F) (m : Text → Text → Prop) (schema : J F) (ht : Tested schema) (t : Sem F) (cs : List (J F))
    (hs : sem fl schema = some t) (hf : finite fl t = some cs) (x : J F) :
    Allows fl m x schema ↔ ∃ c ∈ cs, SameJson c x := by
  rw [← accepts_iff fl m x schema ht t hs, finite_exact fl t cs hf x, holds_iff]

/-! ### examples -/

/-- Whole numbers in place of floats. -/
def wholes : Floats Int where
  ofInt i := i
  le a b := decide (a ≤ b)
  lt a b := decide (a < b)
  multiple a b := decide (a ≠ 0 ∧ b % a = 0)
  text i := Serializing.showInt i ++ ".0".toList

/-- `s` -/
def lit (s : String) : J Int := .str s.toList

/-- `{"type": ["string", "integer"], "oneOf": [{"enum": ["a", "bc", 4]}, {"enum": ["bc", "d\"", true, 6]}], "minLength": 1,
"multipleOf": 4, "not": {"const": "a"}}` -/
def sampleSchema : J Int := .obj [
  ("type".toList, .arr [lit "string", lit "integer"]),
  ("oneOf".toList, .arr [.obj [("enum".toList, .arr [lit "a", lit "bc", .int 4])],
    .obj [("enum".toList, .arr [lit "bc", lit "d\"", .bool true, .int 6])]]),
  ("minLength".toList, .int 1),
  ("multipleOf".toList, .int 4),
  ("not".toList, .obj [("const".toList, lit "a")])]

example : offers wholes sampleSchema = some ["4".toList, "\"d\\\"\"".toList] := by decide +kernel

omit [DecidableEq F] in
theorem tested_plain {k : Text} {v : J F} {ms : List (Text × J F)}
    (hk : k ∉ untested ++ ["type", "enum", "maxLength", "allOf", "anyOf", "oneOf", "not"].map String.toList) (h : TestedMembers ms) :
    TestedMembers ((k, v) :: ms) := by
  simp only [List.mem_append, not_or, List.map_cons, List.map_nil, List.mem_cons, List.not_mem_nil, or_false] at hk
  obtain ⟨h0, h1, h2, h3, h4, h5, h6, h7⟩ := hk
  rw [TestedMembers]
  exact ⟨⟨h0, fun e => absurd e h1, fun e => absurd e h2, fun e => absurd e h3⟩,
    fun e => by rcases e with e | e | e <;> contradiction, fun e => absurd e h7, h⟩

omit [DecidableEq F] in
theorem tested_enum {xs : List (J F)} {ms : List (Text × J F)} (h : TestedMembers ms) : TestedMembers (("enum".toList, .arr xs) :: ms) := by
  rw [TestedMembers]
  exact ⟨⟨by decide, fun e => absurd e (by decide), fun _ => ⟨xs, rfl⟩, fun e => absurd e (by decide)⟩,
    (fun e => by rcases e with e | e | e <;> exact absurd e (by decide)), fun e => absurd e (by decide), h⟩

theorem sample_tested : Tested sampleSchema := by
  rw [sampleSchema, Tested]
  refine ⟨by decide, ?_⟩
  rw [TestedMembers]
  refine ⟨⟨by decide, fun _ => .inr ⟨_, rfl, by simp, fun x hx => ?_⟩, fun e => absurd e (by decide), fun e => absurd e (by decide)⟩,
    (fun e => by rcases e with e | e | e <;> exact absurd e (by decide)), fun e => absurd e (by decide), ?_⟩
  · simp only [List.mem_cons, List.not_mem_nil, or_false] at hx
    rcases hx with rfl | rfl
    · exact ⟨"string".toList, by decide, rfl⟩
    · exact ⟨"integer".toList, by decide, rfl⟩
  rw [TestedMembers]
  refine ⟨⟨by decide, fun e => absurd e (by decide), fun e => absurd e (by decide), fun e => absurd e (by decide)⟩, fun _ => ?_,
    fun e => absurd e (by decide), tested_plain (by decide) (tested_plain (by decide) ?_)⟩
  · simp only [TestedItems, TestedAll, Tested]
    exact ⟨by simp, ⟨by decide, tested_enum (by simp [TestedMembers])⟩, ⟨by decide, tested_enum (by simp [TestedMembers])⟩, trivial⟩
  · rw [TestedMembers]
    refine ⟨⟨by decide, fun e => absurd e (by decide), fun e => absurd e (by decide), fun e => absurd e (by decide)⟩,
      (fun e => by rcases e with e | e | e <;> exact absurd e (by decide)), fun _ => ?_, by simp [TestedMembers]⟩
    rw [Tested]
    exact ⟨by decide, tested_plain (by decide) (by simp [TestedMembers])⟩

example (m : Text → Text → Prop) (v : TomlVersion) (x : J Int) (hx : Allows wholes m x sampleSchema) (hs : (scalarOf wholes x).isSome)
    (hw : Writable wholes x) : ∃ t ∈ ["4".toList, "\"d\\\"\"".toList], Writes wholes v x t :=
  (C82_offers_partial wholes m sampleSchema sample_tested _ (by decide +kernel) v).2 x hx hs hw

/-! ### what goes wrong -/

/-- C82 is false for other keywords: `{"enum": ["a", "b"], "pattern": "^a$"}` offers `"b"`, which the schema forbids. -/
theorem C82_pattern_false : ∃ (schema : J Int) (texts : List Text), offers wholes schema = some texts ∧ "\"b\"".toList ∈ texts ∧
    ∀ m : Text → Text → Prop, ¬ m "^a$".toList "b".toList → ¬ Allows wholes m (lit "b") schema := by
  refine ⟨.obj [("enum".toList, .arr [lit "a", lit "b"]), ("pattern".toList, lit "^a$")], ["\"a\"".toList, "\"b\"".toList],
    by decide +kernel, by decide, fun m hm h => hm ?_⟩
  rw [Allows] at h
  have := (keywords_iff _).1 h.1 "pattern".toList (lit "^a$") (by simp)
  exact this.1.pattern rfl _ _ rfl rfl

/-- … and below `not` an allowed value is hidden: for `{"enum": ["a", "b"], "not": {"pattern": "^a$"}}` nothing is offered. -/
theorem C82_not_false : ∃ (schema : J Int), offers wholes schema = some [] ∧
    ∀ m : Text → Text → Prop, ¬ m "^a$".toList "b".toList → Allows wholes m (lit "b") schema := by
  refine ⟨.obj [("enum".toList, .arr [lit "a", lit "b"]), ("not".toList, .obj [("pattern".toList, lit "^a$")])],
    by decide +kernel, fun m hm => ?_⟩
  have hif : ∀ {ms : List (Text × J Int)}, (∀ k v, (k, v) ∈ ms → k ≠ "if".toList) →
      (Has wholes m (lit "b") "if".toList ms → Each wholes m (lit "b") "then".toList ms) ∧
      (HasNot wholes m (lit "b") "if".toList ms → Each wholes m (lit "b") "else".toList ms) := fun h =>
    ⟨fun e => absurd e (has_none _ h).1, fun e => absurd e (has_none _ h).2⟩
  rw [Allows]
  refine ⟨(keywords_iff _).2 fun k v hk => ?_, hif fun k v hk => ?_⟩
  · simp only [List.mem_cons, Prod.mk.injEq, List.not_mem_nil, or_false] at hk
    rcases hk with ⟨rfl, rfl⟩ | ⟨rfl, rfl⟩
    · refine ⟨⟨?_, ?_, ?_, ?_, ?_, ?_, ?_, ?_, ?_, ?_, ?_⟩, ?_, ?_, ?_, ?_⟩
      case refine_3 => exact fun _ => ⟨_, rfl, lit "b", by simp, rfl⟩
      all_goals exact fun e => absurd e (by decide)
    · refine ⟨⟨?_, ?_, ?_, ?_, ?_, ?_, ?_, ?_, ?_, ?_, ?_⟩, ?_, ?_, ?_, ?_⟩
      case refine_15 =>
        intro _ h
        rw [Allows] at h
        have := (keywords_iff _).1 h.1 "pattern".toList (lit "^a$") (by simp)
        exact hm (this.1.pattern rfl _ _ rfl rfl)
      all_goals exact fun e => absurd e (by decide)
  · simp only [List.mem_cons, Prod.mk.injEq, List.not_mem_nil, or_false] at hk
    rcases hk with ⟨rfl, rfl⟩ | ⟨rfl, rfl⟩ <;> decide

/-- C82 is false for texts with backslashes: for `{"const": "C:\\new"}` the text `"C:\new"` is inserted, which stands for `C:`, a line
break and `ew`. -/
theorem C82_backslash_false : ∃ (schema : J Int) (s t : Text), Tested schema ∧ (∀ m, Allows wholes m (.str s) schema) ∧
    offers wholes schema = some [t] ∧ (∀ v, LiteralMeans v BASIC_STRING t (.string "C:\new".toList)) ∧ s = "C:\\new".toList := by
  refine ⟨.obj [("const".toList, lit "C:\\new")], "C:\\new".toList, "\"C:\\new\"".toList, ?_, fun m => ?_, by decide +kernel, fun v => ?_, rfl⟩
  · simp only [Tested, TestedMembers, and_true]
    exact ⟨by decide, ⟨by decide, fun e => absurd e (by decide), fun e => absurd e (by decide), fun e => absurd e (by decide)⟩,
      fun e => by rcases e with e | e | e <;> exact absurd e (by decide), fun e => absurd e (by decide)⟩
  · rw [Allows]
    refine ⟨(keywords_iff _).2 fun k w hk => ?_, fun e => absurd e (has_none _ fun k w hk => ?_).1, fun e => absurd e (has_none _ fun k w hk => ?_).2⟩
    · simp only [List.mem_cons, Prod.mk.injEq, List.not_mem_nil, or_false] at hk
      obtain ⟨rfl, rfl⟩ := hk
      refine ⟨⟨?_, ?_, ?_, ?_, ?_, ?_, ?_, ?_, ?_, ?_, ?_⟩, ?_, ?_, ?_, ?_⟩
      case refine_2 => exact fun _ => rfl
      all_goals exact fun e => absurd e (by decide)
    all_goals
      simp only [List.mem_cons, Prod.mk.injEq, List.not_mem_nil, or_false] at hk
      rw [hk.1]; decide
  · have l : ∀ c : Char, c ≠ '\\' → 0x20 ≤ c.toNat → c.toNat ≠ 0x7F → Literal c := fun c h1 h2 h3 => ⟨h1, .inr ⟨h2, h3⟩⟩
    exact LiteralMeans.basic (s := ['C', ':', '\\', 'n', 'e', 'w'])
      (.chr 'C' (l _ (by decide) (by decide) (by decide)) (.chr ':' (l _ (by decide) (by decide) (by decide)) (.esc 'n' '\n' rfl
        (.chr 'e' (l _ (by decide) (by decide) (by decide)) (.chr 'w' (l _ (by decide) (by decide) (by decide)) .nil)))))

end Tombi.Offer
