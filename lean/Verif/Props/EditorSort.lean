import Verif.Props.Editor
import Verif.Proofs.EditorEnds
/-! Property C79: the formatter with a schema. -/
namespace Tombi.Editing
open SyntaxKind
open Tombi.Formatter (Node Body Section Doc Comma Text Env docOf)
open Tombi.Reading (Scalar keyOr convert sampleEnv)

/-- Without a schema: what the schema store is asked does not matter. -/
theorem C79_no_schema (E : Env) (src : Text) : formatToml E src = match parse E.G src with
    | .error _ => none
    | .ok p => match formatSorted noSchema (docFuel (docOf p.tree)) none E src with
      | .ok out => out
      | .error _ => none := by
  unfold formatToml formatSorted regroupTree
  cases hp : parse E.G src with
  | error e => rfl
  | ok p =>
    simp only
    split
    · cases sortTree noSchema (docFuel (docOf p.tree)) E.version none p.tree <;> rfl
    · rfl

/-- **C79** without a schema: the run ends, and without a panic. -/
theorem C79_ends_no_schema (v : TomlVersion) (root : Green) : ∃ d, sortTree noSchema (docFuel (docOf root)) v none root = .ok d :=
  regroup_ok v root

/-- **C79** with a schema: the run ends, without a panic, when there are ranks for the schemas such that a schema leads only to
schemas of a lower rank for the same value, and when nowhere in the document there is an array where a schema says that there is
a table. Missing: the schema store and the validator, whose answers are given; the cases of `C79_panic_false` and `C79_endless_false`. -/
theorem C79_ends_partial {S : Type} {w : EditWorld S} {R : Nat} (hr : Ranked w R) (v : TomlVersion) (schema : Option S) (root : Green)
    (hc : NoClash w (convert v (docOf root)).1.value) :
    ∃ bound, ∀ fuel, bound ≤ fuel → ∃ d, sortTree w fuel v schema root = .ok d :=
  ⟨enough R (docOf root), fun _ h => sortTree_ends hr v schema root hc h⟩

/-! ### panics and endless runs -/

/-- A schema that says that the document and all values in it are tables. -/
def tablesOnly : EditWorld Unit where
  schemas := ⟨fun _ _ => .table ⟨none, [], [], fun _ => some (), none⟩, fun _ _ _ => true, fun _ => true, fun _ _ => none, fun _ => none⟩
  sub _ _ := none
  patternProperty _ _ _ := none
  valuesOrder _ _ := none
  arrayOverride _ _ := none
  arrayEnabled _ := true
  groupSchemas _ _ _ := none
  sortKey _ _ _ _ := none
  tableDirective _ := none
  arrayDirective _ := none

/-- A schema that says that there is an array of tables `a`. -/
def arrayOfTables : EditWorld Unit :=
  { tablesOnly with schemas := { tablesOnly.schemas with
      view := fun _ acc => if acc = [Accessor.key ['a']] then SchemaView.array (some ()) else
        .table ⟨none, [], [], fun _ => some (), none⟩ } }

/-- The hypotheses of `C79_ends_partial` hold for this schema. -/
def arrayOfTables_ranked : Ranked arrayOfTables 0 where
  rank _ := 0
  bound _ := Nat.le_refl _
  sub _ _ _ h := by cases h
  combined acc s ss order h := by
    simp only [arrayOfTables] at h
    split at h <;> cases h

/-- What a run ended with. -/
def failure {α : Type} : Run α → Option EditFailure
  | .ok _ => none
  | .error e => some e

/-- **C79** is false for a document with an array of tables where its schema says that there is a table: the run panics, and
the file is not formatted. -/
theorem C79_panic_false :
    failure (formatSorted tablesOnly 9 (some ()) sampleEnv "[[a]]\nx = 1\n".toList) = some .unreachable ∧
    (formatToml sampleEnv "[[a]]\nx = 1\n".toList).isSome = true ∧
    failure (formatSorted tablesOnly 9 (some ()) sampleEnv "[a]\nx = 1\n".toList) = none := by
  refine ⟨?_, ?_, ?_⟩ <;> decide +kernel

theorem followSchema_endless {S : Type} (w : EditWorld S) (next : S → S) (acc : List Accessor) (t : DValue Scalar)
    (hn : ∀ s, w.sub acc (some s) = some (next s) ∨ (w.sub acc (some s) = none ∧ choose w t acc (some s) = .follow (next s))) :
    ∀ fuel keys s, followSchema w fuel t keys acc (some s) = .error .endless := by
  intro fuel
  induction fuel with
  | zero => intro keys s; rw [followSchema]
  | succ fuel ih =>
    intro keys s
    rw [followSchema.eq_def]
    simp only
    rcases hn s with h | ⟨h1, h2⟩
    · rw [h]; exact ih keys _
    · rw [h1, h2]; exact ih keys _

/-- **C79** is false when each schema that applies to the whole document leads to another one, by a subschema or by the first schema of
`anyOf`, `oneOf` or `allOf` that accepts the document: no bound on the depth of the recursion is enough. -/
theorem C79_endless_false {S : Type} (w : EditWorld S) (next : S → S) (v : TomlVersion) (root : Green)
    (hc : (convert v (docOf root)).2 = [])
    (hn : ∀ s, w.sub [] (some s) = some (next s) ∨
      (w.sub [] (some s) = none ∧ choose w (convert v (docOf root)).1.value [] (some s) = .follow (next s)))
    {f : Option Nat} {l : List Text} {ks : List Format.AstKey} {src : Text} {n : Node} {c : Option Comma} {rest : Body}
    (hb : (docOf root).body = .item f (.pair l ks src n) c rest) (s : S) :
    ∀ fuel, sortTree w fuel v (some s) root = .error .endless := by
  intro fuel
  unfold sortTree
  simp only [hc, List.isEmpty_nil, if_true, hb]
  rw [sortEntries, sortNode, followSchema_endless w next [] _ hn]

/-- Two schemas that lead to each other. -/
def inCircles : EditWorld Bool :=
  { (⟨⟨fun s _ => .combined (some [!s]) none, fun _ _ _ => true, fun _ => true, fun _ _ => none, fun _ => none⟩, fun _ _ => none,
      fun _ _ _ => none, fun _ _ => none, fun _ _ => none, fun _ => true, fun _ _ _ => none, fun _ _ _ _ => none, fun _ => none,
      fun _ => none⟩ : EditWorld Bool) with }

example : ∃ p, parse charSegmenter "a = 1\n".toList = .ok p ∧ ∀ fuel s, sortTree inCircles fuel .V1_1_0 (some s) p.tree = .error .endless := by
  have h : (parse charSegmenter "a = 1\n".toList).toOption.map (fun p => ((convert .V1_1_0 (docOf p.tree)).2.isEmpty,
      match (docOf p.tree).body with | .item _ (.pair _ _ _ _) _ _ => true | _ => false)) = some (true, true) := by decide +kernel
  cases hp : parse charSegmenter "a = 1\n".toList with
  | error e => rw [hp] at h; cases h
  | ok p =>
    rw [hp] at h
    simp only [Except.toOption, Option.map_some, Option.some.injEq, Prod.mk.injEq] at h
    refine ⟨p, rfl, fun fuel s => ?_⟩
    obtain ⟨h1, h2⟩ := h
    split at h2
    · rename_i hb
      exact C79_endless_false inCircles (!·) .V1_1_0 p.tree (List.isEmpty_iff.mp h1) (fun s => .inr ⟨rfl, rfl⟩) hb s fuel
    · cases h2

/-- The hypotheses of `C79_ends_partial` hold for `[[a]]`. -/
example : ∃ p, parse charSegmenter "[[a]]\nx = 1\n".toList = .ok p ∧
    NoClash arrayOfTables (convert .V1_1_0 (docOf p.tree)).1.value := by
  have h : (parse charSegmenter "[[a]]\nx = 1\n".toList).toOption.map (fun p =>
      match (convert .V1_1_0 (docOf p.tree)).1.entries with
        | [(k, .array _ [.table _ [(_, .scalar _)]])] => k == ['a']
        | _ => false) = some true := by decide +kernel
  cases hp : parse charSegmenter "[[a]]\nx = 1\n".toList with
  | error e => rw [hp] at h; cases h
  | ok p =>
    rw [hp] at h
    refine ⟨p, rfl, ?_⟩
    simp only [Except.toOption, Option.map_some, Option.some.injEq] at h
    split at h
    · rename_i k kind kind2 k2 s e
      obtain rfl : k = ['a'] := by simpa using h
      intro acc kind ts s table hf
      have hne : acc = [.key ['a']] := by
        unfold DTable.value at hf
        rw [e] at hf
        cases acc with
        | nil => cases hf
        | cons a acc =>
          cases a with
          | index i => cases hf
          | key k' =>
            rw [follow, dget] at hf
            split at hf
            · rename_i hk
              subst hk
              rw [Option.bind_some] at hf
              cases acc with
              | nil => rfl
              | cons b acc =>
                exfalso
                cases b with
                | key _ => cases hf
                | index i =>
                  rw [follow] at hf
                  cases i with
                  | succ i => cases hf
                  | zero =>
                    simp only [List.getElem?_cons_zero, Option.bind_some] at hf
                    cases acc with
                    | nil => cases hf
                    | cons c acc =>
                      cases c with
                      | index _ => cases hf
                      | key k3 =>
                        rw [follow, dget] at hf
                        split at hf
                        · cases acc with
                          | nil => cases hf
                          | cons d acc => cases d <;> simp [follow] at hf
                        · cases hf
            · cases hf
      simp [arrayOfTables, hne]
    · cases h

end Tombi.Editing
