import Verif.Proofs.LintOrder
import Verif.Props.TomlText
/-! C43: the rules for tables and dotted keys out of order; C64: missing and forbidden commas. -/
namespace Tombi.LintOrder
open Spec Spec.LintOrder TomlText
variable {κ ρ : Type}

/-- C43: `tables-out-of-order` reports every table of an interrupted group once, and nothing else, in whatever
order the groups are visited. -/
theorem C43_tables [DecidableEq κ] (order : List (κ × List (Nat × ρ)) → List (κ × List (Nat × ρ)))
    (ho : ∀ g, (order g).Perm g) (items : List (Option κ × ρ)) :
    ReportsExactly items (TableInterrupted items) (tablesOutOfOrder order items) :=
  reportsExactly items order ho (tableGroup (positionsFrom 0 items)) _ (tableGroup_cond items)

/-- C43: `dotted-keys-out-of-order` reports every key-value of an interrupted group once, and nothing else. -/
theorem C43_dotted_keys [DecidableEq κ] (order : List (κ × List (Nat × ρ)) → List (κ × List (Nat × ρ)))
    (ho : ∀ g, (order g).Perm g) (items : List (Option κ × ρ)) :
    ReportsExactly items (KeyInterrupted items) (dottedKeysOutOfOrder order items) :=
  reportsExactly items order ho dottedGroup _ (dottedGroup_cond items)

/-- `b` at position 1 interrupts the group of `a`, a key-value (no header) at position 4 interrupts nothing. -/
private def sample : List (Option Char × Nat) := [(some 'a', 10), (some 'b', 11), (some 'a', 12), (some 'c', 13),
  (none, 14), (some 'c', 15)]

example : tablesOutOfOrder List.reverse sample = [10, 12] ∧ dottedKeysOutOfOrder List.reverse sample = [13, 15, 10, 12]
    ∧ (∀ g : List (Char × List (Nat × Nat)), g.reverse.Perm g) ∧ TableInterrupted sample 2 ∧ ¬ TableInterrupted sample 3
    ∧ KeyInterrupted sample 3 := by
  refine ⟨by decide, by decide, fun g => List.reverse_perm g, ?_, ?_, ?_⟩
  · exact ⟨'a', ⟨12, rfl⟩, 0, 1, 2, 'b', by omega, by omega, ⟨10, rfl⟩, ⟨12, rfl⟩, ⟨11, rfl⟩, by decide⟩
  · rintro ⟨k, ⟨r, hk⟩, a, b, c, k', h1, h2, ⟨ra, ha⟩, ⟨rc, hc⟩, ⟨rb, hb⟩, h4⟩
    simp [sample] at hk
    obtain ⟨rfl, rfl⟩ := hk
    have la : a < 6 := by
      rcases Nat.lt_or_ge a 6 with h | h
      · exact h
      · rw [List.getElem?_eq_none (by simpa [sample] using h)] at ha; cases ha
    have lc : c < 6 := by
      rcases Nat.lt_or_ge c 6 with h | h
      · exact h
      · rw [List.getElem?_eq_none (by simpa [sample] using h)] at hc; cases hc
    have : a = 3 ∨ a = 5 := by
      match a, la with
      | 0, _ => simp [sample] at ha
      | 1, _ => simp [sample] at ha
      | 2, _ => simp [sample] at ha
      | 3, _ => exact .inl rfl
      | 4, _ => simp [sample] at ha
      | 5, _ => exact .inr rfl
    have : b = 4 := by omega
    subst this
    simp [sample] at hb
  · exact ⟨'c', ⟨13, rfl⟩, 3, 4, 5, by omega, by omega, ⟨13, rfl⟩, ⟨15, rfl⟩, by rintro ⟨r, h⟩; simp [sample] at h⟩

/-! ### keys by their values -/

/-- what a key denotes in TOML -/
inductive KeyMeans (v : TomlVersion) : Key → List Char → Prop where
  | bare {t : List Char} : BareKey t → KeyMeans v (.bare t) t
  | literal {s : List Char} : LiteralOk false s → KeyMeans v (.literal (literal1 s)) s
  | basic {s o : List Char} : Regular false s → Decodes toml v false s o → KeyMeans v (.basic (quoted s)) o

theorem keyRawText_means {v : TomlVersion} {k : Key} {s : List Char} (h : KeyMeans v k s) : keyRawText v k = some s := by
  cases h with
  | bare h =>
    have := ((C18_bare_key_exact s).1 s).mpr ⟨rfl, fun c hc => .inl ⟨by simp, fun c' hc' => by
      rw [List.mem_singleton.mp hc']; exact h.2 c hc⟩⟩
    simp only [keyRawText, this]
  | literal h =>
    have : parseLiteralString s false = .ok s := by
      unfold parseLiteralString; rw [literalLoop_ok]; exact ⟨by simp, h⟩
    simp only [keyRawText, tryFromLiteralString_literal1, this]
  | @basic s' _ hr h =>
    simp only [keyRawText, tryFromBasicString_quoted, (parseBasicString_ok v false s' s).mpr ((decodes_iff hr).mp h)]

/-- the source text of a key has no backslash, unless it is in single quotes -/
def Unescaped : Key → Prop
  | .basic text => '\\' ∉ text
  | _ => True

theorem decodes_unescaped {v : TomlVersion} {s o : List Char} (h : Decodes toml v false s o) (hs : '\\' ∉ s) : o = s := by
  induction h with
  | nil => rfl
  | chr c _ _ ih => rw [ih (fun h => hs (List.mem_cons_of_mem _ h))]
  | lf h _ _ => cases h
  | crlf h _ _ => cases h
  | _ => exact absurd (by simp) hs

theorem keyPart_means {v : TomlVersion} {k : Key} {s : List Char} (h : KeyMeans v k s) (hu : Unescaped k) :
    keyPart k = some s := by
  cases h with
  | bare h => rfl
  | literal h => exact inner_quotes '\'' (by decide) s
  | @basic s' _ hr h =>
    have hs : '\\' ∉ s' := fun h => hu (by simp [quoted, h])
    rw [decodes_unescaped h hs]
    exact inner_quotes '"' (by decide) s'

/-- C43: on key-values with valid first keys, in a list `doc` of keys, what they denote, and ranges,
`dotted-keys-out-of-order` groups by what the first key denotes, however it is written. -/
theorem C43_dotted_keys_by_value (v : TomlVersion)
    (order : List (List Char × List (Nat × ρ)) → List (List Char × List (Nat × ρ)))
    (ho : ∀ g, (order g).Perm g) (doc : List (Option (Key × List Char) × ρ))
    (hm : ∀ k s r, (some (k, s), r) ∈ doc → KeyMeans v k s) :
    ReportsExactly (doc.map fun x => (x.1.map (·.2), x.2)) (KeyInterrupted (doc.map fun x => (x.1.map (·.2), x.2)))
      (lintDottedKeys v order (doc.map fun x => (x.1.map (·.1), x.2))) := by
  have e : (doc.map fun x => (x.1.map (·.1), x.2)).map (fun x : Option Key × ρ => (x.1.bind (keyRawText v), x.2))
      = doc.map fun x => (x.1.map (·.2), x.2) := by
    rw [List.map_map]
    apply List.map_congr_left
    rintro ⟨ks, r⟩ hx
    cases ks with
    | none => rfl
    | some ks =>
      obtain ⟨k, s⟩ := ks
      simp [keyRawText_means (hm k s r hx)]
  unfold lintDottedKeys
  rw [e]
  exact C43_dotted_keys order ho _

/-- C43 for tables, by what the first keys of their headers denote. Missing: first keys written with escapes
(`C43_tables_by_value_false`). -/
theorem C43_tables_by_value_partial (v : TomlVersion)
    (order : List (List Char × List (Nat × ρ)) → List (List Char × List (Nat × ρ)))
    (ho : ∀ g, (order g).Perm g) (doc : List (Option (Key × List Char) × ρ))
    (hm : ∀ k s r, (some (k, s), r) ∈ doc → KeyMeans v k s ∧ Unescaped k) :
    ReportsExactly (doc.map fun x => (x.1.map (·.2), x.2)) (TableInterrupted (doc.map fun x => (x.1.map (·.2), x.2)))
      (lintTables order (doc.map fun x => (x.1.map (·.1), x.2))) := by
  have e : (doc.map fun x => (x.1.map (·.1), x.2)).map (fun x : Option Key × ρ => (x.1.bind keyPart, x.2))
      = doc.map fun x => (x.1.map (·.2), x.2) := by
    rw [List.map_map]
    apply List.map_congr_left
    rintro ⟨ks, r⟩ hx
    cases ks with
    | none => rfl
    | some ks =>
      obtain ⟨k, s⟩ := ks
      simp [keyPart_means (hm k s r hx).1 (hm k s r hx).2]
  unfold lintTables
  rw [e]
  exact C43_tables order ho _

private def ka : Key := .bare ['a']
private def qa : Key := .basic (quoted ['a'])
private def ea : Key := .basic (quoted "\\u0061".toList)
private def kb : Key := .bare ['b']
private theorem ka_means : KeyMeans .V1_0_0 ka ['a'] := .bare ⟨by simp, by decide⟩
private theorem kb_means : KeyMeans .V1_0_0 kb ['b'] := .bare ⟨by simp, by decide⟩
private theorem qa_means : KeyMeans .V1_0_0 qa ['a'] :=
  .basic ⟨by decide, by simp, by decide, fun a k b h => by
    have : '\\' ∈ ['a'] := by rw [h]; simp
    simp at this⟩ (.chr 'a' ⟨by decide, by decide⟩ .nil)
private theorem ea_means : KeyMeans .V1_0_0 ea ['a'] := by
  refine .basic ⟨by decide, by simp, by decide, fun a k b h => ?_⟩ ?_
  · have : '+' ∈ "\\u0061".toList := by rw [h]; simp
    exact absurd this (by decide)
  · exact .escU4 (s := []) ['0', '0', '6', '1'] 0x61 rfl (by decide) (.inl (by decide)) .nil

/-- three tables `a`, `b`, `"a"` -/
example : lintTables id [(some ka, 0), (some kb, 1), (some qa, 2)] = [0, 2]
    ∧ lintDottedKeys .V1_0_0 id [(some ka, 0), (some kb, 1), (some ea, 2)] = [0, 2]
    ∧ (∀ k s (r : Nat), (some (k, s), r) ∈ [(some (ka, ['a']), 0), (some (kb, ['b']), 1), (some (qa, ['a']), 2)] →
      KeyMeans .V1_0_0 k s ∧ Unescaped k)
    ∧ (∀ k s (r : Nat), (some (k, s), r) ∈ [(some (ka, ['a']), 0), (some (kb, ['b']), 1), (some (ea, ['a']), 2)] →
      KeyMeans .V1_0_0 k s) := by
  refine ⟨by decide, by decide, ?_, ?_⟩
  · intro k s r h
    simp only [List.mem_cons, Prod.mk.injEq, Option.some.injEq, List.not_mem_nil, or_false] at h
    rcases h with ⟨⟨rfl, rfl⟩, _⟩ | ⟨⟨rfl, rfl⟩, _⟩ | ⟨⟨rfl, rfl⟩, _⟩
    · exact ⟨ka_means, trivial⟩
    · exact ⟨kb_means, trivial⟩
    · exact ⟨qa_means, show _ ∉ _ by decide⟩
  · intro k s r h
    simp only [List.mem_cons, Prod.mk.injEq, Option.some.injEq, List.not_mem_nil, or_false] at h
    rcases h with ⟨⟨rfl, rfl⟩, _⟩ | ⟨⟨rfl, rfl⟩, _⟩ | ⟨⟨rfl, rfl⟩, _⟩
    · exact ka_means
    · exact kb_means
    · exact ea_means

/-- C43, in full, is false for tables: headers are compared by their source text, so `[a] [b] ["a"]` (the
same key as `a`) is not reported and the tables `[a] ["a"] [a]`, all of one group, are. -/
theorem C43_tables_by_value_false : KeyMeans .V1_0_0 ka ['a'] ∧ KeyMeans .V1_0_0 ea ['a'] ∧ KeyMeans .V1_0_0 kb ['b']
    ∧ lintTables id [(some ka, 0), (some kb, 1), (some ea, 2)] = []
    ∧ lintTables id [(some ka, 0), (some ea, 1), (some ka, 2)] = [0, 2] :=
  ⟨ka_means, ea_means, kb_means, by decide, by decide⟩

/-! ### commas -/

/-- C64: reported are, in order, the ends of exactly those values that are not the last one and have no comma. -/
theorem C64_missing_commas {π : Type} (items : List (π × Bool)) :
    missingCommas items = (List.range (items.length - 1)).filterMap fun i =>
      items[i]?.bind fun x => if x.2 then none else some x.1 := by
  induction items with
  | nil => rfl
  | cons x items ih =>
    cases items with
    | nil => rfl
    | cons y items =>
      obtain ⟨e, comma⟩ := x
      simp only [missingCommas, ih, List.length_cons, Nat.add_sub_cancel]
      rw [List.range_succ_eq_map, List.filterMap_cons, List.filterMap_map]
      cases comma <;> simp [Function.comp_def]

example : missingCommas [(1, true), (2, false), (3, false), (4, false)] = [2, 3] := by decide

/-- C64: nothing is reported exactly when a comma follows every value but the last. -/
theorem C64_no_missing_comma {π : Type} (items : List (π × Bool)) :
    missingCommas items = [] ↔ ∀ (i : Nat) (x : π × Bool), i + 1 < items.length → items[i]? = some x → x.2 = true := by
  rw [C64_missing_commas, List.filterMap_eq_nil_iff]
  constructor
  · intro h i x hi hx
    have := h i (List.mem_range.mpr (by omega))
    rw [hx] at this
    simpa using this
  · intro h i hi
    have hi := List.mem_range.mp hi
    cases hx : items[i]? with
    | none => rfl
    | some x => simp [h i x (by omega) hx]

/-- C64: in a table or at the top level every comma after a key-value is reported. -/
theorem C64_forbidden_commas (items : List (Option ρ)) :
    (trailingCommas items).map some = items.filter (·.isSome) := by
  induction items with
  | nil => rfl
  | cons x items ih =>
    unfold trailingCommas at ih ⊢
    cases x <;> simp [ih]

example : trailingCommas [none, some 7, none] = [7] := by decide

end Tombi.LintOrder
