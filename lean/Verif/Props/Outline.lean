import Verif.Proofs.OutlineErase
import Verif.Proofs.DocComplete
/-! C87: the outline of a document. -/
namespace Tombi.Outline
open Tombi.Locate (le_refl')

variable {σ : Type}

theorem Laid.inside {out : Range} {c : Symbol} (h : Laid out c) : Inside c.range out := by
  cases h <;> assumption

theorem range_key {s : Bool} {out : Range} {v : RValue σ} {pk : Option Range} (h : laid s out v) (hk : ∀ r, pk = some r → Sub r out) :
    Inside (symbolRange pk v) out ∧ Inside v.range (symbolRange pk v) := by
  cases pk with
  | none => exact ⟨(laid_sub h).2, Inside.refl _⟩
  | some r => exact ⟨(add_sub (hk r rfl) (laid_sub h).2).2, inside_right (hk r rfl).1⟩

mutual
theorem symbols_laid {s : Bool} {kindOf : σ → SymbolKind} : (v : RValue σ) → (out : Range) → (name : List Char) → (pk : Option Range) →
    laid s out v → (∀ r, pk = some r → Sub r out) → ∀ c ∈ symbolsFor kindOf name pk v, Laid out c ∧ (s = true → Nested c) ∧
      (isTable v → c.kind = .object)
  | .scalar r x, out, name, pk, h, hk, c, hc => by
    rw [symbolsFor, List.mem_singleton] at hc
    subst hc
    exact ⟨.leaf (range_key h hk).1, fun _ => .mk (fun c hc => by cases hc) (fun c hc => by cases hc), fun e => e.elim⟩
  | .incomplete r, out, name, pk, h, hk, c, hc => by rw [symbolsFor] at hc; cases hc
  | .table k r es, out, name, pk, h, hk, c, hc => by
    obtain ⟨h1, h2⟩ := range_key h hk
    rw [symbolsFor, List.mem_singleton] at hc
    subst hc
    rw [laid] at h
    have he := entrySymbols_laid (s := s) (kindOf := kindOf) es (symbolRange pk (.table k r es)) (laidEntries_mono h2 _ h.2)
    exact ⟨.table h1 fun c hc => (he c hc).1, fun hs => .mk (fun c hc => (he c hc).1.inside) (fun c hc => (he c hc).2 hs), fun _ => rfl⟩
  | .array k r vs, out, name, pk, h, hk, c, hc => by
    obtain ⟨h1, h2⟩ := range_key h hk
    rw [symbolsFor, List.mem_singleton] at hc
    subst hc
    rw [laid] at h
    refine ⟨?_, ?_, fun e => e.elim⟩
    · cases k with
      | array =>
        have he := elementSymbols_laid (s := s) (kindOf := kindOf) (tables := false) vs 0 _ (laidAll_mono h2 _ (h.2.1 rfl))
        exact .array h1 fun c hc => (he c hc).1
      | arrayOfTable =>
        have hl := h.2.2.1 rfl
        cases s with
        | true =>
          have he := elementSymbols_laid (s := true) (kindOf := kindOf) (tables := true) vs 0 _ (laidAll_mono h2 _ hl)
          exact .array h1 fun c hc => (he c hc).1
        | false =>
          have he := elementSymbols_laid (s := false) (kindOf := kindOf) (tables := true) vs 0 _ hl
          exact .tables h1 (fun c hc => (he c hc).2.2 rfl) fun c hc => (he c hc).1
      | parentArrayOfTable =>
        have he := elementSymbols_laid (s := s) (kindOf := kindOf) (tables := true) vs 0 _ (h.2.2.2 rfl).2
        exact .tables h1 (fun c hc => (he c hc).2.2 rfl) fun c hc => (he c hc).1
    · intro hs
      subst hs
      cases k with
      | array =>
        have he := elementSymbols_laid (s := true) (kindOf := kindOf) (tables := false) vs 0 _ (laidAll_mono h2 _ (h.2.1 rfl))
        exact .mk (fun c hc => (he c hc).1.inside) (fun c hc => (he c hc).2.1 rfl)
      | arrayOfTable =>
        have he := elementSymbols_laid (s := true) (kindOf := kindOf) (tables := true) vs 0 _ (laidAll_mono h2 _ (h.2.2.1 rfl))
        exact .mk (fun c hc => (he c hc).1.inside) (fun c hc => (he c hc).2.1 rfl)
      | parentArrayOfTable => exact absurd (h.2.2.2 rfl).1 (by decide)
theorem elementSymbols_laid {s tables : Bool} {kindOf : σ → SymbolKind} : (vs : List (RValue σ)) → (index : Nat) → (out : Range) →
    laidAll s tables out vs → ∀ c ∈ elementSymbols kindOf index vs, Laid out c ∧ (s = true → Nested c) ∧ (tables = true → c.kind = .object)
  | [], _, _, _, c, hc => by rw [elementSymbols] at hc; cases hc
  | v :: vs, index, out, h, c, hc => by
    rw [laidAll] at h
    rw [elementSymbols, List.mem_append] at hc
    rcases hc with hc | hc
    · have := symbols_laid v out _ (some v.range) h.2.1 (fun r hr => by cases hr; exact laid_sub h.2.1) c hc
      exact ⟨this.1, this.2.1, fun ht => this.2.2 (h.1 ht)⟩
    · exact elementSymbols_laid vs _ out h.2.2 c hc
theorem entrySymbols_laid {s : Bool} {kindOf : σ → SymbolKind} : (es : List (RKey × RValue σ)) → (out : Range) → laidEntries s out es →
    ∀ c ∈ entrySymbols kindOf es, Laid out c ∧ (s = true → Nested c)
  | [], _, _, c, hc => by rw [entrySymbols] at hc; cases hc
  | (k, v) :: es, out, h, c, hc => by
    rw [laidEntries] at h
    rw [entrySymbols, List.mem_append] at hc
    rcases hc with hc | hc
    · have := symbols_laid v out _ (some k.range) h.2.1 (fun r hr => by cases hr; exact h.1) c hc
      exact ⟨this.1, this.2.1⟩
    · exact entrySymbols_laid es out h.2.2 c hc
end

theorem laidEntries_mem {s : Bool} {out : Range} : {es : REntries σ} → laidEntries s out es → ∀ kv ∈ es, laid s out kv.2
  | [], _, _, h => by cases h
  | (k, v) :: es, h, kv, hm => by
    rw [laidEntries] at h
    rcases List.mem_cons.1 hm with rfl | hm
    · exact h.2.1
    · exact laidEntries_mem h.2.2 kv hm

theorem create_laid {s : Bool} {kindOf : σ → SymbolKind} {root : RAstRoot σ} (h : root.Placed) (hs : s = true → NoneBelow root.sections) :
    ∀ c ∈ createSymbols kindOf root.tree.1, Laid root.range c ∧ (s = true → Nested c) := by
  intro c hc
  have hr := root_laid h hs
  have hr : laid s root.range (.table _ _ _) := hr
  rw [laid] at hr
  obtain ⟨kv, hkv, hc⟩ := List.mem_flatMap.1 hc
  have := symbols_laid (kindOf := kindOf) kv.2 root.range kv.1.text none (laid_mono hr.1.2 _ (laidEntries_mem hr.2 kv hkv)) (by simp) c hc
  exact ⟨this.1, this.2.1⟩

/-- **C87 (partial).** The outline of every document is laid out inside the document: tables contain their keys, inline arrays contain their
elements, and the elements of an array of tables lie inside what contains the array. Missing: that arrays of tables contain their elements,
which is false where a section continues an element (`C87_outline_false`). -/
theorem C87_outline_partial (kindOf : σ → SymbolKind) {root : RAstRoot σ} (h : root.Placed) :
    ∀ c ∈ createSymbols kindOf root.tree.1, Laid root.range c :=
  fun c hc => (create_laid (s := false) h (fun e => by cases e) c hc).1

/-- **C87 (partial).** Where no section continues an element of an array of tables, every symbol of the outline contains its children. -/
theorem C87_nested_partial (kindOf : σ → SymbolKind) {root : RAstRoot σ} (h : root.Placed) (hn : NoneBelow root.sections) :
    ∀ c ∈ createSymbols kindOf root.tree.1, Nested c ∧ Inside c.range root.range := by
  intro c hc
  have := create_laid (s := true) h (fun _ => hn) c hc
  exact ⟨this.2 rfl, this.1.inside⟩

/-! ### what the symbols show -/

theorem name_eq (n : List Char) : symbolName n = if n = [] then ['"', '"'] else n := by
  cases n <;> rfl

theorem number_eq (i : Nat) : (s!"[{i}]").toList = '[' :: (toString i).toList ++ [']'] := by
  simp only [String.toList_append, toString]
  rfl

mutual
theorem symbols_show {kindOf : σ → SymbolKind} : (v : RValue σ) → (name : List Char) → (pk : Option Range) → v.erase.Complete →
    ∃ c, symbolsFor kindOf name pk v = [c] ∧ Shows kindOf name v.erase c
  | .scalar r x, name, pk, _ => by
    rw [symbolsFor, RValue.erase, name_eq]
    exact ⟨_, rfl, .scalar⟩
  | .incomplete r, name, pk, h => by rw [RValue.erase] at h; exact h.elim
  | .array k r vs, name, pk, h => by
    rw [RValue.erase, DValue.Complete] at h
    have := elements_show (kindOf := kindOf) vs 0 h
    rw [symbolsFor, RValue.erase, name_eq]
    refine ⟨_, rfl, .array this.1 fun i v c hv hc => ?_⟩
    have := this.2 i v c hv hc
    rwa [Nat.zero_add] at this
  | .table k r es, name, pk, h => by
    rw [RValue.erase, DValue.Complete] at h
    have := entries_show (kindOf := kindOf) es h
    rw [symbolsFor, RValue.erase, name_eq]
    exact ⟨_, rfl, .table this.1 this.2⟩
theorem elements_show {kindOf : σ → SymbolKind} : (vs : List (RValue σ)) → (index : Nat) → CompleteItems (eraseAll vs) →
    (elementSymbols kindOf index vs).length = (eraseAll vs).length ∧
    ∀ (i : Nat) v c, (eraseAll vs)[i]? = some v → (elementSymbols kindOf index vs)[i]? = some c → Shows kindOf (s!"[{index + i}]").toList v c
  | [], index, _ => by
    rw [eraseAll, elementSymbols]
    exact ⟨rfl, fun i v c h => by cases h⟩
  | v :: vs, index, h => by
    rw [eraseAll, CompleteItems] at h
    obtain ⟨d, hd, hs⟩ := symbols_show (kindOf := kindOf) v ('[' :: (toString index).toList ++ [']']) (some v.range) h.1
    obtain ⟨hl, ht⟩ := elements_show (kindOf := kindOf) vs (index + 1) h.2
    rw [eraseAll, elementSymbols, hd]
    refine ⟨by simp only [List.length_append, List.length_cons, List.length_nil, hl]; omega, ?_⟩
    intro i w c hw hc
    cases i with
    | zero =>
      cases hw; cases hc
      rw [Nat.add_zero, number_eq]
      exact hs
    | succ i =>
      have := ht i w c hw hc
      rwa [show index + 1 + i = index + (i + 1) by omega] at this
theorem entries_show {kindOf : σ → SymbolKind} : (es : List (RKey × RValue σ)) → CompleteEntries (eraseEntries es) →
    (entrySymbols kindOf es).length = (eraseEntries es).length ∧
    ∀ (i : Nat) kv c, (eraseEntries es)[i]? = some kv → (entrySymbols kindOf es)[i]? = some c → Shows kindOf kv.1 kv.2 c
  | [], _ => by
    rw [eraseEntries, entrySymbols]
    exact ⟨rfl, fun i v c h => by cases h⟩
  | (k, v) :: es, h => by
    rw [eraseEntries, CompleteEntries] at h
    obtain ⟨d, hd, hs⟩ := symbols_show (kindOf := kindOf) v k.text (some k.range) h.1
    obtain ⟨hl, ht⟩ := entries_show (kindOf := kindOf) es h.2
    rw [eraseEntries, entrySymbols, hd]
    refine ⟨by simp only [List.length_append, List.length_cons, List.length_nil, hl]; omega, ?_⟩
    intro i w c hw hc
    cases i with
    | zero => cases hw; cases hc; exact hs
    | succ i => exact ht i w c hw hc
end

theorem create_show {kindOf : σ → SymbolKind} : (es : List (RKey × RValue σ)) → CompleteEntries (eraseEntries es) →
    (es.flatMap fun kv => symbolsFor kindOf kv.1.text none kv.2).length = (eraseEntries es).length ∧
    ∀ (i : Nat) kv c, (eraseEntries es)[i]? = some kv → (es.flatMap fun kv => symbolsFor kindOf kv.1.text none kv.2)[i]? = some c →
      Shows kindOf kv.1 kv.2 c
  | [], _ => by
    rw [eraseEntries]
    exact ⟨rfl, fun i v c h => by cases h⟩
  | (k, v) :: es, h => by
    rw [eraseEntries, CompleteEntries] at h
    obtain ⟨d, hd, hs⟩ := symbols_show (kindOf := kindOf) v k.text none h.1
    obtain ⟨hl, ht⟩ := create_show (kindOf := kindOf) es h.2
    rw [eraseEntries, List.flatMap_cons]
    simp only [hd]
    refine ⟨by simp only [List.length_append, List.length_cons, List.length_nil, hl]; omega, ?_⟩
    intro i w c hw hc
    cases i with
    | zero => cases hw; cases hc; exact hs
    | succ i => exact ht i w c hw hc

/-- **C87.** The outline of a document without errors shows the document: one symbol for each key-value of the document (that of
`Model/DocumentTree.lean`, treated by C26 to C29), in order, with its name and kind, and below it those of its elements and key-values. -/
theorem C87_shows (kindOf : σ → SymbolKind) (root : RAstRoot σ) (h : root.erase.tree.2 = []) :
    (createSymbols kindOf root.tree.1).length = root.erase.tree.1.entries.length ∧
    ∀ (i : Nat) kv c, root.erase.tree.1.entries[i]? = some kv → (createSymbols kindOf root.tree.1)[i]? = some c → Shows kindOf kv.1 kv.2 c := by
  have hc := root_complete root.erase h
  rw [root_tree_erase] at hc ⊢
  exact create_show root.tree.1.entries hc

/-! ### witnesses -/

/-- From column to column of a line. -/
def at_ (line a b : Nat) : Range := ⟨⟨line, a⟩, ⟨line, b⟩⟩

/-- `a.b = [1, { c = 2 }]`, then `[[d]]` with `e = 3`. -/
def flatDoc : RAstRoot Nat where
  range := ⟨⟨0, 0⟩, ⟨3, 0⟩⟩
  kvs := [.mk (at_ 0 0 20) (some [⟨"a".toList, at_ 0 0 1⟩, ⟨"b".toList, at_ 0 2 3⟩])
    (some (.array (at_ 0 6 20) [.value (.scalar (at_ 0 7 8) 1),
      .value (.inlineTable (at_ 0 10 19) [.mk (at_ 0 12 17) (some [⟨"c".toList, at_ 0 12 13⟩]) (some (.scalar (at_ 0 16 17) 2))])]))]
  sections := [⟨true, ⟨⟨1, 0⟩, ⟨2, 5⟩⟩, some [⟨"d".toList, at_ 1 2 3⟩],
    [.mk (at_ 2 0 5) (some [⟨"e".toList, at_ 2 0 1⟩]) (some (.scalar (at_ 2 4 5) 3))]⟩]

/-- `[[a]]` with `x = 1`, then `[a.b]` with `y = 2`. -/
def belowDoc : RAstRoot Nat where
  range := ⟨⟨0, 0⟩, ⟨4, 0⟩⟩
  kvs := []
  sections := [⟨true, ⟨⟨0, 0⟩, ⟨1, 5⟩⟩, some [⟨"a".toList, at_ 0 2 3⟩],
      [.mk (at_ 1 0 5) (some [⟨"x".toList, at_ 1 0 1⟩]) (some (.scalar (at_ 1 4 5) 1))]⟩,
    ⟨false, ⟨⟨2, 0⟩, ⟨3, 5⟩⟩, some [⟨"a".toList, at_ 2 1 2⟩, ⟨"b".toList, at_ 2 3 4⟩],
      [.mk (at_ 3 0 5) (some [⟨"y".toList, at_ 3 0 1⟩]) (some (.scalar (at_ 3 4 5) 2))]⟩]

theorem belowDoc_placed : belowDoc.Placed := by
  refine ⟨by decide, by rw [belowDoc, KeyValuesPlaced]; trivial, ?_⟩
  intro s hs
  simp only [belowDoc, List.mem_cons, List.not_mem_nil, or_false] at hs
  rcases hs with rfl | rfl
  · refine ⟨⟨by decide, by decide, by decide⟩, ?_, ?_⟩
    · rintro h e k hk
      cases e
      simp only [List.mem_singleton] at hk
      subst hk
      exact ⟨by decide, by decide, by decide⟩
    · rw [KeyValuesPlaced, KeyValuesPlaced, RAstKeyValue.Placed]
      refine ⟨⟨⟨by decide, by decide, by decide⟩, ⟨1, 4⟩, ⟨by decide, by decide, rfl⟩, by decide, ?_⟩, trivial⟩
      rw [OptPlaced, RAstValue.Placed]
      exact ⟨by decide, by decide, by decide⟩
  · refine ⟨⟨by decide, by decide, by decide⟩, ?_, ?_⟩
    · rintro h e k hk
      cases e
      simp only [List.mem_cons, List.not_mem_nil, or_false] at hk
      rcases hk with rfl | rfl <;> exact ⟨by decide, by decide, by decide⟩
    · rw [KeyValuesPlaced, KeyValuesPlaced, RAstKeyValue.Placed]
      refine ⟨⟨⟨by decide, by decide, by decide⟩, ⟨3, 4⟩, ⟨by decide, by decide, rfl⟩, by decide, ?_⟩, trivial⟩
      rw [OptPlaced, RAstValue.Placed]
      exact ⟨by decide, by decide, by decide⟩

theorem flatDoc_placed : flatDoc.Placed ∧ NoneBelow flatDoc.sections := by
  refine ⟨⟨by decide, ?_, ?_⟩, ?_⟩
  · rw [flatDoc, KeyValuesPlaced, KeyValuesPlaced, RAstKeyValue.Placed]
    refine ⟨⟨⟨by decide, by decide, by decide⟩, ⟨0, 6⟩, ⟨by decide, by decide, by decide, by decide, rfl⟩, by decide, ?_⟩, trivial⟩
    rw [OptPlaced, RAstValue.Placed, ItemsPlaced, ItemsPlaced, ItemsPlaced, RAstItem.Placed, RAstItem.Placed, RAstValue.Placed, RAstValue.Placed,
      KeyValuesPlaced, KeyValuesPlaced, RAstKeyValue.Placed]
    refine ⟨⟨by decide, by decide, by decide⟩, ⟨by decide, by decide, by decide⟩, ⟨⟨by decide, by decide, by decide⟩,
      ⟨⟨by decide, by decide, by decide⟩, ⟨0, 16⟩, ⟨by decide, by decide, rfl⟩, by decide, ?_⟩, trivial⟩, trivial⟩
    rw [OptPlaced, RAstValue.Placed]
    exact ⟨by decide, by decide, by decide⟩
  · intro s hs
    simp only [flatDoc, List.mem_singleton] at hs
    subst hs
    refine ⟨⟨by decide, by decide, by decide⟩, ?_, ?_⟩
    · rintro h e k hk
      cases e
      simp only [List.mem_singleton] at hk
      subst hk
      exact ⟨by decide, by decide, by decide⟩
    · rw [KeyValuesPlaced, KeyValuesPlaced, RAstKeyValue.Placed]
      refine ⟨⟨⟨by decide, by decide, by decide⟩, ⟨2, 4⟩, ⟨by decide, by decide, rfl⟩, by decide, ?_⟩, trivial⟩
      rw [OptPlaced, RAstValue.Placed]
      exact ⟨by decide, by decide, by decide⟩
  · rintro pre s post e a ha
    have hl := congrArg List.length e
    simp only [flatDoc, List.length_append, List.length_cons, List.length_nil] at hl
    cases pre with
    | nil => cases ha
    | cons => simp only [List.length_cons] at hl; omega

/-- A document of the hypotheses of both theorems, and its outline of ranges. -/
example : flatDoc.Placed ∧ NoneBelow flatDoc.sections ∧
    (createSymbols (fun _ => .number) flatDoc.tree.1).map Symbol.range = [at_ 0 2 20, ⟨⟨1, 0⟩, ⟨2, 5⟩⟩] :=
  ⟨flatDoc_placed.1, flatDoc_placed.2, by decide +kernel⟩

/-- Both documents have no errors, so that their outlines show them. -/
example : flatDoc.erase.tree.2 = [] ∧ belowDoc.erase.tree.2 = [] ∧ (createSymbols (fun _ => .number) flatDoc.tree.1).length = 2 := by
  refine ⟨by decide +kernel, by decide +kernel, by decide +kernel⟩

/-- The symbols below a symbol. -/
def Symbol.children : Symbol → List Symbol
  | .mk _ _ _ cs => cs

/-- **C87**, where it fails: the element of `[[a]]` continued by `[a.b]` reaches beyond the symbol of `a`. -/
theorem C87_outline_false : belowDoc.Placed ∧ belowDoc.tree.2 = [] ∧
    ∃ c ∈ createSymbols (fun _ => .number) belowDoc.tree.1, ¬ Nested c := by
  refine ⟨belowDoc_placed, by decide +kernel, ?_⟩
  have h : ∃ c ∈ createSymbols (fun _ => .number) belowDoc.tree.1, ∃ d ∈ c.children, ¬ (d.range.stop.le c.range.stop = true) := by
    decide +kernel
  obtain ⟨c, hc, d, hd, hn⟩ := h
  refine ⟨c, hc, fun h => ?_⟩
  cases h with
  | mk h1 _ => exact hn (h1 d hd).2

end Tombi.Outline
