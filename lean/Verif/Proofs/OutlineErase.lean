import Verif.Proofs.Outline
/-! Without their ranges, the document trees of `Model/Outline.lean` are those of `Model/DocumentTree.lean`. -/
namespace Tombi.Outline
open Tombi (DKey TableKind ArrayKind DValue DError DEntries DTable)

variable {σ : Type}

mutual
/-- The value of a syntax tree without ranges. -/
def RAstValue.erase : RAstValue σ → AstValue σ
  | .scalar _ s => .scalar s
  | .bad _ => .bad
  | .array _ items => .array (eraseItems items)
  | .inlineTable _ kvs => .inlineTable (eraseKeyValues kvs)
/-- The elements without ranges. -/
def eraseItems : List (RAstItem σ) → List (AstItem σ)
  | [] => []
  | i :: is => i.erase :: eraseItems is
/-- The element without ranges. -/
def RAstItem.erase : RAstItem σ → AstItem σ
  | .value v => .value v.erase
  | .keyValue kv => .keyValue kv.erase
/-- The key-value without ranges. -/
def RAstKeyValue.erase : RAstKeyValue σ → AstKeyValue σ
  | .mk _ keys none => .mk (keys.map (·.map RKey.text)) none
  | .mk _ keys (some v) => .mk (keys.map (·.map RKey.text)) (some v.erase)
/-- The key-values without ranges. -/
def eraseKeyValues : List (RAstKeyValue σ) → List (AstKeyValue σ)
  | [] => []
  | kv :: kvs => kv.erase :: eraseKeyValues kvs
end

/-- The section without ranges. -/
def RAstSection.erase (s : RAstSection σ) : AstSection σ :=
  ⟨s.isArray, s.header.map (·.map RKey.text), eraseKeyValues s.kvs⟩

/-- The syntax tree without ranges. -/
def RAstRoot.erase (r : RAstRoot σ) : AstRoot σ := ⟨eraseKeyValues r.kvs, r.sections.map RAstSection.erase⟩

theorem eraseEntries_append : (a b : REntries σ) → eraseEntries (a ++ b) = eraseEntries a ++ eraseEntries b
  | [], b => by simp only [List.nil_append, eraseEntries]
  | (k, v) :: a, b => by simp only [List.cons_append, eraseEntries, eraseEntries_append a b]

theorem eraseAll_append : (a b : List (RValue σ)) → eraseAll (a ++ b) = eraseAll a ++ eraseAll b
  | [], b => by simp only [List.nil_append, eraseAll]
  | v :: a, b => by simp only [List.cons_append, eraseAll, eraseAll_append a b]

theorem eraseAll_map : (a : List (RValue σ)) → eraseAll a = a.map RValue.erase
  | [] => by rw [eraseAll]; rfl
  | v :: a => by rw [eraseAll, eraseAll_map a]; rfl

theorem dget_erase (k : DKey) : (e : REntries σ) → dget (eraseEntries e) k = (rget e k).map RValue.erase
  | [] => by rw [eraseEntries, dget, rget]; rfl
  | (k', v) :: e => by
    rw [eraseEntries, dget, rget]
    by_cases h : k'.text = k
    · rw [if_pos h, if_pos h]; rfl
    · rw [if_neg h, if_neg h, dget_erase k e]

theorem dset_erase (k : DKey) (v : RValue σ) : (e : REntries σ) → dset (eraseEntries e) k v.erase = eraseEntries (rset e k v)
  | [] => by rw [eraseEntries, dset, rset, eraseEntries]
  | (k', v') :: e => by
    rw [eraseEntries, dset, rset]
    by_cases h : k'.text = k
    · rw [if_pos h, if_pos h, eraseEntries]
    · rw [if_neg h, if_neg h, eraseEntries, dset_erase k v e]

theorem dlast_table {vs1 : List (DValue σ)} {k1 k2 : TableKind} {e1 e2 : DEntries σ} (hl : vs1.getLast? = some (.table k1 e1)) :
    mergeLast vs1 [.table k2 e2] =
      (vs1.dropLast ++ [(mergeValue [] (.table k1 e1) (.table k2 e2)).1], (mergeValue [] (.table k1 e1) (.table k2 e2)).2) := by
  rw [mergeLast]
  exact hl

theorem dlast_push {vs1 : List (DValue σ)} {k2 : TableKind} {e2 : DEntries σ}
    (hl : ∀ k e, vs1.getLast? ≠ some (.table k e)) : mergeLast vs1 [.table k2 e2] = (vs1 ++ [.table k2 e2], []) := by
  rw [mergeLast.eq_3]
  exact fun k e => hl k e

mutual
theorem rmergeEntries_erase : (e2 e1 : REntries σ) →
    mergeEntries (eraseEntries e1) (eraseEntries e2) = (eraseEntries (rmergeEntries e1 e2).1, (rmergeEntries e1 e2).2)
  | [], e1 => by simp only [eraseEntries, mergeEntries, rmergeEntries]
  | (k, v2) :: e2, e1 => by
    rw [eraseEntries, mergeEntries, dget_erase, rmergeEntries]
    cases h : rget e1 k.text with
    | none =>
      have := rmergeEntries_erase e2 (e1 ++ [(k, v2)])
      simp only [eraseEntries_append, eraseEntries] at this
      simp only [Option.map_none, this]
    | some v1 =>
      simp only [Option.map_some, rmergeValue_erase v2 k.text v1, dset_erase, rmergeEntries_erase e2]
theorem rmergeValue_erase : (v2 : RValue σ) → (key : DKey) → (v1 : RValue σ) →
    mergeValue key v1.erase v2.erase = ((rmergeValue key v1 v2).1.erase, (rmergeValue key v1 v2).2)
  | .table k2 r2 e2, key, v1 => by
    cases v1 with
    | table k1 r1 e1 =>
      simp only [RValue.erase, mergeValue, rmergeValue]
      by_cases h : tableConflict k1 (eraseEntries e1) k2 (eraseEntries e2) = true
      · simp only [if_pos h, RValue.erase]
      · simp only [if_neg h, RValue.erase, rmergeEntries_erase e2 e1]
    | scalar => simp only [RValue.erase, mergeValue, rmergeValue]
    | array => simp only [RValue.erase, mergeValue, rmergeValue]
    | incomplete => simp only [RValue.erase, mergeValue, rmergeValue]
  | .array a2 r2 vs2, key, v1 => by
    cases v1 with
    | array a1 r1 vs1 =>
      simp only [RValue.erase, mergeValue, rmergeValue]
      by_cases h : a1 ≠ .array ∧ a2 ≠ .array
      · by_cases h2 : a2 = .parentArrayOfTable
        · simp only [if_pos h, if_pos h2, RValue.erase, rmergeLast_erase vs2 r1 vs1]
        · simp only [if_pos h, if_neg h2, RValue.erase, eraseAll_append]
      · simp only [if_neg h, RValue.erase]
    | scalar => simp only [RValue.erase, mergeValue, rmergeValue]
    | table => simp only [RValue.erase, mergeValue, rmergeValue]
    | incomplete => simp only [RValue.erase, mergeValue, rmergeValue]
  | .scalar r s, key, v1 => by simp only [RValue.erase, mergeValue, rmergeValue]
  | .incomplete r, key, v1 => by simp only [RValue.erase, mergeValue, rmergeValue]
theorem rmergeLast_erase : (vs2 : List (RValue σ)) → (r1 : Range) → (vs1 : List (RValue σ)) →
    mergeLast (eraseAll vs1) (eraseAll vs2) = (eraseAll (rmergeLast r1 vs1 vs2).1.2, (rmergeLast r1 vs1 vs2).2)
  | [], r1, vs1 => by simp only [eraseAll, mergeLast, rmergeLast]
  | [v2], r1, vs1 => by
    have hl : (eraseAll vs1).getLast? = vs1.getLast?.map RValue.erase := by rw [eraseAll_map, List.getLast?_map]
    have hd : (eraseAll vs1).dropLast = eraseAll vs1.dropLast := by rw [eraseAll_map, eraseAll_map, List.map_dropLast]
    cases v2 with
    | table k2 r2 e2 =>
      have hm := fun v1 => rmergeValue_erase (.table k2 r2 e2) [] v1
      cases hv : vs1.getLast? with
      | none =>
        rw [hv] at hl
        rw [eraseAll, eraseAll, RValue.erase, dlast_push (fun k e he => by rw [hl] at he; cases he),
          last_push (fun v he => by rw [hv] at he; cases he), eraseAll_append, eraseAll, eraseAll, RValue.erase]
      | some v =>
        rw [hv, Option.map_some] at hl
        cases v with
        | table k1 r e1 =>
          have := hm (.table k1 r e1)
          simp only [RValue.erase] at this hl
          rw [eraseAll, eraseAll, RValue.erase, dlast_table hl, last_table hv, eraseAll_append, this, hd, eraseAll, eraseAll]
        | scalar =>
          simp only [RValue.erase] at hl
          rw [eraseAll, eraseAll, RValue.erase, dlast_push (fun k e he => by rw [hl] at he; cases he),
            last_push (fun v he => by rw [hv] at he; cases he; exact id), eraseAll_append, eraseAll, eraseAll, RValue.erase]
        | array =>
          simp only [RValue.erase] at hl
          rw [eraseAll, eraseAll, RValue.erase, dlast_push (fun k e he => by rw [hl] at he; cases he),
            last_push (fun v he => by rw [hv] at he; cases he; exact id), eraseAll_append, eraseAll, eraseAll, RValue.erase]
        | incomplete =>
          simp only [RValue.erase] at hl
          rw [eraseAll, eraseAll, RValue.erase, dlast_push (fun k e he => by rw [hl] at he; cases he),
            last_push (fun v he => by rw [hv] at he; cases he; exact id), eraseAll_append, eraseAll, eraseAll, RValue.erase]
    | scalar => simp only [eraseAll, RValue.erase, mergeLast, rmergeLast]
    | array => simp only [eraseAll, RValue.erase, mergeLast, rmergeLast]
    | incomplete => simp only [eraseAll, RValue.erase, mergeLast, rmergeLast]
  | v :: w :: rest, r1, vs1 => by
    have := rmergeLast_erase (w :: rest) r1 vs1
    simp only [eraseAll] at this
    simp only [eraseAll, mergeLast, rmergeLast, this]
end

theorem rinsertEntry_nil (k : RKey) (v : RValue σ) : rinsertEntry [] k v = .ok [(k, v)] := rfl

theorem insertEntry_nil (k : DKey) (v : DValue σ) : insertEntry [] k v = .ok [(k, v)] := rfl

theorem merge_erase (a b : RTable σ) : a.erase.merge b.erase = ((a.merge b).1.erase, (a.merge b).2) := by
  rw [DTable.merge, RTable.merge]
  by_cases h : tableConflict a.kind (eraseEntries a.entries) b.kind (eraseEntries b.entries) = true
  · have h' : tableConflict a.erase.kind a.erase.entries b.erase.kind b.erase.entries = true := h
    rw [if_pos h, if_pos h']
    rfl
  · have h' : ¬ tableConflict a.erase.kind a.erase.entries b.erase.kind b.erase.entries = true := h
    rw [if_neg h, if_neg h']
    simp only [RTable.erase, rmergeEntries_erase]

theorem value_erase (t : RTable σ) : t.value.erase = t.erase.value := by
  simp only [RTable.value, RTable.erase, DTable.value, RValue.erase]

theorem rparents_erase : (parents : List RKey) → (acc : RTable σ × List DError) →
    (parents.map RKey.text).foldl (fun (acc : DTable σ × List DError) key =>
        match insertEntry [] key acc.1.value with
        | .ok e => (⟨.parentKey, e⟩, acc.2)
        | .error errs => (acc.1, acc.2 ++ errs)) (acc.1.erase, acc.2) =
    (fun r : RTable σ × List DError => (r.1.erase, r.2)) (parents.foldl (fun (acc : RTable σ × List DError) key =>
        match rinsertEntry [] key acc.1.value with
        | .ok e => (⟨.parentKey, Range.new key.range.start acc.1.range.stop, e⟩, acc.2)
        | .error errs => (acc.1, acc.2 ++ errs)) acc)
  | [], acc => rfl
  | k :: ks, acc => by
    rw [List.map_cons, List.foldl_cons, List.foldl_cons, ← rparents_erase ks]
    simp only [insertEntry_nil, rinsertEntry_nil, RTable.erase, eraseEntries, RTable.value, DTable.value, RValue.erase]

theorem rkeyValueTable_erase (range : Range) (keys : List RKey) (v : RValue σ) :
    keyValueTable (keys.map RKey.text) v.erase = ((rkeyValueTable range keys v).1.erase, (rkeyValueTable range keys v).2) := by
  rw [keyValueTable, rkeyValueTable, ← List.map_reverse]
  cases keys.reverse with
  | nil => simp only [List.map_nil, RTable.erase, eraseEntries]
  | cons last parents =>
    simp only [List.map_cons, insertEntry_nil, rinsertEntry_nil]
    have := rparents_erase parents (⟨.keyValue, last.range.add v.range, [(last, v)]⟩, [])
    simp only [RTable.erase, eraseEntries] at this
    exact this

mutual
theorem value_tree_erase : (v : RAstValue σ) → v.erase.tree = (v.tree.1.erase, v.tree.2)
  | .scalar r s => by simp only [RAstValue.erase, AstValue.tree, RAstValue.tree, RValue.erase]
  | .bad r => by simp only [RAstValue.erase, AstValue.tree, RAstValue.tree, RValue.erase]
  | .array r items => by simp only [RAstValue.erase, AstValue.tree, RAstValue.tree, RValue.erase, items_tree_erase items]
  | .inlineTable r kvs => by
    have := keyValues_tree_erase kvs ⟨.table, r, []⟩
    simp only [RTable.erase, eraseEntries] at this
    simp only [RAstValue.erase, AstValue.tree, RAstValue.tree, RValue.erase, this]
theorem items_tree_erase : (is : List (RAstItem σ)) → arrayTrees (eraseItems is) = (eraseAll (rarrayTrees is).1, (rarrayTrees is).2)
  | [] => by simp only [eraseItems, arrayTrees, rarrayTrees, eraseAll]
  | i :: is => by simp only [eraseItems, arrayTrees, rarrayTrees, eraseAll, item_tree_erase i, items_tree_erase is]
theorem item_tree_erase : (i : RAstItem σ) → i.erase.tree = (i.tree.1.erase, i.tree.2)
  | .value v => by simp only [RAstItem.erase, AstItem.tree, RAstItem.tree, value_tree_erase v]
  | .keyValue kv => by simp only [RAstItem.erase, AstItem.tree, RAstItem.tree, keyValue_tree_erase kv, value_erase]
theorem keyValue_tree_erase : (kv : RAstKeyValue σ) → kv.erase.tree = (kv.tree.1.erase, kv.tree.2)
  | .mk range none none => by simp only [RAstKeyValue.erase, Option.map_none, AstKeyValue.tree, RAstKeyValue.tree, RTable.erase, eraseEntries]
  | .mk range none (some v) => by
    simp only [RAstKeyValue.erase, Option.map_none, AstKeyValue.tree, RAstKeyValue.tree, RTable.erase, eraseEntries]
  | .mk range (some keys) none => by
    have := rkeyValueTable_erase (σ := σ) range keys (.incomplete ⟨range.stop, range.stop⟩)
    simp only [RValue.erase] at this
    simp only [RAstKeyValue.erase, Option.map_some, AstKeyValue.tree, RAstKeyValue.tree, this]
  | .mk range (some keys) (some v) => by
    simp only [RAstKeyValue.erase, Option.map_some, AstKeyValue.tree, RAstKeyValue.tree, value_tree_erase v, rkeyValueTable_erase range]
theorem keyValues_tree_erase : (kvs : List (RAstKeyValue σ)) → (t : RTable σ) →
    mergeKeyValues t.erase (eraseKeyValues kvs) = ((rmergeKeyValues t kvs).1.erase, (rmergeKeyValues t kvs).2)
  | [], t => by simp only [eraseKeyValues, mergeKeyValues, rmergeKeyValues]
  | kv :: kvs, t => by
    simp only [eraseKeyValues, mergeKeyValues, rmergeKeyValues, keyValue_tree_erase kv, merge_erase, keyValues_tree_erase kvs]
end

theorem rinsertTable_erase (t : RTable σ) (k : RKey) :
    insertTable t.erase k.text = ((rinsertTable t k).1.erase, (rinsertTable t k).2) := by
  simp only [insertTable, rinsertTable, insertEntry_nil, rinsertEntry_nil, RTable.erase, eraseEntries, RTable.value, DTable.value, RValue.erase]

theorem rinsertArray_erase (t : RTable σ) (k : RKey) (kind : ArrayKind) :
    insertArrayOfTables t.erase k.text kind = ((rinsertArrayOfTables t k kind).1.erase, (rinsertArrayOfTables t k kind).2) := by
  simp only [insertArrayOfTables, rinsertArrayOfTables, insertEntry_nil, rinsertEntry_nil, RTable.erase, eraseEntries, RTable.value, DTable.value,
    RValue.erase, eraseAll]

theorem rnest_erase (arrays : List (List DKey)) : (keys : List RKey) → (isArray : Bool) → (t : RTable σ) →
    nestHeader arrays (keys.map RKey.text) isArray t.erase = ((rnestHeader arrays keys isArray t).1.erase, (rnestHeader arrays keys isArray t).2)
  | [], isArray, t => by simp only [List.map_nil, nestHeader, rnestHeader]
  | k :: ks, isArray, t => by
    rw [List.map_cons, nestHeader, rnestHeader, List.map_reverse]
    cases isArray with
    | false =>
      simp only [Bool.false_eq_true, if_false, rinsertTable_erase, rnest_erase arrays ks]
    | true =>
      simp only [if_true, rinsertArray_erase, rnest_erase arrays ks]

theorem rparentKeys_erase (header : List DKey) (prev : List (RAstSection σ)) :
    parentArrayKeys (prev.map RAstSection.erase) header = rparentArrayKeys prev header := by
  rw [parentArrayKeys, rparentArrayKeys, List.filterMap_map]
  rfl

theorem section_tree_erase (prev : List (RAstSection σ)) (s : RAstSection σ) :
    s.erase.tree (prev.map RAstSection.erase) = ((s.tree prev).1.erase, (s.tree prev).2) := by
  obtain ⟨isArray, range, header, kvs⟩ := s
  have hb := keyValues_tree_erase kvs ⟨.table, range, []⟩
  simp only [RTable.erase, eraseEntries] at hb
  cases header with
  | none => simp only [RAstSection.erase, Option.map_none, AstSection.tree, RAstSection.tree, RTable.erase, eraseEntries]
  | some header =>
    simp only [RAstSection.erase, Option.map_some, AstSection.tree, RAstSection.tree, rparentKeys_erase, hb, ← List.map_reverse]
    cases isArray with
    | false =>
      have := rnest_erase (rparentArrayKeys prev (header.map RKey.text)) header.reverse false (rmergeKeyValues ⟨.table, range, []⟩ kvs).1
      simp only [RTable.erase] at this
      simp only [Bool.false_eq_true, if_false, this, RTable.erase]
    | true =>
      cases header.reverse with
      | nil => simp only [List.map_nil, if_true, RTable.erase]
      | cons k ks =>
        have h1 := rinsertArray_erase (rmergeKeyValues ⟨.table, range, []⟩ kvs).1 k .arrayOfTable
        have h2 := rnest_erase (rparentArrayKeys prev (header.map RKey.text)) ks
          ((rparentArrayKeys prev (header.map RKey.text)).contains (ks.reverse.map RKey.text))
          (rinsertArrayOfTables (rmergeKeyValues ⟨.table, range, []⟩ kvs).1 k .arrayOfTable).1
        simp only [RTable.erase] at h1 h2
        simp only [List.map_cons, if_true, h1, RTable.erase, ← List.map_reverse, h2]

theorem sections_tree_erase : (ss : List (RAstSection σ)) → (prev : List (RAstSection σ)) → (t : RTable σ) →
    mergeSections (prev.map RAstSection.erase) t.erase (ss.map RAstSection.erase) = ((rmergeSections prev t ss).1.erase, (rmergeSections prev t ss).2)
  | [], prev, t => by simp only [List.map_nil, mergeSections, rmergeSections]
  | s :: ss, prev, t => by
    have := sections_tree_erase ss (s :: prev) (t.merge (s.tree prev).1).1
    rw [List.map_cons] at this
    simp only [List.map_cons, mergeSections, rmergeSections, section_tree_erase, merge_erase, this]

theorem root_tree_erase (r : RAstRoot σ) : r.erase.tree = (r.tree.1.erase, r.tree.2) := by
  have h1 := keyValues_tree_erase r.kvs ⟨.root, r.range, []⟩
  have h2 := sections_tree_erase r.sections [] (rmergeKeyValues ⟨.root, r.range, []⟩ r.kvs).1
  simp only [RTable.erase, eraseEntries, List.map_nil] at h1 h2
  simp only [RAstRoot.erase, AstRoot.tree, RAstRoot.tree, h1, RTable.erase, h2]

end Tombi.Outline
