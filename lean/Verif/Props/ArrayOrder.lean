import Verif.Proofs.ArrayOrder5
import Verif.Proofs.KeysMeaning2

/-! Property C32: sorting the values of an array (the key-values of an inline table). -/
namespace Tombi
open Spec

variable {C : Type}

/-! ### Examples -/

/-- A group without blanks. -/
def exGroup (items : List (ArrayItem String)) : ValueGroup String :=
  ⟨sourceChildren 0 items, fun i => (items[i]?).bind (·.trailing)⟩

theorem exGroup_is (items : List (ArrayItem String)) : IsGroup (exGroup items) items := by
  refine ⟨?_, fun _ => rfl⟩
  show (sourceChildren 0 items).filter notOther = _
  rw [sourceChildren_blocks, strip_blocks]

/-- Integers as sort keys. -/
def exIntKeys (ns : List Int) (i : Nat) : Option SortKey := (ns[i]?).map .integer

/-- `3 # c`, `, # d`, `1 # a`, `,`, `2`. -/
def exItems : List (ArrayItem String) := [⟨some "# c", some ⟨[], some "# d"⟩⟩, ⟨some "# a", some ⟨[], none⟩⟩, ⟨none, none⟩]

/-- `2 # b`, `,`, `1`. -/
def exLosing : List (ArrayItem String) := [⟨some "# b", some ⟨[], none⟩⟩, ⟨none, none⟩]

/-- `2`, `,`, `1 # c` in a group that is not the last one. -/
def exDoubling : List (ArrayItem String) := [⟨none, some ⟨[], none⟩⟩, ⟨some "# c", none⟩]

/-! ### No sorting -/

/-- **C32**, where nothing is sorted: the values stay in place, each with all its comments. A comma is missing only after
the last value of the array, and only if it was missing. -/
theorem C32_unsorted (g : ValueGroup C) (items : List (ArrayItem C)) (lastGroup hasComma : Bool)
    (sort : List (Nat × Option (CommaRef C)) → Option (List (Nat × Option (CommaRef C)))) (hg : IsGroup g items)
    (hs : sort (withComma none g.children) = none) :
    (printed (g.edit lastGroup hasComma sort) =
      (List.range items.length).map fun i => (i, attached ((items[i]?).bind (·.trailing)) ((items[i]?).bind (·.comma)))) ∧
    (printedCommas (g.edit lastGroup hasComma sort) =
      (List.range items.length).map fun i => ((items[i]?).bind (·.comma)).isSome || hasComma || !(lastGroup && i + 1 == items.length)) := by
  rw [hg.values] at hs
  obtain ⟨h1, h2⟩ := edit_unsorted hg lastGroup hasComma hs
  unfold printed printedCommas
  rw [h1, List.map_map, List.map_map]
  refine ⟨List.map_congr_left fun i hi => ?_, List.map_congr_left fun i hi => ?_⟩
  · simp only [Function.comp]
    rw [h2 i (List.mem_range.1 hi)]
    congr 1
    exact (attached_extra _ _ (some i) _).1
  · simp only [Function.comp]
    have := (attached_extra (trailOf items i) (commaOf items i) (some i) (appendA items lastGroup hasComma i)).2
    unfold extraA
    rw [this]
    unfold appendA commaOf
    have hi := List.mem_range.1 hi
    have : (i == items.length - 1) = (i + 1 == items.length) := by
      rw [Bool.eq_iff_iff, beq_iff_eq, beq_iff_eq]
      omega
    rw [this, Bool.or_assoc]

example : printed ((exGroup exItems).edit true false fun _ => none) = [(0, ["# c", "# d"]), (1, ["# a"]), (2, [])] ∧
    printedCommas ((exGroup exItems).edit true false fun _ => none) = [true, true, false] := by
  decide +kernel

/-! ### Sorting -/

theorem reordered_last (sorted : List (Nat × Option (CommaRef C))) :
    sorted = [] ∨ ∃ init lv, sorted = init ++ [lv] := by
  by_cases hl : sorted = []
  · exact .inl hl
  · exact .inr ⟨sorted.dropLast, sorted.getLast hl, (List.dropLast_concat_getLast hl).symm⟩

/-- **C32.** Sorting keeps the values, each once: they come in the order asked for, and every one but the last is followed
by a comma. The last one has a comma if there was one at the end of the group, or if the group is not the last one of the array, or
if its own comma had comments. -/
theorem C32_values (g : ValueGroup C) (items : List (ArrayItem C)) (lastGroup hasComma : Bool)
    (sort : List (Nat × Option (CommaRef C)) → Option (List (Nat × Option (CommaRef C)))) (sorted : List (Nat × Option (CommaRef C)))
    (hg : IsGroup g items) (hs : sort (withComma none g.children) = some sorted) (hr : Reordered items sorted)
    (hh : lastGroup = true → hasComma = ((items.getLast?).bind (·.comma)).isSome) :
    (printed (g.edit lastGroup hasComma sort)).map (·.1) = sorted.map (·.1) ∧
    (sorted.map (·.1)).Perm (List.range items.length) ∧
    (∀ b ∈ (printedCommas (g.edit lastGroup hasComma sort)).dropLast, b = true) ∧
    ∀ l, (sorted.map (·.1)).getLast? = some l → (printedCommas (g.edit lastGroup hasComma sort)).getLast? =
      some (((items.getLast?).bind (·.comma)).isSome || !lastGroup || (((items[l]?).bind (·.comma)).map fun c => !c.bare).getD false) := by
  rw [hg.values] at hs
  rcases reordered_last sorted with rfl | ⟨init, lv, rfl⟩
  · have hnil : items = [] := by
      have := hr.perm.length_eq
      simp only [List.map_nil, List.length_nil, List.length_range] at this
      exact List.length_eq_zero_iff.1 this.symm
    subst hnil
    have hv : withComma none g.children = [] := hg.values
    have he : g.edit lastGroup hasComma sort = g := by
      unfold ValueGroup.edit
      simp only []
      rw [hv]
      have hs' : sort [] = some [] := hs
      rw [hs']; rfl
    rw [he]
    unfold printed printedCommas
    rw [hv]
    exact ⟨rfl, .refl _, fun b hb => (by cases hb), fun l hl => (by cases hl)⟩
  · have hpos : 0 < items.length := by
      have := hr.perm.length_eq
      simp at this; omega
    have hlc : ((items.getLast?).bind (·.comma)).isSome = (commaOf items (items.length - 1)).isSome := by
      unfold commaOf; rw [List.getLast?_eq_getElem?]
    obtain ⟨h1, h2⟩ := edit_sorted hg lastGroup hasComma hr hs _ hlc
    have hfin := fun v hv => (final_values hr hlc hh v hv (hasComma := hasComma) (lastGroup := lastGroup)).1
    have hnd : ((init ++ [lv]).map (·.1)).Nodup := hr.perm.nodup_iff.2 List.nodup_range
    unfold printed printedCommas
    rw [h1, List.map_map, List.map_map, List.map_map]
    refine ⟨rfl, hr.perm, ?_, fun l hl => ?_⟩
    · intro b hb
      rw [List.map_append, List.map_singleton, List.dropLast_concat] at hb
      obtain ⟨v, hv, rfl⟩ := List.mem_map.1 hb
      simp only [Function.comp]
      rw [hfin v (List.mem_append_left _ hv)]
      have : (v.1 == lv.1) = false := by
        apply Bool.eq_false_iff.2
        intro h
        rw [List.map_append, List.nodup_append] at hnd
        exact hnd.2.2 v.1 (List.mem_map.2 ⟨v, hv, rfl⟩) lv.1 (by simp) (beq_iff_eq.1 h)
      rw [this]; simp
    · rw [List.map_append, List.map_singleton, List.getLast?_concat] at hl
      obtain rfl := Option.some.inj hl
      rw [List.map_append, List.map_singleton, List.getLast?_concat]
      simp only [Function.comp]
      rw [hfin lv (by simp)]
      simp only [beq_self_eq_true, Bool.not_true, Bool.or_false]
      rfl

/-- **C32**, comments: sorting keeps every comment with its value, if `LastKept` holds for the value that comes last.
Missing: the other cases, where comments are lost or doubled, see `C32_false`. -/
theorem C32_comments_partial (g : ValueGroup C) (items : List (ArrayItem C)) (lastGroup hasComma : Bool)
    (sort : List (Nat × Option (CommaRef C)) → Option (List (Nat × Option (CommaRef C)))) (sorted : List (Nat × Option (CommaRef C)))
    (hg : IsGroup g items) (hs : sort (withComma none g.children) = some sorted) (hr : Reordered items sorted)
    (hh : lastGroup = true → hasComma = ((items.getLast?).bind (·.comma)).isSome)
    (hk : ∀ l, (sorted.map (·.1)).getLast? = some l → LastKept items lastGroup l) :
    printed (g.edit lastGroup hasComma sort) =
      sorted.map fun v => (v.1, attached ((items[v.1]?).bind (·.trailing)) ((items[v.1]?).bind (·.comma))) := by
  rcases reordered_last sorted with rfl | ⟨init, lv, rfl⟩
  · have := (C32_values g items lastGroup hasComma sort [] hg hs hr hh).1
    rw [List.map_nil] at this
    rw [List.map_eq_nil_iff.1 this, List.map_nil]
  · rw [hg.values] at hs
    have hlc : ((items.getLast?).bind (·.comma)).isSome = (commaOf items (items.length - 1)).isSome := by
      unfold commaOf; rw [List.getLast?_eq_getElem?]
    obtain ⟨h1, h2⟩ := edit_sorted hg lastGroup hasComma hr hs _ hlc
    unfold printed
    rw [h1, List.map_map]
    apply List.map_congr_left
    intro v hv
    simp only [Function.comp]
    rw [h2 v hv]
    congr 1
    exact (final_values hr hlc hh v hv).2 (.inr (hk lv.1 (by simp)))

/-- **C32**, comments: whatever the case, all values but the one that comes last keep exactly their comments. -/
theorem C32_other_comments (g : ValueGroup C) (items : List (ArrayItem C)) (lastGroup hasComma : Bool)
    (sort : List (Nat × Option (CommaRef C)) → Option (List (Nat × Option (CommaRef C)))) (sorted : List (Nat × Option (CommaRef C)))
    (hg : IsGroup g items) (hs : sort (withComma none g.children) = some sorted) (hr : Reordered items sorted)
    (hh : lastGroup = true → hasComma = ((items.getLast?).bind (·.comma)).isSome) :
    (printed (g.edit lastGroup hasComma sort)).dropLast =
      (sorted.map fun v => (v.1, attached ((items[v.1]?).bind (·.trailing)) ((items[v.1]?).bind (·.comma)))).dropLast := by
  rcases reordered_last sorted with rfl | ⟨init, lv, rfl⟩
  · have := (C32_values g items lastGroup hasComma sort [] hg hs hr hh).1
    rw [List.map_nil] at this
    rw [List.map_eq_nil_iff.1 this, List.map_nil]
  · rw [hg.values] at hs
    have hlc : ((items.getLast?).bind (·.comma)).isSome = (commaOf items (items.length - 1)).isSome := by
      unfold commaOf; rw [List.getLast?_eq_getElem?]
    obtain ⟨h1, h2⟩ := edit_sorted hg lastGroup hasComma hr hs _ hlc
    have hnd : ((init ++ [lv]).map (·.1)).Nodup := hr.perm.nodup_iff.2 List.nodup_range
    unfold printed
    rw [h1, List.map_map, List.map_append, List.map_append, List.map_singleton, List.map_singleton, List.dropLast_concat,
      List.dropLast_concat]
    apply List.map_congr_left
    intro v hv
    simp only [Function.comp]
    rw [h2 v (List.mem_append_left _ hv)]
    congr 1
    refine (final_values hr hlc hh v (List.mem_append_left _ hv)).2 (.inl ?_)
    intro h
    rw [List.map_append, List.nodup_append] at hnd
    exact hnd.2.2 v.1 (List.mem_map.2 ⟨v, hv, rfl⟩) lv.1 (by simp) h

/-! ### The sorters -/

/-- **C32.** The order for all values of an array: the result has the same values, and their keys are in order. -/
theorem C32_order_all (g : ValueGroup C) (items : List (ArrayItem C)) (key : Nat → Option SortKey) (order : ValuesOrder)
    (sorted : List (Nat × Option (CommaRef C))) (hg : IsGroup g items)
    (h : sortAll key order (withComma none g.children) = some sorted) :
    Reordered items sorted ∧
    (sorted.map (·.1)).Pairwise fun i j => ∃ a b, key i = some a ∧ key j = some b ∧ InOrder order a b := by
  rw [hg.values] at h
  refine ⟨(sortAll_same h).reordered, ?_⟩
  rw [List.pairwise_map]
  exact sortAll_sorted h

/-- **C32.** There is a result exactly if all values have keys of one type. -/
theorem C32_order_all_some (g : ValueGroup C) (items : List (ArrayItem C)) (key : Nat → Option SortKey) (order : ValuesOrder)
    (hg : IsGroup g items) (hne : items ≠ []) :
    (sortAll key order (withComma none g.children)).isSome = true ↔ Sortable key (List.range items.length) := by
  rw [hg.values, ← sourceValues_ids]
  have hne' : sourceValues items ≠ [] := by
    intro h
    have := congrArg List.length (sourceValues_ids items)
    rw [h] at this
    simp at this
    exact hne (List.length_eq_zero_iff.1 this.symm)
  constructor
  · intro h
    obtain ⟨sorted, h⟩ := Option.isSome_iff_exists.1 h
    unfold sortAll at h
    obtain ⟨vs, h1, -⟩ := Option.map_eq_some_iff.1 h
    obtain ⟨⟨k0, h2⟩, h3, h4⟩ := sortableValues_spec h1
    refine ⟨k0, fun i hi => ?_⟩
    rw [← h3] at hi
    obtain ⟨v, hv, rfl⟩ := List.mem_map.1 hi
    obtain ⟨w, _, h5, _, h6⟩ := h4 v hv
    exact ⟨v.1, by rw [← h5]; exact h6, h2 v hv⟩
  · intro h
    unfold sortAll
    rw [Option.isSome_map]
    exact sortableValues_some hne' h

/-- **C32.** Orders for groups of values: the result has the same values; the values valid for an earlier schema come
first; and the values of one group are in the order of the group, if all have keys of one type. -/
theorem C32_order_groups (g : ValueGroup C) (items : List (ArrayItem C))
    (groups : List (ValuesOrder × (Nat → Bool) × (Nat → Option SortKey))) (hg : IsGroup g items) :
    Reordered items (sortByGroups groups (withComma none g.children)) ∧
    ((sortByGroups groups (withComma none g.children)).map (·.1)).Pairwise fun i j =>
      groupRank groups i ≤ groupRank groups j ∧
      ∀ order valid key, groupRank groups i = groupRank groups j → groups[groupRank groups i]? = some (order, valid, key) →
        Sortable key ((List.range items.length).filter fun k => groupRank groups k == groupRank groups i) →
        ∃ a b, key i = some a ∧ key j = some b ∧ InOrder order a b := by
  rw [hg.values]
  refine ⟨(sortByGroups_same groups _).reordered, ?_⟩
  rw [List.pairwise_map]
  have := sortByGroups_sorted groups (sourceValues items)
  rw [sourceValues_ids] at this
  exact this

/-- **C32.** Inline tables: the order of their key-values, which `getSorted` gives (see C30), has the same key-values. -/
theorem C32_inline_table {S σ : Type} (g : ValueGroup C) (items : List (ArrayItem C)) (w : SchemaWorld S σ) (fuel : Nat) (value : DValue σ)
    (acc : List Accessor) (paths : List (List Accessor)) (schema : Option S) (order : Option KeysOrder) (rs : List Nat)
    (hg : IsGroup g items) (hl : paths.length = items.length) (hk : ∀ p ∈ paths, ∀ a ∈ p, a.isKey = true)
    (h : getSorted w fuel value acc paths.zipIdx schema order = some rs) :
    Reordered items (rs.filterMap fun i => (withComma none g.children)[i]?) ∧
    (rs.filterMap fun i => (withComma none g.children)[i]?).map (·.1) = rs := by
  have hkey : ∀ q, atPath (pathAt paths) q rs = atPath (pathAt paths) q (List.range paths.length) := by
    intro q
    rw [← zipIdx_positions]
    exact getSorted_rel w eq_listRel (pathAt paths) fuel value acc paths.zipIdx schema order rs [] q h
      (fun t ht => pathAt_zipIdx ht) (Or.inr (Or.inr (Or.inl fun t ht a ha => hk t.1 (List.fst_mem_of_mem_zipIdx ht) a ha)))
  have hperm : rs.Perm (List.range items.length) := by rw [← hl]; exact perm_of_atPath _ hkey
  rw [hg.values]
  have hlen : (sourceValues items).length = items.length := by
    have := congrArg List.length (sourceValues_ids items)
    simpa using this
  have hget : ∀ i, i < items.length → ∃ v, (sourceValues items)[i]? = some v ∧ v.1 = i := by
    intro i hi
    refine ⟨(sourceValues items)[i]'(by omega), List.getElem?_eq_getElem _, ?_⟩
    have : ((sourceValues items).map (·.1))[i]'(by simp; omega) = i := by simp only [sourceValues_ids, List.getElem_range]
    simpa using this
  have hids : (rs.filterMap fun i => (sourceValues items)[i]?).map (·.1) = rs := by
    have hm : ∀ i ∈ rs, i < items.length := fun i hi => List.mem_range.1 (hperm.mem_iff.1 hi)
    clear h hkey hperm
    induction rs with
    | nil => rfl
    | cons i rs ih =>
      obtain ⟨v, h1, h2⟩ := hget i (hm i List.mem_cons_self)
      rw [List.filterMap_cons_some h1, List.map_cons, h2, ih fun i hi => hm i (List.mem_cons_of_mem _ hi)]
  refine ⟨SameValues.reordered ⟨?_, fun v hv => ?_⟩, hids⟩
  · rw [hids, sourceValues_ids]; exact hperm
  · obtain ⟨i, _, h1⟩ := List.mem_filterMap.1 hv
    exact ⟨v, List.mem_of_getElem? h1, rfl, .inl rfl⟩

example : ∃ sorted, sortAll (exIntKeys [3, 1, 2]) .ascending (withComma none (exGroup exItems).children) = some sorted ∧
    LastKept exItems true 0 ∧
    printed ((exGroup exItems).edit true false (sortAll (exIntKeys [3, 1, 2]) .ascending)) = [(1, ["# a"]), (2, []), (0, ["# c", "# d"])] ∧
    printedCommas ((exGroup exItems).edit true false (sortAll (exIntKeys [3, 1, 2]) .ascending)) = [true, true, true] :=
  ⟨_, rfl, .inr (.inr (.inl ⟨_, _, rfl, rfl, by decide⟩)), by decide +kernel, by decide +kernel⟩

/-- **C32 is false in general.** In `[2 # b ⏎ , 1]` the comment is lost when the values are sorted; in a group that is not
the last one and has the values `2, 1 # c`, without a comma at its end, the comment is printed twice. -/
theorem C32_false :
    printed ((exGroup exLosing).edit true false (sortAll (exIntKeys [2, 1]) .ascending)) = [(1, []), (0, [])] ∧
    printed ((exGroup exDoubling).edit false false (sortAll (exIntKeys [2, 1]) .ascending)) = [(1, ["# c"]), (0, ["# c"])] := by
  decide +kernel

example : IsGroup (exGroup exLosing) exLosing ∧ IsGroup (exGroup exDoubling) exDoubling := ⟨exGroup_is _, exGroup_is _⟩

end Tombi
