import Verif.Model.EditorSort
import Verif.Proofs.ArrayOrder5
import Verif.Proofs.EditorAgain
/-! What the editor does to one group of items. -/
namespace Tombi.Editing
open SyntaxKind
open Tombi.Formatter (Node Body Section Doc Comma Text)
open Tombi.Spec (ArrayItem IsGroup Reordered sourceChildren notOther)

/-! ### groups of a body -/

/-- A group before the rest of a body. -/
def groupBody (f : Option Nat) (items : List GroupItem) (rest : Body) : Body :=
  match items with
  | [] => rest
  | x :: xs => .item f x.1 x.2 (itemsBefore xs rest)

theorem groupBody_none (items : List GroupItem) (rest : Body) : groupBody none items rest = itemsBefore items rest := by
  cases items <;> rfl

theorem bodyOf_group (f : Option Nat) (items : List GroupItem) (rest : List Chunk) :
    bodyOf (.group f items :: rest) = groupBody f items (bodyOf rest) := by
  cases items <;> rfl

theorem bodyOf_chunksOf : (b : Body) → bodyOf (chunksOf b) = b
  | .nil => rfl
  | .dangling n cs rest => by rw [chunksOf, bodyOf, bodyOf_chunksOf rest]
  | .item f n c rest => by
    have ih := bodyOf_chunksOf rest
    rw [chunksOf]
    generalize chunksOf rest = chunks at ih ⊢
    unfold consItem
    split
    · rename_i items more
      rw [bodyOf]
      rw [bodyOf_group, groupBody_none] at ih
      rw [ih]
    · rw [bodyOf, ih]; rfl

/-- No group is empty. -/
def Proper (chunks : List Chunk) : Prop := ∀ f items, Chunk.group f items ∈ chunks → items ≠ []

theorem proper_chunksOf : (b : Body) → Proper (chunksOf b)
  | .nil => fun _ _ h => by cases h
  | .dangling n cs rest => fun f items h => by
    rw [chunksOf] at h
    rcases List.mem_cons.mp h with h | h
    · cases h
    · exact proper_chunksOf rest f items h
  | .item f n c rest => by
    have ih := proper_chunksOf rest
    intro g items h
    rw [chunksOf] at h
    unfold consItem at h
    split at h
    · rename_i its more he
      rcases List.mem_cons.mp h with h | h
      · cases h; exact List.cons_ne_nil _ _
      · exact ih g items (by rw [he]; exact List.mem_cons_of_mem _ h)
    · rcases List.mem_cons.mp h with h | h
      · cases h; exact List.cons_ne_nil _ _
      · exact ih g items h

theorem Proper.tail {c : Chunk} {chunks : List Chunk} (h : Proper (c :: chunks)) : Proper chunks :=
  fun f items hm => h f items (List.mem_cons_of_mem _ hm)

theorem hasItem_itemsBefore (items : List GroupItem) (rest : Body) :
    (itemsBefore items rest).hasItem = (!items.isEmpty || rest.hasItem) := by
  cases items <;> simp [itemsBefore, Body.hasItem]

theorem hasItem_groupBody (f : Option Nat) (items : List GroupItem) (rest : Body) :
    (groupBody f items rest).hasItem = (!items.isEmpty || rest.hasItem) := by
  cases items <;> simp [groupBody, Body.hasItem]

theorem hasItem_bodyOf : (chunks : List Chunk) → Proper chunks → (bodyOf chunks).hasItem = hasGroup chunks
  | [], _ => rfl
  | .dangling n cs :: rest, h => by
    rw [bodyOf, Body.hasItem, hasItem_bodyOf rest h.tail]; rfl
  | .group f items :: rest, h => by
    rw [bodyOf_group, hasItem_groupBody]
    have := h f items List.mem_cons_self
    cases items with
    | nil => exact absurd rfl this
    | cons => rfl

/-! ### the comma rule for all items -/

/-- The rule for commas, for all items of a group. -/
def ruleList (lastGroup hasComma : Bool) (items : List GroupItem) : List GroupItem :=
  items.mapIdx fun i x => commaRule (hasComma || !(lastGroup && i + 1 == items.length)) x.1 x.2

theorem ruleList_cons (lastGroup hasComma : Bool) (x : GroupItem) (items : List GroupItem) :
    ruleList lastGroup hasComma (x :: items) =
      commaRule (hasComma || !(lastGroup && items.isEmpty)) x.1 x.2 :: ruleList lastGroup hasComma items := by
  unfold ruleList
  rw [List.mapIdx_cons]
  congr 1
  · cases items <;> simp
  · congr 1
    funext i y
    simp

theorem dropTrailing_none : (n : Node) → n.trailing = none → dropTrailing n = n
  | .lit .., h => by rw [Node.trailing] at h; subst h; rfl
  | .array .., h => by rw [Node.trailing] at h; subst h; rfl
  | .table .., h => by rw [Node.trailing] at h; subst h; rfl
  | .pair l ks src n, h => by rw [Node.trailing] at h; rw [dropTrailing, dropTrailing_none n h]

/-- The comma node of a comma. -/
def commaNode (c : Comma) : CommaNode Text := ⟨c.leading, c.trailing⟩

/-- A group for `ValueGroup.edit`. -/
def arrayItems (items : List GroupItem) : List (ArrayItem Text) := items.map fun x => ⟨x.1.trailing, x.2.map commaNode⟩

theorem arrayItems_get (items : List GroupItem) (i : Nat) :
    (arrayItems items)[i]? = (items[i]?).map fun x => ⟨x.1.trailing, x.2.map commaNode⟩ := by
  rw [arrayItems, List.getElem?_map]

theorem groupChildren_source (items : List GroupItem) : ∀ i, groupChildren i items = sourceChildren i (arrayItems items) := by
  induction items with
  | nil => intro i; rfl
  | cons x items ih =>
    intro i
    rw [groupChildren, ih]
    show _ = GroupChild.value i :: (((x.2.map commaNode).map fun c => GroupChild.comma (some i) c).toList ++ sourceChildren (i + 1) (arrayItems items))
    cases x.2 <;> rfl

theorem isGroup_groupOf (items : List GroupItem) : IsGroup (groupOf items) (arrayItems items) := by
  refine ⟨?_, fun i => ?_⟩
  · show (groupChildren 0 items).filter notOther = _
    rw [groupChildren_source, sourceChildren_blocks, strip_blocks]
  · show (items[i]?).bind _ = _
    rw [arrayItems_get]
    cases items[i]? <;> rfl

theorem filterMap_congr' {α β : Type} {f g : α → Option β} {l : List α} (h : ∀ x ∈ l, f x = g x) : l.filterMap f = l.filterMap g := by
  induction l with
  | nil => rfl
  | cons a l ih => rw [List.filterMap_cons, List.filterMap_cons, h a List.mem_cons_self, ih fun x hx => h x (List.mem_cons_of_mem _ hx)]

theorem range_filterMap {α β : Type} (items : List α) : ∀ f : Nat → α → β,
    ((List.range items.length).filterMap fun i => (items[i]?).map (f i)) = items.mapIdx f := by
  induction items with
  | nil => intro f; rfl
  | cons x items ih =>
    intro f
    rw [List.length_cons, List.range_succ_eq_map, List.filterMap_cons, List.mapIdx_cons]
    simp only [List.getElem?_cons_zero, Option.map_some, List.filterMap_map]
    congr 1
    rw [← ih]
    rfl

/-- One item, from what is known of the group. -/
theorem commaRule_extra (a : Bool) (n : Node) (c : Option Comma) (o : Option Nat) :
    (if (if moved n.trailing (c.map commaNode) a = true then none else n.trailing).isSome then n else dropTrailing n,
      ((extra n.trailing (c.map commaNode) a ++ ((c.map commaNode).map fun c => (o, c)).toList).head?).map
        fun r => (⟨r.2.leading, r.2.trailing⟩ : Comma)) = commaRule a n c := by
  cases ht : n.trailing with
  | none =>
    have hd := dropTrailing_none n ht
    cases c with
    | none => cases a <;> simp [moved, extra, commaRule, hd, ht, makeComma]
    | some c => simp [moved, extra, commaRule, hd, ht, commaNode]
  | some t =>
    cases c with
    | none => cases a <;> simp [moved, extra, commaRule, ht, makeCommaWithTrailingComment]
    | some c =>
      obtain ⟨l, tr⟩ := c
      cases l <;> cases tr <;> simp [moved, extra, commaRule, ht, makeCommaWithTrailingComment, commaNode, CommaNode.bare]

/-- Putting a group in the order that it has is as good as leaving it. -/
theorem edit_same {g : ValueGroup Text} {its : List (ArrayItem Text)} (h : IsGroup g its) (lastGroup hasComma : Bool)
    {sort : List (Nat × Option (CommaRef Text)) → Option (List (Nat × Option (CommaRef Text)))}
    (hs : sort (sourceValues its) = some (sourceValues its)) :
    (withComma none (g.edit lastGroup hasComma sort).children =
      (List.range its.length).map fun i => (i, (extraA its lastGroup hasComma i ++
        ((commaOf its i).map fun c => (some i, c)).toList).head?)) ∧
    ∀ i, i < its.length → (g.edit lastGroup hasComma sort).trailing i =
      if movedA its lastGroup hasComma i = true then none else trailOf its i := by
  by_cases hne : its = []
  · subst hne
    refine ⟨?_, fun i hi => by simp at hi⟩
    have hv : withComma none g.children = [] := h.values
    have : g.edit lastGroup hasComma sort = g := by
      unfold ValueGroup.edit
      simp only []
      rw [hv]
      have hs' : sort [] = some [] := hs
      rw [hs']; rfl
    rw [this, hv]; rfl
  · have hlast := sourceValues_last its hne
    have hids := sourceValues_ids its
    have hmem := sourceValues_comma its
    have hne2 : sourceValues its ≠ [] := by intro e; rw [e] at hlast; cases hlast
    have hsplit := (List.dropLast_concat_getLast hne2).symm
    generalize hinit : (sourceValues its).dropLast = init at hsplit
    generalize hlv : (sourceValues its).getLast hne2 = lv at hsplit
    have hlv1 : lv.1 = its.length - 1 := by
      rw [List.getLast?_eq_some_getLast hne2, hlv] at hlast
      rw [Option.some.inj hlast]
    have hr : Reordered its (init ++ [lv]) := by
      rw [← hsplit]
      exact (SameValues.refl _).reordered
    obtain ⟨h1, h2⟩ := edit_sorted h lastGroup hasComma hr (hs.trans (congrArg some hsplit)) _ rfl
    rw [← hsplit] at h1 h2
    have key : ∀ v ∈ sourceValues its,
        (finalCommas its lastGroup hasComma (commaOf its (its.length - 1)).isSome lv.1 v).head? =
          (extraA its lastGroup hasComma v.1 ++ ((commaOf its v.1).map fun c => (some v.1, c)).toList).head? ∧
        (movedA its lastGroup hasComma v.1 = true ∨ movedB its (commaOf its (its.length - 1)).isSome lv.1 v = true ↔
          movedA its lastGroup hasComma v.1 = true) := by
      intro v hv
      obtain ⟨c1, c2⟩ := hmem v hv
      obtain ⟨i, vc⟩ := v
      simp only at c1 c2
      unfold finalCommas movedB movedA extraA keptComma appendA
      rw [hlv1]
      simp only
      by_cases hi : i = its.length - 1
      · subst hi
        simp only [beq_self_eq_true, Bool.not_true, Bool.or_false, and_true, Bool.and_true, if_true]
        cases hc : commaOf its (its.length - 1) with
        | none =>
          rw [hc] at c2
          subst c2
          simp [extra, moved]
          cases trailOf its (its.length - 1) <;> simp
        | some c =>
          rw [hc] at c2
          subst c2
          simp only [Option.isSome_some, Option.map_some, Bool.true_eq_false, if_false, Option.toList_some]
          cases trailOf its (its.length - 1) with
          | none => simp [extra, moved]
          | some t => cases hb : c.bare <;> simp [extra, moved, hb]
      · have hb : (i == its.length - 1) = false := by simpa using hi
        rw [hb, ← c2, c1]
        simp [hi]
    refine ⟨?_, fun i hi => ?_⟩
    · rw [h1, ← hids, List.map_map]
      refine List.map_congr_left fun v hv => ?_
      rw [(key v hv).1]; rfl
    · have : i ∈ (sourceValues its).map (·.1) := by rw [hids]; exact List.mem_range.mpr hi
      obtain ⟨v, hv, rfl⟩ := List.mem_map.mp this
      rw [h2 v hv]
      by_cases hm : movedA its lastGroup hasComma v.1 = true
      · rw [if_pos ((key v hv).2.mpr hm), if_pos hm]
      · rw [if_neg (fun e => hm ((key v hv).2.mp e)), if_neg hm]

/-- A group that is left in its order: the rule for every item. -/
theorem editGroup_unsorted (lastGroup hasComma : Bool)
    (sort : List (Nat × Option (CommaRef Text)) → Option (List (Nat × Option (CommaRef Text)))) (items : List GroupItem)
    (hs : sort (sourceValues (arrayItems items)) = none ∨
      sort (sourceValues (arrayItems items)) = some (sourceValues (arrayItems items))) :
    editGroup lastGroup hasComma sort items = ruleList lastGroup hasComma items := by
  have hlen : (arrayItems items).length = items.length := List.length_map ..
  obtain ⟨h1, h2⟩ : (withComma none ((groupOf items).edit lastGroup hasComma sort).children =
      (List.range (arrayItems items).length).map fun i => (i, (extraA (arrayItems items) lastGroup hasComma i ++
        ((commaOf (arrayItems items) i).map fun c => (some i, c)).toList).head?)) ∧
    ∀ i, i < (arrayItems items).length → ((groupOf items).edit lastGroup hasComma sort).trailing i =
      if movedA (arrayItems items) lastGroup hasComma i = true then none else trailOf (arrayItems items) i := by
    rcases hs with hs | hs
    · exact edit_unsorted (isGroup_groupOf items) lastGroup hasComma hs
    · exact edit_same (isGroup_groupOf items) lastGroup hasComma hs
  rw [editGroup, readGroup, h1, List.filterMap_map, hlen, ruleList, ← range_filterMap]
  refine filterMap_congr' fun i hi => ?_
  have hi := List.mem_range.mp hi
  simp only [Function.comp]
  rw [h2 i (by omega), List.getElem?_eq_getElem hi]
  simp only [Option.map_some, Option.some.injEq]
  unfold extraA movedA appendA trailOf commaOf
  rw [arrayItems_get, List.getElem?_eq_getElem hi]
  simp only [Option.map_some, Option.bind_some, hlen]
  have : (i == items.length - 1) = (i + 1 == items.length) := by
    rw [Bool.eq_iff_iff, beq_iff_eq, beq_iff_eq]
    omega
  rw [this]
  exact commaRule_extra _ _ _ _

end Tombi.Editing
