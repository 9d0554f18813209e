import Verif.Proofs.EditorGroups
import Verif.Proofs.Gathered
/-! Where everything stands together, the editor without a schema moves only commas and comments. -/
namespace Tombi.Editing
open SyntaxKind
open Tombi.Formatter (Node Body Section Doc Comma Text Env docOf formatDoc childrenOf fmtSections fmtDoc)
open Tombi.Reading (Scalar keyOr valueOf itemsOf keyValuesOf convert headComments astRoot)
open Tombi.Spec (Gathered kvPaths GatheredValue GatheredItems GatheredItem GatheredKvs GatheredKv GatheredRoot)

/-! ### the comma rule in a body -/

/-- The rule for the commas of all items. -/
def ruleAll (last : Bool) : Body → Body
  | .nil => .nil
  | .dangling n cs rest => .dangling n cs (ruleAll last rest)
  | .item f n c rest => .item f (commaRule (last || rest.hasItem) n c).1 (commaRule (last || rest.hasItem) n c).2 (ruleAll last rest)

/-- The rule for the commas of the first items. -/
def ruleFirst (last : Bool) (k : Nat) : Body → Body
  | .nil => .nil
  | .dangling n cs rest => .dangling n cs (ruleFirst last k rest)
  | .item f n c rest => match k with
    | 0 => .item f n c rest
    | k + 1 =>
      .item f (commaRule (last || rest.hasItem) n c).1 (commaRule (last || rest.hasItem) n c).2 (ruleFirst last k rest)

theorem ruleFirst_zero (last : Bool) : (b : Body) → ruleFirst last 0 b = b
  | .nil => by rw [ruleFirst]
  | .dangling n cs rest => by rw [ruleFirst, ruleFirst_zero last rest]
  | .item f n c rest => by rw [ruleFirst]

theorem ruleAll_group (last : Bool) (rest : Body) (items : List GroupItem) : ∀ f,
    ruleAll last (groupBody f items rest) = groupBody f (ruleList (!rest.hasItem) last items) (ruleAll last rest) := by
  induction items with
  | nil => intro f; rfl
  | cons x items ih =>
    intro f
    have := ih none
    rw [groupBody_none, groupBody_none] at this
    rw [ruleList_cons]
    simp only [groupBody]
    rw [ruleAll, this, hasItem_itemsBefore]
    cases items.isEmpty <;> cases rest.hasItem <;> cases last <;> rfl

theorem ruleFirst_group (last : Bool) (rest : Body) (items : List GroupItem) : ∀ f k,
    ruleFirst last k (groupBody f items rest) =
      groupBody f (ruleList (!rest.hasItem && decide (items.length ≤ k)) last (items.take k) ++ items.drop k)
        (ruleFirst last (k - items.length) rest) := by
  induction items with
  | nil => intro f k; simp [groupBody, ruleList]
  | cons x items ih =>
    intro f k
    cases k with
    | zero =>
      rw [ruleFirst_zero]
      simp only [List.take_zero, List.drop_zero, Nat.zero_sub, ruleFirst_zero]
      rfl
    | succ k =>
      have := ih none k
      rw [groupBody_none, groupBody_none] at this
      rw [List.take_succ_cons, List.drop_succ_cons, ruleList_cons, List.cons_append]
      simp only [groupBody]
      rw [ruleFirst, this, hasItem_itemsBefore, List.length_cons, Nat.add_sub_add_right]
      have hd : decide (items.length + 1 ≤ k + 1) = decide (items.length ≤ k) := by simp
      rw [hd]
      have he : (last || !((!rest.hasItem && decide (items.length ≤ k)) && (items.take k).isEmpty)) = (last || (!items.isEmpty || rest.hasItem)) := by
        cases items with
        | nil => cases rest.hasItem <;> simp
        | cons y ys => cases k <;> simp
      rw [he]

theorem mapGroups_all (last : Bool) (f : Bool → Nat → List GroupItem → List GroupItem) : (chunks : List Chunk) → Proper chunks →
    (∀ g items, Chunk.group g items ∈ chunks → ∀ l s, f l s items = ruleList l last items) → ∀ start,
    bodyOf (mapGroups f start chunks) = ruleAll last (bodyOf chunks)
  | [], _, _, _ => rfl
  | .dangling n cs :: rest, hp, hf, start => by
    rw [mapGroups, bodyOf, bodyOf, ruleAll, mapGroups_all last f rest hp.tail (fun g items h => hf g items (List.mem_cons_of_mem _ h))]
  | .group g items :: rest, hp, hf, start => by
    rw [mapGroups, bodyOf_group, bodyOf_group, ruleAll_group, hf g items List.mem_cons_self,
      mapGroups_all last f rest hp.tail (fun g items h => hf g items (List.mem_cons_of_mem _ h)), hasItem_bodyOf _ hp.tail]

theorem mapGroups_first (last : Bool) (k : Nat) (f : Bool → Nat → List GroupItem → List GroupItem) : (chunks : List Chunk) → Proper chunks →
    (∀ l s items, f l s items = ruleList (l && decide (items.length ≤ k - s)) last (items.take (k - s)) ++ items.drop (k - s)) → ∀ start,
    bodyOf (mapGroups f start chunks) = ruleFirst last (k - start) (bodyOf chunks)
  | [], _, _, _ => by rw [mapGroups, bodyOf, ruleFirst]
  | .dangling n cs :: rest, hp, hf, start => by
    rw [mapGroups, bodyOf, bodyOf, ruleFirst, mapGroups_first last k f rest hp.tail hf]
  | .group g items :: rest, hp, hf, start => by
    rw [mapGroups, bodyOf_group, bodyOf_group, ruleFirst_group, hf,
      mapGroups_first last k f rest hp.tail hf, hasItem_bodyOf _ hp.tail, Nat.sub_sub]

theorem mapGroups_id (f : Bool → Nat → List GroupItem → List GroupItem) : (chunks : List Chunk) →
    (∀ g items, Chunk.group g items ∈ chunks → ∀ l s, f l s items = items) → ∀ start, mapGroups f start chunks = chunks
  | [], _, _ => rfl
  | .dangling n cs :: rest, hf, start => by
    rw [mapGroups, mapGroups_id f rest (fun g items h => hf g items (List.mem_cons_of_mem _ h))]
  | .group g items :: rest, hf, start => by
    rw [mapGroups, hf g items List.mem_cons_self, mapGroups_id f rest (fun g items h => hf g items (List.mem_cons_of_mem _ h))]

/-! ### the items of arrays and tables -/

/-- The items of an array, but their commas. -/
def editValuesIn (v : TomlVersion) (ts : List (DValue Scalar)) : Body → Body
  | .nil => .nil
  | .dangling n cs rest => .dangling n cs (editValuesIn v ts rest)
  | .item f n c rest => match ts with
    | [] => .item f n c rest
    | t :: ts => .item f (editNode v t n) c (editValuesIn v ts rest)

theorem hasItem_editValuesIn (v : TomlVersion) : (ts : List (DValue Scalar)) → (b : Body) → (editValuesIn v ts b).hasItem = b.hasItem
  | _, .nil => by rw [editValuesIn]
  | ts, .dangling n cs rest => by rw [editValuesIn, Body.hasItem, Body.hasItem, hasItem_editValuesIn v ts rest]
  | ts, .item f n c rest => by cases ts <;> rw [editValuesIn] <;> rfl

theorem hasItem_editTable (v : TomlVersion) (t : DValue Scalar) : (b : Body) → (editTable v t b).hasItem = b.hasItem
  | .nil => by rw [editTable]
  | .dangling n cs rest => by rw [editTable, Body.hasItem, Body.hasItem, hasItem_editTable v t rest]
  | .item f n c rest => by rw [editTable]; rfl

theorem editItems_rule (v : TomlVersion) (last : Bool) : (ts : List (DValue Scalar)) → (b : Body) →
    editItems v last ts b = ruleFirst last ts.length (editValuesIn v ts b)
  | _, .nil => by rw [editItems, editValuesIn, ruleFirst]
  | ts, .dangling n cs rest => by rw [editItems, editValuesIn, ruleFirst, editItems_rule v last ts rest]
  | ts, .item f n c rest => by
    cases ts with
    | nil => rw [editItems, editValuesIn, List.length_nil, ruleFirst_zero]
    | cons t ts =>
      rw [editItems, editValuesIn, List.length_cons, ruleFirst, editItems_rule v last ts rest, hasItem_editValuesIn]

theorem editEntries_rule (v : TomlVersion) (last : Bool) (t : DValue Scalar) : (b : Body) →
    editEntries v last t b = ruleAll last (editTable v t b)
  | .nil => by rw [editEntries, editTable, ruleAll]
  | .dangling n cs rest => by rw [editEntries, editTable, ruleAll, editEntries_rule v last t rest]
  | .item f n c rest => by rw [editEntries, editTable, ruleAll, editEntries_rule v last t rest, hasItem_editTable]

/-! ### gathered documents -/

/-- The keys of all items of a body. -/
def bodyPaths (v : TomlVersion) : Body → List (List Accessor)
  | .nil => []
  | .dangling _ _ rest => bodyPaths v rest
  | .item _ n c rest => itemAccessors v (n, c) :: bodyPaths v rest

mutual
/-- In all inline tables in a value, key-values stand together. -/
def NodeGathered (v : TomlVersion) : Node → Prop
  | .lit _ _ _ _ => True
  | .array _ _ b _ => ItemsGathered v b
  | .table _ _ b _ => Gathered (bodyPaths v b) ∧ ItemsGathered v b
  | .pair _ _ _ n => NodeGathered v n
/-- In all inline tables in these items, key-values stand together. -/
def ItemsGathered (v : TomlVersion) : Body → Prop
  | .nil => True
  | .dangling _ _ rest => ItemsGathered v rest
  | .item _ n _ rest => NodeGathered v n ∧ ItemsGathered v rest
end

theorem itemAccessors_edit (v : TomlVersion) (t : DValue Scalar) (n : Node) (c c' : Option Comma) :
    itemAccessors v (editNode v t n, c) = itemAccessors v (n, c') := by
  cases n <;> rw [editNode] <;> (try split) <;> rfl

theorem bodyPaths_editTable (v : TomlVersion) (t : DValue Scalar) : (b : Body) → bodyPaths v (editTable v t b) = bodyPaths v b
  | .nil => by rw [editTable]
  | .dangling n cs rest => by rw [editTable, bodyPaths, bodyPaths, bodyPaths_editTable v t rest]
  | .item f n c rest => by rw [editTable, bodyPaths, bodyPaths, bodyPaths_editTable v t rest, itemAccessors_edit]

theorem bodyPaths_group (v : TomlVersion) (f : Option Nat) (items : List GroupItem) (rest : Body) :
    bodyPaths v (groupBody f items rest) = items.map (itemAccessors v) ++ bodyPaths v rest := by
  have h : ∀ items : List GroupItem, bodyPaths v (itemsBefore items rest) = items.map (itemAccessors v) ++ bodyPaths v rest := by
    intro items
    induction items with
    | nil => rfl
    | cons x items ih => rw [itemsBefore, bodyPaths, ih]; rfl
  cases items with
  | nil => rfl
  | cons x items => rw [groupBody, bodyPaths, h]; rfl

theorem gathered_groups (v : TomlVersion) : (chunks : List Chunk) → Gathered (bodyPaths v (bodyOf chunks)) →
    ∀ g items, Chunk.group g items ∈ chunks → Gathered (items.map (itemAccessors v))
  | [], _, _, _, h => by cases h
  | .dangling n cs :: rest, hg, g, items, h => by
    rw [bodyOf, bodyPaths] at hg
    rcases List.mem_cons.mp h with h | h
    · cases h
    · exact gathered_groups v rest hg g items h
  | .group f its :: rest, hg, g, items, h => by
    rw [bodyOf_group, bodyPaths_group] at hg
    rcases List.mem_cons.mp h with h | h
    · cases h
      exact Spec.Gathered.infix (a := []) hg
    · refine gathered_groups v rest ?_ g items h
      refine Spec.Gathered.infix (a := its.map (itemAccessors v)) (c := []) ?_
      rwa [List.append_nil]

/-! ### no schema -/

/-- The number of keys of each item is smaller. -/
theorem group_length (v : TomlVersion) {fuel : Nat} : (chunks : List Chunk) → bodyLength (bodyOf chunks) < fuel →
    ∀ g items, Chunk.group g items ∈ chunks → ∀ p ∈ items.map (itemAccessors v), p.length < fuel
  | [], _, _, _, h, _, _ => by cases h
  | .dangling n cs :: rest, hg, g, items, h, p, hp => by
    rw [bodyOf, bodyLength] at hg
    rcases List.mem_cons.mp h with h | h
    · cases h
    · exact group_length v rest hg g items h p hp
  | .group f its :: rest, hg, g, items, h, p, hp => by
    have key : ∀ (its : List GroupItem) f R, bodyLength (groupBody f its R) = (its.map fun x => nodeLength x.1).sum + bodyLength R := by
      intro its f R
      have : ∀ its : List GroupItem, bodyLength (itemsBefore its R) = (its.map fun x => nodeLength x.1).sum + bodyLength R := by
        intro its
        induction its with
        | nil => simp [itemsBefore]
        | cons x its ih => rw [itemsBefore, bodyLength, ih, List.map_cons, List.sum_cons]; omega
      cases its with
      | nil => simp [groupBody]
      | cons x its => rw [groupBody, bodyLength, this, List.map_cons, List.sum_cons]; omega
    rw [bodyOf_group, key] at hg
    rcases List.mem_cons.mp h with h | h
    · cases h
      obtain ⟨x, hx, rfl⟩ := List.mem_map.mp hp
      have h1 : (itemAccessors v x).length ≤ nodeLength x.1 := by
        unfold itemAccessors
        split
        · rename_i e
          rw [e, nodeLength, List.length_map]; omega
        · simp
      have h2 : nodeLength x.1 ≤ (its.map fun x => nodeLength x.1).sum := by
        obtain ⟨a, b, rfl⟩ := List.append_of_mem hx
        simp; omega
      omega
    · exact group_length v rest (by omega) g items h p hp

theorem followSchema_noSchema : (keys : List Accessor) → ∀ (fuel : Nat) (t : DValue Scalar) (acc : List Accessor), keys.length < fuel →
    followSchema noSchema fuel t keys acc none = .ok ((follow t keys).map fun t' => (t', acc ++ keys, none))
  | [], fuel, t, acc, h => by
    cases fuel with
    | zero => omega
    | succ fuel => cases t <;> simp [followSchema, noSchema, choose, follow]
  | a :: as, fuel, t, acc, h => by
    cases fuel with
    | zero => omega
    | succ fuel =>
      have ih := fun t' => followSchema_noSchema as fuel t' (acc ++ [a]) (by simpa using h)
      rw [followSchema]
      have e1 : noSchema.sub acc none = none := rfl
      have e2 : choose noSchema t acc none = .here := rfl
      rw [e1, e2]
      simp only
      have e3 : follow t (a :: as) = (stepDown t a).bind fun t' => follow t' as := by
        cases t <;> cases a <;> simp [follow, stepDown]
      rw [e3]
      cases hs : stepDown t a with
      | none => rfl
      | some t' =>
        simp only [childSchema, Option.bind_some]
        rw [ih t']
        simp

theorem itemSchema_noSchema (fuel : Nat) (t : DValue Scalar) (acc : List Accessor) (h : 0 < fuel) :
    itemSchema noSchema fuel t acc none = .ok none := by
  cases fuel with
  | zero => omega
  | succ fuel => rfl

theorem arrayOrder_noSchema (acc : List Accessor) (values : List (Node × DValue Scalar)) (vs : List (Nat × Option (CommaRef Text)))
    (cs : List Text) : arrayOrder noSchema acc none none (noSchema.arrayDirective cs) values vs = none := by
  unfold arrayOrder
  simp [noSchema]

theorem inlineOrder_gathered (fuel : Nat) (v : TomlVersion) (t : DValue Scalar) (acc : List Accessor) (items : List GroupItem)
    (hl : ∀ p ∈ items.map (itemAccessors v), p.length < fuel) (h0 : 0 < fuel) (hg : Gathered (items.map (itemAccessors v))) :
    inlineOrder noSchema fuel v t acc none none items = some (List.range items.length) := by
  unfold inlineOrder
  have hk : ∀ q ∈ (items.map (itemAccessors v)).zipIdx, ∀ a ∈ q.1, a.isKey = true := by
    intro q hq a ha
    have := List.fst_mem_of_mem_zipIdx hq
    obtain ⟨x, -, e⟩ := List.mem_map.mp this
    rw [← e] at ha
    unfold itemAccessors at ha
    split at ha
    · obtain ⟨k, -, rfl⟩ := List.mem_map.mp ha; rfl
    · cases ha
  have := getSorted_gathered (S := Empty) (σ := Scalar) (T := Nat) (noSchema.sorting []) (fun _ => rfl) (fun _ => rfl) fuel t acc
    (items.map (itemAccessors v)).zipIdx (fun q hq => hl _ (List.fst_mem_of_mem_zipIdx hq)) h0
    (by rw [List.zipIdx_map_fst]; exact hg) (.inr hk)
  simp only [Option.map_none, Option.getD_none, Bool.false_eq_true, if_false, Option.bind_none]
  rw [this, List.zipIdx_map_snd, List.length_map, List.range_eq_range']

theorem nodeLength_dropTrailing : (n : Node) → nodeLength (dropTrailing n) = nodeLength n
  | .lit .. => rfl
  | .array .. => by rw [dropTrailing, nodeLength, nodeLength]
  | .table .. => by rw [dropTrailing, nodeLength, nodeLength]
  | .pair l ks src n => by rw [dropTrailing, nodeLength, nodeLength, nodeLength_dropTrailing n]

theorem nodeLength_commaRule (a : Bool) (n : Node) (c : Option Comma) : nodeLength (commaRule a n c).1 = nodeLength n := by
  unfold commaRule
  split <;> split <;> first | rfl | exact nodeLength_dropTrailing n

theorem pick_range {α : Type} (xs : List α) : pick xs (some (List.range xs.length)) = xs := by
  have := range_filterMap xs (fun _ x => x)
  simp only [Option.map_id'] at this
  unfold pick
  simp only
  rw [this]
  apply List.ext_getElem?
  intro i
  simp

mutual
theorem nodeLength_edit (v : TomlVersion) (t : DValue Scalar) : (n : Node) → nodeLength (editNode v t n) = nodeLength n
  | .lit l k x tr => by rw [editNode]
  | .array l s b tr => by
    rw [editNode]
    split
    · rw [nodeLength, nodeLength, bodyLength_editItems]
    · rfl
  | .table l s b tr => by
    rw [editNode]
    split
    · rw [nodeLength, nodeLength, bodyLength_editEntries]
    · rfl
  | .pair l ks src n => by
    rw [editNode]
    split
    · rename_i t' _; rw [nodeLength, nodeLength, nodeLength_edit v t' n]
    · rfl
theorem bodyLength_editItems (v : TomlVersion) (last : Bool) : (ts : List (DValue Scalar)) → (b : Body) →
    bodyLength (editItems v last ts b) = bodyLength b
  | _, .nil => by rw [editItems]
  | ts, .dangling n cs rest => by rw [editItems, bodyLength, bodyLength, bodyLength_editItems v last ts rest]
  | [], .item f n c rest => by rw [editItems]
  | t :: ts, .item f n c rest => by
    rw [editItems, bodyLength, bodyLength, bodyLength_editItems v last ts rest, nodeLength_commaRule, nodeLength_edit v t n]
theorem bodyLength_editEntries (v : TomlVersion) (last : Bool) (t : DValue Scalar) : (b : Body) →
    bodyLength (editEntries v last t b) = bodyLength b
  | .nil => by rw [editEntries]
  | .dangling n cs rest => by rw [editEntries, bodyLength, bodyLength, bodyLength_editEntries v last t rest]
  | .item f n c rest => by
    rw [editEntries, bodyLength, bodyLength, bodyLength_editEntries v last t rest, nodeLength_commaRule, nodeLength_edit v t n]
end

theorem bodyLength_editTable (v : TomlVersion) (t : DValue Scalar) : (b : Body) → bodyLength (editTable v t b) = bodyLength b
  | .nil => by rw [editTable]
  | .dangling n cs rest => by rw [editTable, bodyLength, bodyLength, bodyLength_editTable v t rest]
  | .item f n c rest => by rw [editTable, bodyLength, bodyLength, bodyLength_editTable v t rest, nodeLength_edit]

theorem sourceValues_length (items : List GroupItem) : (sourceValues (arrayItems items)).length = items.length := by
  have := congrArg List.length (sourceValues_ids (arrayItems items))
  simpa [arrayItems] using this

mutual
theorem sortNode_gathered (fuel : Nat) (v : TomlVersion) : (n : Node) → ∀ cs acc t, nodeLength n < fuel → NodeGathered v n →
    sortNode noSchema fuel v cs acc none t n = .ok (editNode v t n)
  | .lit l k x tr, cs, acc, t, hl, hg => by rw [sortNode, editNode]
  | .array l s b tr, cs, acc, t, hl, hg => by
    rw [nodeLength] at hl
    rw [NodeGathered] at hg
    rw [sortNode, editNode]
    cases arrayValues t with
    | none => rfl
    | some ts =>
      simp only
      rw [itemSchema_noSchema fuel t acc (by omega)]
      simp only
      rw [sortItems_gathered fuel v b acc 0 ts hl hg]
      simp only
      rw [editItems_rule]
      rw [mapGroups_first (b.lastComma false) ts.length _ (chunksOf (editValuesIn v ts b)) (proper_chunksOf _) ?_ 0, bodyOf_chunksOf,
        Nat.sub_zero]
      intro l s items
      unfold editValues
      rw [editGroup_unsorted _ _ _ _ (.inl (arrayOrder_noSchema acc _ _ _))]
  | .table l s b tr, cs, acc, t, hl, hg => by
    rw [nodeLength] at hl
    rw [NodeGathered] at hg
    rw [sortNode, editNode]
    by_cases ht : t.isInlineTable = true
    · rw [if_pos ht, if_pos ht, sortEntries_gathered fuel v b acc t hl hg.2]
      simp only
      rw [editEntries_rule]
      rw [mapGroups_all (b.lastComma false) _ (chunksOf (editTable v t b)) (proper_chunksOf _) ?_ 0, bodyOf_chunksOf]
      intro g items hm l i
      rw [editGroup_unsorted]
      right
      have h1 := group_length v (fuel := fuel) (chunksOf (editTable v t b)) (by rw [bodyOf_chunksOf, bodyLength_editTable]; exact hl) g items hm
      have h2 := gathered_groups v (chunksOf (editTable v t b)) (by rw [bodyOf_chunksOf, bodyPaths_editTable]; exact hg.1) g items hm
      have e : noSchema.tableDirective (cs ++ s.toList ++ headComments b) = none := rfl
      rw [e, inlineOrder_gathered fuel v t acc items h1 (by omega) h2, Option.map_some, ← sourceValues_length, pick_range]
    · rw [if_neg ht, if_neg ht]
  | .pair l ks src n, cs, acc, t, hl, hg => by
    rw [nodeLength] at hl
    rw [NodeGathered] at hg
    rw [sortNode, editNode, followSchema_noSchema _ fuel t acc (by rw [List.length_map]; omega)]
    cases follow t (ks.map fun k => .key (keyOr v k)) with
    | none => rfl
    | some t' =>
      simp only [Option.map_some]
      rw [sortNode_gathered fuel v n _ _ t' (by omega) hg]
theorem sortItems_gathered (fuel : Nat) (v : TomlVersion) : (b : Body) → ∀ acc i ts, bodyLength b < fuel → ItemsGathered v b →
    sortItems noSchema fuel v acc none i ts b = .ok (editValuesIn v ts b)
  | .nil, acc, i, ts, hl, hg => by rw [sortItems, editValuesIn]
  | .dangling n cs rest, acc, i, ts, hl, hg => by
    rw [bodyLength] at hl
    rw [ItemsGathered] at hg
    rw [sortItems, editValuesIn, sortItems_gathered fuel v rest acc i ts hl hg]
  | .item f n c rest, acc, i, ts, hl, hg => by
    rw [bodyLength] at hl
    rw [ItemsGathered] at hg
    cases ts with
    | nil => rw [sortItems, editValuesIn]
    | cons t ts =>
      rw [sortItems, editValuesIn, sortNode_gathered fuel v n _ _ t (by omega) hg.1]
      simp only
      rw [sortItems_gathered fuel v rest acc (i + 1) ts (by omega) hg.2]
theorem sortEntries_gathered (fuel : Nat) (v : TomlVersion) : (b : Body) → ∀ acc t, bodyLength b < fuel → ItemsGathered v b →
    sortEntries noSchema fuel v acc none t b = .ok (editTable v t b)
  | .nil, acc, t, hl, hg => by rw [sortEntries, editTable]
  | .dangling n cs rest, acc, t, hl, hg => by
    rw [bodyLength] at hl
    rw [ItemsGathered] at hg
    rw [sortEntries, editTable, sortEntries_gathered fuel v rest acc t hl hg]
  | .item f n c rest, acc, t, hl, hg => by
    rw [bodyLength] at hl
    rw [ItemsGathered] at hg
    rw [sortEntries, editTable, sortNode_gathered fuel v n _ _ t (by omega) hg.1]
    simp only
    rw [sortEntries_gathered fuel v rest acc t (by omega) hg.2]
end

/-! ### tables -/

theorem orderTable_gathered (v : TomlVersion) (fuel : Nat) (order : List GroupItem → Option (List Nat)) (b : Body)
    (ho : ∀ items, (∀ p ∈ items.map (itemAccessors v), p.length < fuel) → Gathered (items.map (itemAccessors v)) →
      order items = some (List.range items.length))
    (hl : bodyLength b < fuel) (hg : Gathered (bodyPaths v b)) : orderTable order b = b := by
  unfold orderTable
  rw [mapGroups_id, bodyOf_chunksOf]
  intro g items hm l s
  rw [ho items (group_length v (fuel := fuel) _ (by rw [bodyOf_chunksOf]; exact hl) g items hm)
    (gathered_groups v _ (by rw [bodyOf_chunksOf]; exact hg) g items hm), pick_range]

theorem tableOrder_gathered (fuel : Nat) (v : TomlVersion) (t : DValue Scalar) (acc : List Accessor) (items : List GroupItem)
    (h0 : 0 < fuel) (hl : ∀ p ∈ items.map (itemAccessors v), p.length < fuel) (hg : Gathered (items.map (itemAccessors v))) :
    tableOrder noSchema fuel v t acc none none items = some (List.range items.length) := by
  unfold tableOrder
  rw [inlineOrder_gathered fuel v t acc items hl h0 hg]
  rfl

theorem headerAccessors_length (arrays : List (List DKey)) (b : Bool) (ks : List DKey) : ∀ done,
    (Tombi.headerAccessors arrays b done ks).length ≤ 2 * ks.length := by
  induction ks with
  | nil => intro done; simp [Tombi.headerAccessors]
  | cons k ks ih =>
    intro done
    have := ih (done ++ [k])
    rw [Tombi.headerAccessors]
    simp only [List.length_cons, List.length_append]
    split
    · simp; omega
    · split <;> simp <;> omega

theorem section_length (v : TomlVersion) (prev : List (AstSection Scalar)) (s : Section) (header : List Accessor)
    (h : (astSection v s).headerAccessors prev = some header) : header.length ≤ 2 * s.header.length + 1 := by
  unfold AstSection.headerAccessors astSection at h
  simp only at h
  have hh := fun b => headerAccessors_length (parentArrayKeys prev (s.header.map (keyOr v))) b (s.header.map (keyOr v)) []
  simp only [List.length_map] at hh
  split at h
  · obtain rfl := Option.some.inj h
    have := hh false
    simp only [List.length_append, List.length_cons, List.length_nil]
    omega
  · obtain rfl := Option.some.inj h
    have := hh true
    omega

theorem sortEach_gathered (fuel : Nat) (v : TomlVersion) (root : DValue Scalar) : (ss : List Section) → ∀ prev,
    (∀ s ∈ ss, 2 * s.header.length + 1 < fuel ∧ bodyLength s.body < fuel ∧ Gathered (bodyPaths v s.body) ∧ ItemsGathered v s.body) →
    sortEach noSchema fuel v none root prev ss = .ok (editSections v root prev ss)
  | [], prev, _ => by rw [sortEach, editSections]
  | s :: ss, prev, h => by
    obtain ⟨h1, h2, h3, h4⟩ := h s List.mem_cons_self
    have ih := sortEach_gathered fuel v root ss (astSection v s :: prev) (fun s' hs' => h s' (List.mem_cons_of_mem _ hs'))
    rw [sortEach, editSections, ih]
    have key : sortSection noSchema fuel v none root prev s =
        .ok (match ((astSection v s).headerAccessors prev).bind (follow root) with
          | some t => { s with body := editTable v t s.body }
          | none => s) := by
      unfold sortSection
      cases hh : (astSection v s).headerAccessors prev with
      | none => rfl
      | some header =>
        simp only [Option.bind_some]
        rw [followSchema_noSchema header fuel root [] (by have := section_length v prev s header hh; omega)]
        cases follow root header with
        | none => rfl
        | some t =>
          simp only [Option.map_some]
          rw [sortEntries_gathered fuel v s.body _ t h2 h4]
          simp only
          rw [orderTable_gathered v fuel _ (editTable v t s.body) ?_ (by rw [bodyLength_editTable]; exact h2)
            (by rw [bodyPaths_editTable]; exact h3)]
          intro items a b
          exact tableOrder_gathered fuel v t _ items (by omega) a b
    rw [key]
    rfl

theorem sectionOverrides_noSchema (v : TomlVersion) : (ss : List Section) → ∀ prev, sectionOverrides noSchema v prev ss = []
  | [], _ => rfl
  | s :: ss, prev => by
    rw [sectionOverrides, sectionOverrides_noSchema v ss]
    have e : noSchema.tableDirective (sectionComments s) = none := rfl
    rw [e]
    cases (astSection v s).headerAccessors prev <;> rfl

/-! ### the document -/

theorem sectionAccessors_short (v : TomlVersion) {fuel : Nat} : (ss : List Section) → ∀ prev, (∀ s ∈ ss, 2 * s.header.length + 1 < fuel) →
    ∀ p ∈ sectionAccessors prev (ss.map (astSection v)), p.length < fuel
  | [], _, _, p, hp => by cases hp
  | s :: ss, prev, h, p, hp => by
    rw [List.map_cons, sectionAccessors] at hp
    rcases List.mem_cons.mp hp with rfl | hp
    · have := h s List.mem_cons_self
      cases hh : (astSection v s).headerAccessors prev with
      | none => simp; omega
      | some header => have := section_length v prev s header hh; simp; omega
    · exact sectionAccessors_short v ss _ (fun s' hs' => h s' (List.mem_cons_of_mem _ hs')) p hp

theorem sectionAccessors_length' {σ : Type} : (ss : List (AstSection σ)) → ∀ prev, (sectionAccessors prev ss).length = ss.length
  | [], _ => rfl
  | s :: ss, prev => by rw [sectionAccessors, List.length_cons, sectionAccessors_length' ss, List.length_cons]

theorem sectionOrder_gathered (fuel : Nat) (v : TomlVersion) (ss : List Section) (h0 : 0 < fuel)
    (hl : ∀ s ∈ ss, 2 * s.header.length + 1 < fuel) (hg : Gathered (sectionAccessors [] (ss.map (astSection v)))) :
    sectionOrder noSchema fuel v none none ss = some (List.range ss.length) := by
  unfold sectionOrder
  have e : noSchema.schemas.schemaOverride none [] = none := rfl
  have e2 : noSchema.schemas.enabled none = true := rfl
  simp only [e, e2, sectionOverrides_noSchema, Option.bind_none, Option.or_none, Option.map_none, Option.getD_none, Bool.false_or,
    Bool.not_true, Bool.and_false, Bool.false_eq_true, if_false]
  unfold sortSections
  rw [getSorted_gathered (noSchema.sorting []) (fun _ => rfl) (fun _ => rfl) fuel (sectionsTree (ss.map (astSection v))).value [] _
    (fun q hq => sectionAccessors_short v ss [] hl _ (List.fst_mem_of_mem_zipIdx hq)) h0
    (by rw [List.zipIdx_map_fst]; exact hg) (.inl ⟨_, _, rfl⟩)]
  rw [List.zipIdx_map_snd, sectionAccessors_length', List.length_map, List.range_eq_range']

mutual
theorem nodeGathered_of (v : TomlVersion) : (n : Node) → ∀ d, n.WF d → n.isPair = false → GatheredValue (valueOf v n) → NodeGathered v n
  | .lit .., d, _, _, _ => by rw [NodeGathered]; trivial
  | .array l s b tr, d, hw, hp, hg => by
    rw [Node.WF] at hw
    rw [valueOf, GatheredValue] at hg
    rw [NodeGathered]
    exact itemsGathered_of v b _ _ hw.2 hg
  | .table l s b tr, d, hw, hp, hg => by
    rw [Node.WF] at hw
    rw [valueOf, GatheredValue] at hg
    rw [NodeGathered]
    obtain ⟨h1, h2⟩ := pairsGathered_of v b _ _ hw.2
    exact ⟨by rw [h1]; exact hg.1, h2 hg.2⟩
  | .pair .., d, hw, hp, hg => by cases hp
theorem itemsGathered_of (v : TomlVersion) : (b : Body) → ∀ d prev, b.WF false d prev → GatheredItems (itemsOf v b) → ItemsGathered v b
  | .nil, d, prev, hw, hg => by rw [ItemsGathered]; trivial
  | .dangling n cs rest, d, prev, hw, hg => by
    rw [Body.WF] at hw
    rw [itemsOf] at hg
    rw [ItemsGathered]
    exact itemsGathered_of v rest _ _ hw.2.2.2 hg
  | .item f (.pair ..) c rest, d, prev, hw, hg => by
    rw [Body.WF] at hw
    cases hw.1
  | .item f (.lit l k t tr) c rest, d, prev, hw, hg => by
    rw [Body.WF] at hw
    rw [itemsOf, GatheredItems] at hg
    · rw [ItemsGathered]
      exact ⟨by rw [NodeGathered]; trivial, itemsGathered_of v rest _ _ hw.2.2.2 hg.2⟩
    · simp
  | .item f (.array l s b tr) c rest, d, prev, hw, hg => by
    rw [Body.WF] at hw
    rw [itemsOf, GatheredItems, GatheredItem] at hg
    · rw [ItemsGathered]
      exact ⟨nodeGathered_of v (.array l s b tr) _ hw.2.1 rfl hg.1, itemsGathered_of v rest _ _ hw.2.2.2 hg.2⟩
    · simp
  | .item f (.table l s b tr) c rest, d, prev, hw, hg => by
    rw [Body.WF] at hw
    rw [itemsOf, GatheredItems, GatheredItem] at hg
    · rw [ItemsGathered]
      exact ⟨nodeGathered_of v (.table l s b tr) _ hw.2.1 rfl hg.1, itemsGathered_of v rest _ _ hw.2.2.2 hg.2⟩
    · simp
theorem pairsGathered_of (v : TomlVersion) : (b : Body) → ∀ d prev, b.WF true d prev →
    bodyPaths v b = kvPaths (keyValuesOf v b) ∧ (GatheredKvs (keyValuesOf v b) → ItemsGathered v b)
  | .nil, d, prev, hw => by rw [ItemsGathered]; exact ⟨rfl, fun _ => trivial⟩
  | .dangling n cs rest, d, prev, hw => by
    rw [Body.WF] at hw
    rw [keyValuesOf, ItemsGathered, bodyPaths]
    exact pairsGathered_of v rest _ _ hw.2.2.2
  | .item f (.pair l ks src n) c rest, d, prev, hw => by
    rw [Body.WF, Node.WF] at hw
    obtain ⟨h1, h2⟩ := pairsGathered_of v rest _ _ hw.2.2.2
    rw [keyValuesOf, ItemsGathered, bodyPaths, h1]
    refine ⟨?_, fun hg => ?_⟩
    · simp [kvPaths, itemAccessors]
    · rw [GatheredKvs, GatheredKv] at hg
      exact ⟨by rw [NodeGathered]; exact nodeGathered_of v n _ hw.2.1.2.2.2 hw.2.1.2.1 hg.1, h2 hg.2⟩
  | .item f (.lit ..) c rest, d, prev, hw => by rw [Body.WF] at hw; cases hw.1
  | .item f (.array ..) c rest, d, prev, hw => by rw [Body.WF] at hw; cases hw.1
  | .item f (.table ..) c rest, d, prev, hw => by rw [Body.WF] at hw; cases hw.1
end

theorem fmtSections_blank (E : Env) : (ss : List Section) → ∀ pre preceding (prev : Section) (k : Nat),
    fmtSections E pre preceding { prev with blank := k } (ss.map fun s => { s with blank := 0 }) = fmtSections E pre preceding prev ss
  | [], _, _, _, _ => rfl
  | s :: ss, pre, preceding, prev, k => by
    rw [List.map_cons, fmtSections, fmtSections]
    simp only
    have e1 : Formatter.blankBetween { prev with blank := k } { s with blank := 0 } = Formatter.blankBetween prev s := rfl
    have e2 : ∀ x y, Formatter.fmtSection E x y { s with blank := 0 } = Formatter.fmtSection E x y s := fun _ _ => rfl
    rw [e1, e2, fmtSections_blank E ss]

theorem formatDoc_placed (E : Env) (b : Body) (ss : List Section) : formatDoc E ⟨b, placeSections ss ss⟩ = formatDoc E ⟨b, ss⟩ := by
  unfold formatDoc
  have : fmtDoc E ⟨b, placeSections ss ss⟩ = fmtDoc E ⟨b, ss⟩ := by
    cases ss with
    | nil => rfl
    | cons s ss =>
      show fmtDoc E ⟨b, s :: ss.map fun s => { s with blank := 0 }⟩ = _
      unfold fmtDoc
      simp only
      rw [fmtSections_blank E ss _ _ s s.blank]
  rw [this]

theorem docFuel_body (d : Doc) : bodyLength d.body < docFuel d := by unfold docFuel; omega

theorem docFuel_section (d : Doc) (s : Section) (h : s ∈ d.sections) :
    2 * s.header.length + 1 < docFuel d ∧ bodyLength s.body < docFuel d := by
  unfold docFuel
  obtain ⟨a, b, e⟩ := List.append_of_mem h
  rw [e]
  simp only [List.map_append, List.map_cons, List.sum_append, List.sum_cons]
  omega

theorem bodyPaths_leading (v : TomlVersion) (n : Node) (c : Option Comma) : itemAccessors v (dropLeading n, c) = itemAccessors v (n, c) := by
  cases n <;> rfl

theorem nodeLength_leading (n : Node) : nodeLength (dropLeading n) = nodeLength n := by
  cases n <;> simp [dropLeading, nodeLength]

theorem moveTop_shape (v : TomlVersion) (k : Nat) (d : Doc) :
    bodyPaths v (moveTop k d).body = bodyPaths v d.body ∧ bodyLength (moveTop k d).body = bodyLength d.body ∧
      (moveTop k d).sections.length = d.sections.length := by
  unfold moveTop
  split
  · rename_i f n c rest ss e1
    split
    · rw [e1]
      refine ⟨?_, ?_, rfl⟩
      · simp only [bodyPaths, bodyPaths_leading]
      · simp only [bodyLength, nodeLength_leading]
    · exact ⟨rfl, rfl, rfl⟩
  · rename_i s ss e1 e2
    split
    · rw [e1, e2]
      exact ⟨rfl, rfl, rfl⟩
    · exact ⟨rfl, rfl, rfl⟩
  · exact ⟨rfl, rfl, rfl⟩

theorem editSections_length (v : TomlVersion) (root : DValue Scalar) : (ss : List Section) → ∀ prev,
    (editSections v root prev ss).length = ss.length
  | [], _ => rfl
  | s :: ss, prev => by rw [editSections, List.length_cons, editSections_length v root ss, List.length_cons]

/-- The editor moves only commas and comments when what belongs together stands together. -/
theorem regroup_gathered (E : Env) (v : TomlVersion) (root : Green) (hw : (docOf root).WF)
    (hg : (convert v (docOf root)).2 = [] → GatheredRoot (astRoot v (docOf root))) :
    ∃ d, regroupTree v root = .ok d ∧ formatDoc E d = formatDoc E (editTree v root) := by
  unfold regroupTree sortTree editTree
  simp only
  by_cases he : (convert v (docOf root)).2.isEmpty = true
  · rw [if_pos he, if_pos he]
    have hg := hg (List.isEmpty_iff.mp he)
    obtain ⟨p1, p2⟩ := pairsGathered_of v (docOf root).body _ _ hw.body
    have h0 := docFuel_body (docOf root)
    rw [sortEntries_gathered _ v _ [] _ h0 (p2 hg.top.2)]
    simp only
    rw [sortEach_gathered _ v _ _ [] (fun s hs => by
      obtain ⟨q1, q2⟩ := pairsGathered_of v s.body _ _ (hw.sections s hs).body
      obtain ⟨q3, q4⟩ := docFuel_section _ s hs
      have := hg.tables (astSection v s) (List.mem_map_of_mem (f := astSection v) hs)
      exact ⟨q3, q4, by rw [q1]; exact this.1, q2 this.2⟩)]
    simp only
    refine ⟨_, rfl, ?_⟩
    unfold orderRoot
    have e : ∀ cs, noSchema.tableDirective cs = none := fun _ => rfl
    simp only [e, Option.map_none, Option.getD_none, Bool.false_eq_true, if_false]
    rw [sectionOrder_gathered _ v _ (by omega) (fun s hs => (docFuel_section _ s hs).1) hg.sections]
    simp only
    obtain ⟨m1, m2, m3⟩ := moveTop_shape v (topBreaks (childrenOf root))
      ⟨editTable v (convert v (docOf root)).1.value (docOf root).body,
        editSections v (convert v (docOf root)).1.value [] (docOf root).sections⟩
    rw [orderTable_gathered v (docFuel (docOf root)) _ _
      (fun items a b => tableOrder_gathered _ v _ [] items (by omega) a b)
      (by rw [m2]; simp only [bodyLength_editTable]; exact h0)
      (by rw [m1]; simp only [bodyPaths_editTable]; rw [p1]; exact hg.top.1)]
    simp only [editSections_length] at m3
    rw [← m3, pick_range, formatDoc_placed]
    rfl
  · rw [if_neg he, if_neg he]
    exact ⟨_, rfl, rfl⟩

/-! ### without a schema, no run fails -/

mutual
theorem sortNode_ok (fuel : Nat) (v : TomlVersion) : (n : Node) → ∀ cs acc t, nodeLength n < fuel →
    ∃ n', sortNode noSchema fuel v cs acc none t n = .ok n'
  | .lit l k x tr, cs, acc, t, hl => ⟨_, by rw [sortNode]⟩
  | .array l s b tr, cs, acc, t, hl => by
    rw [nodeLength] at hl
    rw [sortNode]
    cases arrayValues t with
    | none => exact ⟨_, rfl⟩
    | some ts =>
      simp only
      rw [itemSchema_noSchema fuel t acc (by omega)]
      obtain ⟨b', hb⟩ := sortItems_ok fuel v b acc 0 ts hl
      simp only [hb]
      exact ⟨_, rfl⟩
  | .table l s b tr, cs, acc, t, hl => by
    rw [nodeLength] at hl
    rw [sortNode]
    obtain ⟨b', hb⟩ := sortEntries_ok fuel v b acc t hl
    split
    · simp only [hb]
      exact ⟨_, rfl⟩
    · exact ⟨_, rfl⟩
  | .pair l ks src n, cs, acc, t, hl => by
    rw [nodeLength] at hl
    rw [sortNode, followSchema_noSchema _ fuel t acc (by rw [List.length_map]; omega)]
    cases follow t (ks.map fun k => .key (keyOr v k)) with
    | none => exact ⟨_, rfl⟩
    | some t' =>
      simp only [Option.map_some]
      obtain ⟨n', hn⟩ := sortNode_ok fuel v n (l ++ n.trailing.toList) (acc ++ ks.map fun k => .key (keyOr v k)) t' (by omega)
      simp only [hn]
      exact ⟨_, rfl⟩
theorem sortItems_ok (fuel : Nat) (v : TomlVersion) : (b : Body) → ∀ acc i ts, bodyLength b < fuel →
    ∃ b', sortItems noSchema fuel v acc none i ts b = .ok b'
  | .nil, acc, i, ts, hl => ⟨_, by rw [sortItems]⟩
  | .dangling n cs rest, acc, i, ts, hl => by
    rw [bodyLength] at hl
    obtain ⟨b', hb⟩ := sortItems_ok fuel v rest acc i ts hl
    rw [sortItems, hb]
    exact ⟨_, rfl⟩
  | .item f n c rest, acc, i, ts, hl => by
    rw [bodyLength] at hl
    cases ts with
    | nil => exact ⟨_, by rw [sortItems]⟩
    | cons t ts =>
      obtain ⟨n', hn⟩ := sortNode_ok fuel v n [] (acc ++ [.index i]) t (by omega)
      obtain ⟨b', hb⟩ := sortItems_ok fuel v rest acc (i + 1) ts (by omega)
      rw [sortItems, hn]
      simp only [hb]
      exact ⟨_, rfl⟩
theorem sortEntries_ok (fuel : Nat) (v : TomlVersion) : (b : Body) → ∀ acc t, bodyLength b < fuel →
    ∃ b', sortEntries noSchema fuel v acc none t b = .ok b'
  | .nil, acc, t, hl => ⟨_, by rw [sortEntries]⟩
  | .dangling n cs rest, acc, t, hl => by
    rw [bodyLength] at hl
    obtain ⟨b', hb⟩ := sortEntries_ok fuel v rest acc t hl
    rw [sortEntries, hb]
    exact ⟨_, rfl⟩
  | .item f n c rest, acc, t, hl => by
    rw [bodyLength] at hl
    obtain ⟨n', hn⟩ := sortNode_ok fuel v n [] acc t (by omega)
    obtain ⟨b', hb⟩ := sortEntries_ok fuel v rest acc t (by omega)
    rw [sortEntries, hn]
    simp only [hb]
    exact ⟨_, rfl⟩
end

theorem sortEach_ok (fuel : Nat) (v : TomlVersion) (root : DValue Scalar) : (ss : List Section) → ∀ prev,
    (∀ s ∈ ss, 2 * s.header.length + 1 < fuel ∧ bodyLength s.body < fuel) →
    ∃ ss', sortEach noSchema fuel v none root prev ss = .ok ss'
  | [], prev, _ => ⟨_, by rw [sortEach]⟩
  | s :: ss, prev, h => by
    obtain ⟨h1, h2⟩ := h s List.mem_cons_self
    obtain ⟨ss', ih⟩ := sortEach_ok fuel v root ss (astSection v s :: prev) (fun s' hs' => h s' (List.mem_cons_of_mem _ hs'))
    have key : ∃ s', sortSection noSchema fuel v none root prev s = .ok s' := by
      unfold sortSection
      cases hh : (astSection v s).headerAccessors prev with
      | none => exact ⟨_, rfl⟩
      | some header =>
        simp only
        rw [followSchema_noSchema header fuel root [] (by have := section_length v prev s header hh; omega)]
        cases follow root header with
        | none => exact ⟨_, rfl⟩
        | some t =>
          simp only [Option.map_some]
          obtain ⟨b', hb⟩ := sortEntries_ok fuel v s.body ([] ++ header) t h2
          simp only [hb]
          exact ⟨_, rfl⟩
    obtain ⟨s', hs'⟩ := key
    rw [sortEach, hs', ih]
    exact ⟨_, rfl⟩

theorem regroup_ok (v : TomlVersion) (root : Green) : ∃ d, regroupTree v root = .ok d := by
  unfold regroupTree sortTree
  simp only
  split
  · obtain ⟨b', hb⟩ := sortEntries_ok _ v (docOf root).body [] (convert v (docOf root)).1.value (docFuel_body (docOf root))
    obtain ⟨ss', hs⟩ := sortEach_ok _ v (convert v (docOf root)).1.value (docOf root).sections [] (fun s => docFuel_section (docOf root) s)
    simp only [hb, hs]
    exact ⟨_, rfl⟩
  · exact ⟨_, rfl⟩

/-- The formatter, when what belongs together stands together. -/
theorem formatToml_gathered (E : Env) {src : Text} {p : Parsed} (hp : parse E.G src = .ok p) (he : p.errors = []) (hw : (docOf p.tree).WF)
    (hg : (convert E.version (docOf p.tree)).2 = [] → GatheredRoot (astRoot E.version (docOf p.tree))) :
    formatToml E src = formatGrouped E src := by
  obtain ⟨d, h1, h2⟩ := regroup_gathered E E.version p.tree hw hg
  unfold formatToml formatGrouped
  rw [hp]
  simp only [he, List.isEmpty_nil, if_true, h1, h2]

end Tombi.Editing
