import Verif.Proofs.EditorSame
import Verif.Proofs.DocPlaces
import Verif.Spec.SchemaOrder
/-! After a run of the editor, keys are in the order that the schema says. -/
namespace Tombi.Editing
open SyntaxKind
open Tombi.Format (AstKey)
open Tombi.Formatter (Node Body Section Doc Comma Text docOf childrenOf)
open Tombi.Reading (Scalar keyOr valueOf itemsOf keyValuesOf convert headComments astRoot)
open Tombi.Spec (stepOf pathAt OrderLe firstKey KeysInOrder TableInOrder ValueInOrder ItemsInOrder AllInOrder PlainSchemas PlainSteps schemaAt startKeys groupKeys GroupsLe schemaLe orderFor TableObeys kindOrder
  schemaBelow lookup child keyPath sectionPath openedBy)

variable {S : Type}

/-! ### groups -/

/-- The chunks do not start with the rest of a group. -/
def Fresh : List Chunk → Prop
  | .group none _ :: _ => False
  | _ => True

/-- Groups have items, and a group that continues another one does not follow it. -/
def Separate : List Chunk → Prop
  | [] => True
  | .dangling _ _ :: rest => Separate rest
  | .group _ items :: rest => items ≠ [] ∧ Fresh rest ∧ Separate rest

theorem separate_consItem (f : Option Nat) (x : GroupItem) {chunks : List Chunk} (h : Separate chunks) : Separate (consItem f x chunks) := by
  unfold consItem
  split
  · rw [Separate] at h ⊢
    exact ⟨by simp, h.2⟩
  · rename_i hne
    rw [Separate]
    refine ⟨by simp, ?_, h⟩
    cases chunks with
    | nil => trivial
    | cons c rest =>
      cases c with
      | dangling => trivial
      | group g items =>
        cases g with
        | none => exact absurd rfl (hne items rest)
        | some k => trivial

theorem separate_chunksOf : (b : Body) → Separate (chunksOf b)
  | .nil => trivial
  | .dangling n cs rest => by rw [chunksOf, Separate]; exact separate_chunksOf rest
  | .item f n c rest => by rw [chunksOf]; exact separate_consItem f (n, c) (separate_chunksOf rest)

theorem fresh_mapGroups (f : Bool → Nat → List GroupItem → List GroupItem) (start : Nat) : (chunks : List Chunk) → Fresh chunks →
    Fresh (mapGroups f start chunks)
  | [], _ => trivial
  | .dangling _ _ :: _, _ => trivial
  | .group none _ :: _, h => h.elim
  | .group (some _) _ :: _, _ => trivial

theorem separate_mapGroups (f : Bool → Nat → List GroupItem → List GroupItem)
    (hf : ∀ last start items, (f last start items).length = items.length) : (chunks : List Chunk) → ∀ start, Separate chunks →
    Separate (mapGroups f start chunks)
  | [], _, _ => trivial
  | .dangling _ _ :: rest, start, h => separate_mapGroups f hf rest start h
  | .group g items :: rest, start, h => by
    rw [Separate] at h
    rw [mapGroups, Separate]
    refine ⟨fun e => h.1 ?_, fresh_mapGroups f _ rest h.2.1, separate_mapGroups f hf rest _ h.2.2⟩
    have := hf (!hasGroup rest) start items
    rw [e] at this
    exact List.length_eq_zero_iff.mp this.symm

theorem mem_mapGroups {f : Bool → Nat → List GroupItem → List GroupItem} : {chunks : List Chunk} → ∀ {start g items'},
    Chunk.group g items' ∈ mapGroups f start chunks → ∃ last start items, Chunk.group g items ∈ chunks ∧ items' = f last start items
  | [], _, _, _, h => by cases h
  | .dangling n cs :: rest, start, g, items', h => by
    rw [mapGroups] at h
    rcases List.mem_cons.mp h with h | h
    · cases h
    · obtain ⟨l, s, items, h1, h2⟩ := mem_mapGroups h
      exact ⟨l, s, items, List.mem_cons_of_mem _ h1, h2⟩
  | .group f' its :: rest, start, g, items', h => by
    rw [mapGroups] at h
    rcases List.mem_cons.mp h with h | h
    · cases h
      exact ⟨_, _, its, List.mem_cons_self, rfl⟩
    · obtain ⟨l, s, items, h1, h2⟩ := mem_mapGroups h
      exact ⟨l, s, items, List.mem_cons_of_mem _ h1, h2⟩

/-- The second item may follow the first one. -/
def KeyLe (le : Accessor → Accessor → Prop) (v : TomlVersion) (x y : GroupItem) : Prop :=
  ∀ a b, firstKey v x.1 = some a → firstKey v y.1 = some b → a = b ∨ le a b

theorem startKeys_items (v : TomlVersion) (rest : Body) (items : List GroupItem) :
    startKeys v (itemsBefore items rest) = (items.flatMap (fun x => (firstKey v x.1).toList) ++ (startKeys v rest).1, (startKeys v rest).2) := by
  induction items with
  | nil => rfl
  | cons x items ih => rw [itemsBefore, startKeys, ih]; simp

theorem keyLe_flat {le : Accessor → Accessor → Prop} {v : TomlVersion} {items : List GroupItem} (h : items.Pairwise (KeyLe le v)) :
    (items.flatMap fun x => (firstKey v x.1).toList).Pairwise fun a b => a = b ∨ le a b := by
  induction items with
  | nil => exact .nil
  | cons x items ih =>
    rw [List.pairwise_cons] at h
    rw [List.flatMap_cons, List.pairwise_append]
    refine ⟨?_, ih h.2, fun a ha b hb => ?_⟩
    · cases firstKey v x.1 <;> simp
    · obtain ⟨y, hy, hb⟩ := List.mem_flatMap.1 hb
      exact h.1 y hy a b (Option.mem_toList.1 ha) (Option.mem_toList.1 hb)

theorem keys_chunks' {le : Accessor → Accessor → Prop} {v : TomlVersion} : (chunks : List Chunk) → Separate chunks →
    (∀ g items, Chunk.group g items ∈ chunks → items.Pairwise (KeyLe le v)) →
    KeysInOrder le v (bodyOf chunks) ∧ (Fresh chunks → (startKeys v (bodyOf chunks)).1 = [])
  | [], _, _ => ⟨fun keys h => by rw [List.mem_singleton.1 h]; exact .nil, fun _ => rfl⟩
  | .dangling n cs :: rest, h, hi => by
    have ih := keys_chunks' rest h fun g items hm => hi g items (List.mem_cons_of_mem _ hm)
    rw [bodyOf]
    refine ⟨fun keys hk => ?_, fun _ => rfl⟩
    rcases List.mem_cons.1 hk with rfl | hk
    · exact .nil
    · exact ih.1 keys hk
  | .group g items :: rest, h, hi => by
    rw [Separate] at h
    have ih := keys_chunks' rest h.2.2 fun g items hm => hi g items (List.mem_cons_of_mem _ hm)
    have hp := keyLe_flat (hi g items List.mem_cons_self)
    cases items with
    | nil => exact absurd rfl h.1
    | cons x items =>
      rw [bodyOf]
      have e := startKeys_items v (bodyOf rest) items
      rw [ih.2 h.2.1, List.append_nil] at e
      rw [List.flatMap_cons] at hp
      have hr : ∀ keys ∈ (startKeys v (bodyOf rest)).2, keys.Pairwise fun a b => a = b ∨ le a b :=
        fun keys hk => ih.1 keys (List.mem_cons_of_mem _ hk)
      cases g with
      | none =>
        refine ⟨fun keys hk => ?_, fun hf => hf.elim⟩
        unfold groupKeys at hk
        rw [startKeys, e] at hk
        rcases List.mem_cons.1 hk with rfl | hk
        · exact hp
        · exact hr keys hk
      | some n =>
        refine ⟨fun keys hk => ?_, fun _ => by rw [startKeys]⟩
        unfold groupKeys at hk
        rw [startKeys, e] at hk
        rcases List.mem_cons.1 hk with rfl | hk
        · exact .nil
        · rcases List.mem_cons.1 hk with rfl | hk
          · exact hp
          · exact hr keys hk

theorem keys_chunks {le : Accessor → Accessor → Prop} {v : TomlVersion} (chunks : List Chunk) (h : Separate chunks)
    (hi : ∀ g items, Chunk.group g items ∈ chunks → items.Pairwise (KeyLe le v)) : KeysInOrder le v (bodyOf chunks) :=
  (keys_chunks' chunks h hi).1

/-! ### what is in the items -/

theorem firstKey_dropTrailing (v : TomlVersion) (n : Node) : firstKey v (dropTrailing n) = firstKey v n := by
  cases n with
  | pair l ks src n => cases ks <;> rfl
  | _ => rfl

theorem firstKey_dropLeading (v : TomlVersion) (n : Node) : firstKey v (dropLeading n) = firstKey v n := by
  cases n with
  | pair l ks src n => cases ks <;> rfl
  | _ => rfl

theorem value_dropTrailing (w : EditWorld S) (v : TomlVersion) : (n : Node) → ∀ sp, ValueInOrder w v sp (dropTrailing n) ↔ ValueInOrder w v sp n
  | .lit .. , _ => Iff.rfl
  | .array .., _ => by rw [dropTrailing, ValueInOrder, ValueInOrder]
  | .table .., _ => by rw [dropTrailing, ValueInOrder, ValueInOrder]
  | .pair l ks src n, sp => by rw [dropTrailing, ValueInOrder, ValueInOrder, value_dropTrailing w v n]

theorem value_dropLeading (w : EditWorld S) (v : TomlVersion) (n : Node) (sp : Option S) :
    ValueInOrder w v sp (dropLeading n) ↔ ValueInOrder w v sp n := by
  cases n <;> rw [dropLeading, ValueInOrder, ValueInOrder]

theorem items_group (w : EditWorld S) (v : TomlVersion) (sp : Option S) (items : List GroupItem) (rest : Body) : ∀ g,
    ItemsInOrder w v sp (groupBody g items rest) ↔ (∀ x ∈ items, ValueInOrder w v sp x.1) ∧ ItemsInOrder w v sp rest := by
  induction items with
  | nil => intro g; simp [groupBody]
  | cons x items ih =>
    intro g
    have := ih none
    rw [groupBody_none] at this
    rw [groupBody, ItemsInOrder, this]
    simp only [List.mem_cons, forall_eq_or_imp]
    exact and_assoc.symm

theorem items_chunks (w : EditWorld S) (v : TomlVersion) (sp : Option S) : (chunks : List Chunk) →
    (ItemsInOrder w v sp (bodyOf chunks) ↔ ∀ g items, Chunk.group g items ∈ chunks → ∀ x ∈ items, ValueInOrder w v sp x.1)
  | [] => by simp [bodyOf, ItemsInOrder]
  | .dangling n cs :: rest => by
    rw [bodyOf, ItemsInOrder, items_chunks w v sp rest]
    simp
  | .group g items :: rest => by
    rw [bodyOf_group, items_group, items_chunks w v sp rest]
    constructor
    · rintro ⟨h1, h2⟩ g' items' hm
      rcases List.mem_cons.mp hm with hm | hm
      · cases hm; exact h1
      · exact h2 g' items' hm
    · exact fun h => ⟨h g items List.mem_cons_self, fun g' items' hm => h g' items' (List.mem_cons_of_mem _ hm)⟩

/-- Groups are changed, and all items stay in order. -/
theorem items_mapGroups {w : EditWorld S} {v : TomlVersion} {sp : Option S} {f : Bool → Nat → List GroupItem → List GroupItem}
    (hf : ∀ last start items, ∀ y ∈ f last start items, ∃ x ∈ items, y.1 = x.1 ∨ y.1 = dropTrailing x.1) {start : Nat} {b : Body}
    (h : ItemsInOrder w v sp b) : ItemsInOrder w v sp (bodyOf (mapGroups f start (chunksOf b))) := by
  have h' : ItemsInOrder w v sp (bodyOf (chunksOf b)) := by rw [bodyOf_chunksOf]; exact h
  rw [items_chunks] at h' ⊢
  intro g items hm y hy
  obtain ⟨last, s, its, h1, rfl⟩ := mem_mapGroups hm
  obtain ⟨x, hx, e | e⟩ := hf _ _ _ y hy
  · rw [e]; exact h' g its h1 x hx
  · rw [e, value_dropTrailing]; exact h' g its h1 x hx

theorem editGroup_items {items : List GroupItem} (lastGroup hasComma : Bool)
    {sort : List (Nat × Option (CommaRef Text)) → Option (List (Nat × Option (CommaRef Text)))}
    (hs : sort (sourceValues (arrayItems items)) = none ∨
      ∃ sorted, sort (sourceValues (arrayItems items)) = some sorted ∧ Spec.Reordered (arrayItems items) sorted) :
    ∀ y ∈ editGroup lastGroup hasComma sort items, ∃ x ∈ items, y.1 = x.1 ∨ y.1 = dropTrailing x.1 := by
  obtain ⟨l, h1, h2, h3, -⟩ := editGroup_touched (C := fun _ => True) (fun x _ => ⟨fun _ _ => trivial, fun _ _ => trivial⟩)
    lastGroup hasComma sort hs
  intro y hy
  rw [← h2] at hy
  obtain ⟨z, hz, rfl⟩ := List.mem_map.mp hy
  exact ⟨z.1, h1.mem_iff.mp (List.mem_map_of_mem hz), (h3 z hz).1⟩

theorem inlineSort_ok {w : EditWorld S} {fuel : Nat} {v : TomlVersion} {t : DValue Scalar} {acc : List Accessor} {schema : Option S}
    {directive : Option OrderOverride} (items : List GroupItem) :
    (fun vs : List (Nat × Option (CommaRef Text)) => (inlineOrder w fuel v t acc schema directive items).map fun rs => pick vs (some rs))
      (sourceValues (arrayItems items)) = none ∨
    ∃ sorted, (fun vs : List (Nat × Option (CommaRef Text)) => (inlineOrder w fuel v t acc schema directive items).map fun rs => pick vs (some rs))
      (sourceValues (arrayItems items)) = some sorted ∧ Spec.Reordered (arrayItems items) sorted := by
  cases ho : inlineOrder w fuel v t acc schema directive items with
  | none => exact .inl rfl
  | some rs =>
    refine .inr ⟨_, rfl, pick_reordered _ ?_⟩
    rw [arrayItems, List.length_map]
    exact inlineOrder_perm ho

theorem arraySort_ok {w : EditWorld S} {acc : List Accessor} {schema item : Option S} {directive : Option ArrayOverride}
    {values : List (Node × DValue Scalar)} (items : List GroupItem) :
    arrayOrder w acc schema item directive values (sourceValues (arrayItems items)) = none ∨
    ∃ sorted, arrayOrder w acc schema item directive values (sourceValues (arrayItems items)) = some sorted ∧
      Spec.Reordered (arrayItems items) sorted := by
  cases ho : arrayOrder w acc schema item directive values (sourceValues (arrayItems items)) with
  | none => exact .inl rfl
  | some sorted => exact .inr ⟨sorted, rfl, arrayOrder_reordered ho⟩

theorem editValues_items {items : List GroupItem} (lastGroup hasComma : Bool) (n : Nat)
    {sort : List (Nat × Option (CommaRef Text)) → Option (List (Nat × Option (CommaRef Text)))}
    (hs : ∀ items, sort (sourceValues (arrayItems items)) = none ∨
      ∃ sorted, sort (sourceValues (arrayItems items)) = some sorted ∧ Spec.Reordered (arrayItems items) sorted) :
    ∀ y ∈ editValues lastGroup hasComma n sort items, ∃ x ∈ items, y.1 = x.1 ∨ y.1 = dropTrailing x.1 := by
  intro y hy
  unfold editValues at hy
  rcases List.mem_append.mp hy with hy | hy
  · obtain ⟨x, hx, h⟩ := editGroup_items _ _ (hs _) y hy
    exact ⟨x, List.mem_of_mem_take hx, h⟩
  · exact ⟨y, List.mem_of_mem_drop hy, .inl rfl⟩

/-! ### orders -/

theorem firstKey_accessors (v : TomlVersion) (x : GroupItem) : firstKey v x.1 = (itemAccessors v x).head? := by
  unfold itemAccessors
  cases h : x.1 with
  | pair l ks src n => cases ks <;> rfl
  | _ => rfl

theorem pathAt_map (v : TomlVersion) {items : List GroupItem} {i : Nat} {x : GroupItem} (h : items[i]? = some x) :
    pathAt (items.map (itemAccessors v)) i = itemAccessors v x := by
  rw [pathAt, List.getElem?_map, h]; rfl

/-- The groups of a table are in the order for it. -/
theorem orderedGroups_ordered {w : EditWorld S} (hp : PlainSteps w) {acc : List Accessor} {schema : Option S} {directive : Option OrderOverride}
    {le : Accessor → Accessor → Prop} (ho : orderFor w schema acc directive = some le) {T : Type} (groups : List (Accessor × List (Target T)))
    (hk : ∀ g ∈ groups, g.1.isKey = true) :
    (orderedGroups (w.sorting []) acc schema ((schema.map (w.schemas.view · acc)).bind SchemaView.asTable) (directive.bind (·.order))
      groups).Pairwise fun x y => le x.1 y.1 := by
  have hview : schema.map (w.schemas.view · acc) = schema.map (w.schemas.view · []) := by
    cases schema with
    | none => rfl
    | some s => rw [Option.map_some, Option.map_some, hp.view]
  rw [hview]
  unfold orderFor at ho
  generalize (schema.map (w.schemas.view · [])).bind SchemaView.asTable = table at ho ⊢
  simp only at ho
  unfold orderedGroups
  have e1 : (w.sorting []).directiveOverride acc = none := rfl
  have e2 : (w.sorting []).schemaOverride = w.schemas.schemaOverride := rfl
  have e3 : (w.sorting []).enabled = w.schemas.enabled := rfl
  rw [e1, e2, e3]
  simp only [Option.map_none, Option.bind_none, Option.getD_none, Option.none_or, Bool.false_or]
  generalize w.schemas.schemaOverride schema acc = settings at ho ⊢
  split at ho
  · cases ho
  · rename_i hdis
    have hs : (settings.map (·.disabled)).getD false = false := by
      cases settings with
      | none => rfl
      | some x => simp at hdis; simp [hdis.2]
    have he : (settings.map (!·.disabled)).getD false = settings.isSome := by
      cases settings with
      | none => rfl
      | some x => simp at hdis; simp [hdis.2]
    rw [hs, he]
    cases hord : (directive.bind (·.order)).or (settings.bind (·.order)) with
    | some o =>
      rw [hord] at ho
      simp only [tableKeysOrder, Bool.false_eq_true, if_false]
      cases o with
      | schema =>
        simp only at ho
        cases table with
        | none => cases ho
        | some t =>
          cases ho
          exact C31_table_sorted groups (some t) .schema t.properties (.inl rfl) hk
      | ascending => cases ho; exact C31_table_sorted groups table _ [] (.inr (by decide)) hk
      | descending => cases ho; exact C31_table_sorted groups table _ [] (.inr (by decide)) hk
      | versionSort => cases ho; exact C31_table_sorted groups table _ [] (.inr (by decide)) hk
    | none =>
      rw [hord] at ho
      simp only at ho
      split at ho
      · rename_i hen
        cases table with
        | none => cases ho
        | some t =>
          simp only [tableKeysOrder, hen, if_true, Bool.false_eq_true, if_false]
          rw [Option.bind_some] at ho
          unfold schemaLe at ho
          cases hko : t.keysOrder with
          | none => rw [hko] at ho; cases ho
          | some o =>
            rw [hko] at ho
            cases o with
            | all o => cases ho; exact C31_table_sorted groups (some t) o t.properties (.inl rfl) hk
            | groups gs =>
              cases ho
              have := C31_groups_sorted groups t gs hk
              rw [List.pairwise_filter] at this
              refine this.imp fun {x y} h => ?_
              unfold GroupsLe
              cases h1 : kindOrder gs (keyKind t x.1) with
              | none => exact .inl rfl
              | some o1 =>
                cases h2 : kindOrder gs (keyKind t y.1) with
                | none => exact .inr (.inl rfl)
                | some o2 =>
                  rw [h1, h2] at h
                  exact .inr (.inr (h rfl rfl))
      · cases ho

/-- The order of a group of key-values. -/
theorem inlineOrder_ordered {w : EditWorld S} (hp : PlainSteps w) {fuel : Nat} {v : TomlVersion} {kind : TableKind}
    {es : List (DKey × DValue Scalar)} {acc : List Accessor} {schema : Option S} {directive : Option OrderOverride}
    {le : Accessor → Accessor → Prop} {items : List GroupItem}
    (hl : ∀ p ∈ items.map (itemAccessors v), p.length < fuel) (h0 : 0 < fuel) (ho : orderFor w schema acc directive = some le) :
    ∃ rs, inlineOrder w fuel v (.table kind es) acc schema directive items = some rs ∧
      (pick items (some rs)).Pairwise (KeyLe le v) := by
  obtain ⟨fuel, rfl⟩ : ∃ f, fuel = f + 1 := ⟨fuel - 1, by omega⟩
  obtain ⟨rs, hr⟩ := C30_result (w.sorting []) hp.single (.table kind es) acc (items.map (itemAccessors v)) schema (directive.bind (·.order))
    (fuel + 1) hl h0
  have hdis : (directive.map (·.disabled)).getD false = false := by
    unfold orderFor at ho
    simp only at ho
    split at ho
    · cases ho
    · rename_i h
      cases directive with
      | none => rfl
      | some x => simp at h; simp [h.1]
  refine ⟨rs, by rw [inlineOrder, hdis]; exact hr, ?_⟩
  have hk' : ∀ x ∈ (items.map (itemAccessors v)).zipIdx, ∀ a ∈ x.1, a.isKey = true := fun x hx a ha => by
    obtain ⟨y, -, e⟩ := List.mem_map.mp (List.fst_mem_of_mem_zipIdx hx)
    rw [← e] at ha
    exact itemAccessors_keys v y a ha
  have := getSorted_first (w.sorting []) (pathAt (items.map (itemAccessors v)))
    (fun schemas o => by
      cases schema with
      | none => simp
      | some s => exact fun h => hp.single s acc schemas o (Option.some.inj h))
    hr (fun t ht => pathAt_zipIdx ht) hk' le
    (orderedGroups_ordered hp ho _ fun g hg => by
      obtain ⟨as, x, hm⟩ := (group_keys (items.map (itemAccessors v)).zipIdx g.1).1 (List.mem_map.2 ⟨g, hg, rfl⟩)
      exact hk' _ hm g.1 List.mem_cons_self)
  unfold pick
  simp only
  rw [List.pairwise_filterMap]
  refine this.imp fun {i j} h x hx y hy a b ha hb => ?_
  rw [pathAt_map v hx, pathAt_map v hy] at h
  rw [firstKey_accessors] at ha hb
  rcases h with h | ⟨a', p, b', q, h1, h2, h3⟩
  · rw [h] at ha; cases ha
  · rw [h1] at ha
    rw [h2] at hb
    cases ha
    cases hb
    exact h3

/-- Without directives and settings, the order is the one of the schema. -/
theorem tableObeys_inOrder {w : EditWorld S} (hp : PlainSchemas w) {v : TomlVersion} {schema : Option S} {acc : List Accessor} {b : Body}
    (h : TableObeys w v schema acc none b) : TableInOrder w v schema b := by
  intro s t le hs hv hle
  refine h le ?_
  subst hs
  unfold orderFor
  simp [hp.override, hp.enabled, hv, SchemaView.asTable, hle]

theorem mem_bodyPaths (v : TomlVersion) : (chunks : List Chunk) → ∀ g items, Chunk.group g items ∈ chunks →
    ∀ p ∈ items.map (itemAccessors v), p ∈ bodyPaths v (bodyOf chunks)
  | [], _, _, h, _, _ => by cases h
  | .dangling n cs :: rest, g, items, h, p, hp => by
    rw [bodyOf, bodyPaths]
    rcases List.mem_cons.mp h with h | h
    · cases h
    · exact mem_bodyPaths v rest g items h p hp
  | .group f its :: rest, g, items, h, p, hp => by
    rw [bodyOf_group, bodyPaths_group]
    rcases List.mem_cons.mp h with h | h
    · cases h
      exact List.mem_append_left _ hp
    · exact List.mem_append_right _ (mem_bodyPaths v rest g items h p hp)

/-- Key-values of an inline table after sorting. -/
theorem inline_inOrder {w : EditWorld S} (hp : PlainSteps w) {fuel : Nat} {v : TomlVersion} {kind : TableKind}
    {es : List (DKey × DValue Scalar)} {acc : List Accessor} {schema : Option S} {directive : Option OrderOverride} {b : Body} {hasComma : Bool}
    (hl : ∀ p ∈ bodyPaths v b, p.length < fuel) (h0 : 0 < fuel) :
    TableObeys w v schema acc directive (bodyOf (mapGroups (fun last _ items => editGroup last hasComma
      (fun vs => (inlineOrder w fuel v (.table kind es) acc schema directive items).map fun rs => pick vs (some rs)) items) 0 (chunksOf b))) := by
  intro le ho
  refine keys_chunks _ (separate_mapGroups _ (fun last start items => editGroup_nil _ _ _ (inlineSort_ok items)) _ 0 (separate_chunksOf b)) ?_
  intro g items' hm
  obtain ⟨last, st, items, h1, rfl⟩ := mem_mapGroups hm
  have hl' : ∀ p ∈ items.map (itemAccessors v), p.length < fuel := fun p hp => hl p (by
    have := mem_bodyPaths v (chunksOf b) g items h1 p hp
    rwa [bodyOf_chunksOf] at this)
  obtain ⟨rs, hr, hpw⟩ := inlineOrder_ordered hp (kind := kind) (es := es) (acc := acc) hl' h0 ho
  obtain ⟨l, k1, k2, k3, -, k5⟩ := editGroup_touched (C := fun _ => True) (items := items) (fun x _ => ⟨fun _ _ => trivial, fun _ _ => trivial⟩)
    last hasComma (fun vs => (inlineOrder w fuel v (.table kind es) acc schema directive items).map fun rs => pick vs (some rs)) (inlineSort_ok items)
  rw [← k2]
  have e : l.map (·.1) = pick items (some rs) := by
    have hperm := inlineOrder_perm hr
    rw [k5 (pick (sourceValues (arrayItems items)) (some rs)) (by rw [hr]; rfl)]
    unfold pick
    simp only
    congr 1
    rw [List.map_filterMap]
    have hids := sourceValues_ids (arrayItems items)
    have : ∀ i ∈ rs, ((sourceValues (arrayItems items))[i]?).map (·.1) = some i := by
      intro i hi
      have hi' := List.mem_range.mp (hperm.mem_iff.mp hi)
      rw [← List.getElem?_map, hids]
      simp [arrayItems, hi']
    rw [filterMap_congr' this]
    simp
  rw [← e, List.pairwise_map] at hpw
  rw [List.pairwise_map]
  refine hpw.imp_of_mem fun {x y} hx hy h a b ha hb => h a b ?_ ?_
  · rcases (k3 x hx).1 with e | e <;> rw [e] at ha
    · exact ha
    · rwa [firstKey_dropTrailing] at ha
  · rcases (k3 y hy).1 with e | e <;> rw [e] at hb
    · exact hb
    · rwa [firstKey_dropTrailing] at hb

/-- Key-values of a table after sorting. -/
theorem orderTable_inOrder {w : EditWorld S} (hp : PlainSteps w) {fuel : Nat} {v : TomlVersion} {acc : List Accessor} {schema : Option S}
    {directive : Option OrderOverride} {b : Body}
    (tree : List GroupItem → DValue Scalar) (ht : ∀ items, ∃ kind es, tree items = .table kind es)
    (hl : ∀ p ∈ bodyPaths v b, p.length < fuel) (h0 : 0 < fuel) :
    TableObeys w v schema acc directive (orderTable (fun items => tableOrder w fuel v (tree items) acc schema directive items) b) := by
  intro le ho
  have hlen : ∀ items, (pick items (tableOrder w fuel v (tree items) acc schema directive items)).length = items.length := by
    intro items
    cases hr : tableOrder w fuel v (tree items) acc schema directive items with
    | none => rfl
    | some rs => exact (pick_perm items (tableOrder_perm hr)).length_eq
  refine keys_chunks _ (separate_mapGroups _ (fun last start items => hlen items) _ 0 (separate_chunksOf b)) ?_
  intro g items' hm
  obtain ⟨last, st, items, h1, rfl⟩ := mem_mapGroups hm
  have hl' : ∀ p ∈ items.map (itemAccessors v), p.length < fuel := fun p hp => hl p (by
    have := mem_bodyPaths v (chunksOf b) g items h1 p hp
    rwa [bodyOf_chunksOf] at this)
  obtain ⟨kind, es, e⟩ := ht items
  obtain ⟨rs, hr, hpw⟩ := inlineOrder_ordered hp (kind := kind) (es := es) (acc := acc) hl' h0 ho
  have : tableOrder w fuel v (tree items) acc schema directive items = some rs := by
    unfold tableOrder
    rw [if_neg ?_, e]
    · exact hr
    · unfold orderFor at ho
      simp only at ho
      split at ho
      · cases ho
      · rename_i h
        cases hs : w.schemas.schemaOverride schema acc with
        | none => simp
        | some x => rw [hs] at h; simp at h; simp [h.2]
  show (pick items (tableOrder w fuel v (tree items) acc schema directive items)).Pairwise (KeyLe le v)
  rw [this]
  exact hpw

theorem orderTable_items {w : EditWorld S} {v : TomlVersion} {sp : Option S} (order : List GroupItem → Option (List Nat)) {b : Body}
    (h : ItemsInOrder w v sp b) : ItemsInOrder w v sp (orderTable order b) := by
  unfold orderTable
  refine items_mapGroups (fun last start items y hy => ⟨y, ?_, .inl rfl⟩) h
  unfold pick at hy
  split at hy
  · exact hy
  · obtain ⟨i, -, hi⟩ := List.mem_filterMap.mp hy
    exact List.mem_of_getElem? hi

end Tombi.Editing
