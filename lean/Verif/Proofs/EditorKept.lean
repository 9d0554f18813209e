import Verif.Proofs.EditorOrdered3
import Verif.Spec.SortingOff
/-! Items move only inside of their own table or array, and not where sorting is turned off. -/
namespace Tombi.Editing
open Tombi.Formatter (Node Body Section Doc Comma Text docOf childrenOf)
open Tombi.Reading (Scalar keyOr headComments convert)
open Tombi.Spec

variable {S : Type}

theorem plain_dropTrailing : (n : Node) → plain (dropTrailing n) = plain n
  | .lit .. => rfl
  | .array .. => rfl
  | .table .. => rfl
  | .pair l ks src n => by simp only [dropTrailing, plain, plain_dropTrailing n]

theorem plain_dropLeading (n : Node) : plain (dropLeading n) = plain n := by cases n <;> rfl

theorem moved_refl (off : Prop) (b : Body) : Moved off (plainItems b) b := ⟨.refl _, fun _ => rfl⟩

theorem plainItems_before (items : List GroupItem) (rest : Body) :
    plainItems (itemsBefore items rest) = items.map (fun x => plain x.1) ++ plainItems rest := by
  induction items with
  | nil => rfl
  | cons x items ih => rw [itemsBefore, plainItems, ih]; rfl

/-- The items of groups. -/
def chunkNodes : List Chunk → List Node
  | [] => []
  | .dangling _ _ :: rest => chunkNodes rest
  | .group _ items :: rest => items.map (fun x => plain x.1) ++ chunkNodes rest

theorem plainItems_bodyOf : (cs : List Chunk) → plainItems (bodyOf cs) = chunkNodes cs
  | [] => rfl
  | .dangling n c :: rest => by rw [bodyOf, plainItems, chunkNodes, plainItems_bodyOf rest]
  | .group f [] :: rest => by rw [bodyOf, chunkNodes, plainItems_bodyOf rest]; rfl
  | .group f (x :: items) :: rest => by rw [bodyOf, plainItems, plainItems_before, chunkNodes, plainItems_bodyOf rest]; rfl

/-- Groups are changed, each by itself. -/
theorem mapGroups_moved {off : Prop} {f : Bool → Nat → List GroupItem → List GroupItem}
    (hf : ∀ last start items, ((f last start items).map fun x => plain x.1).Perm (items.map fun x => plain x.1) ∧
      (off → (f last start items).map (fun x => plain x.1) = items.map fun x => plain x.1)) (b : Body) :
    Moved off (plainItems b) (bodyOf (mapGroups f 0 (chunksOf b))) := by
  have key : ∀ (cs : List Chunk) start, (chunkNodes (mapGroups f start cs)).Perm (chunkNodes cs) ∧
      (off → chunkNodes (mapGroups f start cs) = chunkNodes cs) := by
    intro cs
    induction cs with
    | nil => exact fun _ => ⟨.refl _, fun _ => rfl⟩
    | cons c cs ih =>
      intro start
      cases c with
      | dangling n c => rw [mapGroups, chunkNodes, chunkNodes]; exact ih start
      | group g items =>
        rw [mapGroups, chunkNodes, chunkNodes]
        obtain ⟨h1, h2⟩ := hf (!hasGroup cs) start items
        obtain ⟨h3, h4⟩ := ih (start + items.length)
        exact ⟨h1.append h3, fun h => by rw [h2 h, h4 h]⟩
  have e : plainItems b = chunkNodes (chunksOf b) := by rw [← plainItems_bodyOf, bodyOf_chunksOf]
  rw [e]
  unfold Moved
  rw [plainItems_bodyOf]
  exact key _ _

theorem editGroup_moved {off : Prop} {items : List GroupItem} (lastGroup hasComma : Bool)
    {sort : List (Nat × Option (CommaRef Text)) → Option (List (Nat × Option (CommaRef Text)))}
    (hs : sort (sourceValues (arrayItems items)) = none ∨
      ∃ sorted, sort (sourceValues (arrayItems items)) = some sorted ∧ Spec.Reordered (arrayItems items) sorted)
    (ho : off → sort (sourceValues (arrayItems items)) = none) :
    ((editGroup lastGroup hasComma sort items).map fun x => plain x.1).Perm (items.map fun x => plain x.1) ∧
      (off → (editGroup lastGroup hasComma sort items).map (fun x => plain x.1) = items.map fun x => plain x.1) := by
  obtain ⟨l, h1, h2, h3, h4, -⟩ := editGroup_touched (C := fun _ => True) (fun x _ => ⟨fun _ _ => trivial, fun _ _ => trivial⟩)
    lastGroup hasComma sort hs
  have e : (editGroup lastGroup hasComma sort items).map (fun x => plain x.1) = (l.map (·.1)).map fun x => plain x.1 := by
    rw [← h2, List.map_map, List.map_map]
    refine List.map_congr_left fun z hz => ?_
    rcases (h3 z hz).1 with e | e
    · exact congrArg plain e
    · exact (congrArg plain e).trans (plain_dropTrailing _)
  rw [e]
  exact ⟨h1.map _, fun h => by rw [h4 (ho h)]⟩

theorem inlineOrder_off {w : EditWorld S} {fuel : Nat} {v : TomlVersion} {t : DValue Scalar} {acc : List Accessor} {schema : Option S}
    {cs : List Text} {items : List GroupItem} (h : CommentOff w cs) :
    inlineOrder w fuel v t acc schema (w.tableDirective cs) items = none := by
  obtain ⟨o, h1, h2⟩ := h
  unfold inlineOrder
  rw [h1]
  simp [h2]

theorem tableOrder_off {w : EditWorld S} {fuel : Nat} {v : TomlVersion} {t : DValue Scalar} {acc : List Accessor} {schema : Option S}
    {cs : List Text} {items : List GroupItem} (h : TableOff w cs) :
    tableOrder w fuel v t acc schema (w.tableDirective cs) items = none := by
  unfold tableOrder
  split
  · rfl
  · rcases h with h | h
    · exact inlineOrder_off h
    · obtain ⟨o, h1, h2⟩ := h schema acc
      rename_i hn
      rw [h1] at hn
      simp [h2] at hn

theorem arrayOrder_off {w : EditWorld S} {acc : List Accessor} {schema item : Option S} {cs : List Text}
    {values : List (Node × DValue Scalar)} {vs : List (Nat × Option (CommaRef Text))} (h : ArrayOff w cs) :
    arrayOrder w acc schema item (w.arrayDirective cs) values vs = none := by
  unfold arrayOrder
  rcases h with ⟨o, h1, h2⟩ | h
  · simp [h1, h2]
  · obtain ⟨o, h1, h2⟩ := h item acc
    simp [h1, h2]

theorem orderTable_moved {off : Prop} {order : List GroupItem → Option (List Nat)}
    (hp : ∀ items rs, order items = some rs → rs.Perm (List.range items.length)) (ho : off → ∀ items, order items = none) (b : Body) :
    Moved off (plainItems b) (orderTable order b) := by
  refine mapGroups_moved (fun last start items => ?_) b
  refine ⟨?_, fun h => by rw [ho h, pick]⟩
  cases hr : order items with
  | none => exact .refl _
  | some rs => exact (pick_perm items (hp items rs hr)).map _

mutual
theorem SortedNode.refl (w : EditWorld S) : (n : Node) → ∀ cs, SortedNode w cs n n
  | .lit .., cs => by rw [SortedNode]
  | .array l s b tr, cs => by rw [SortedNode]; exact ⟨b, _, rfl, SortedItems.refl w b, moved_refl _ b⟩
  | .table l s b tr, cs => by rw [SortedNode]; exact ⟨b, _, rfl, SortedItems.refl w b, moved_refl _ b⟩
  | .pair l ks src n, cs => by rw [SortedNode]; exact ⟨n, rfl, SortedNode.refl w n _⟩
theorem SortedItems.refl (w : EditWorld S) : (b : Body) → SortedItems w b (plainItems b)
  | .nil => by rw [SortedItems]; rfl
  | .dangling n cs rest => by rw [SortedItems, plainItems]; exact SortedItems.refl w rest
  | .item f n c rest => by rw [SortedItems, plainItems]; exact ⟨n, _, rfl, SortedNode.refl w n [], SortedItems.refl w rest⟩
end

mutual
theorem sortNode_kept (w : EditWorld S) (fuel : Nat) (v : TomlVersion) : (n : Node) → ∀ cs acc schema t n',
    sortNode w fuel v cs acc schema t n = .ok n' → SortedNode w cs n n'
  | .lit l k x tr, cs, acc, schema, t, n', h => by
    rw [sortNode] at h
    cases h
    exact SortedNode.refl w _ _
  | .array l s b tr, cs, acc, schema, t, n', h => by
    rw [sortNode] at h
    cases ht : arrayValues t with
    | none => rw [ht] at h; cases h; exact SortedNode.refl w _ _
    | some ts =>
      rw [ht] at h
      simp only at h
      cases hi : itemSchema w fuel t acc schema with
      | error e => rw [hi] at h; cases h
      | ok item =>
        rw [hi] at h
        simp only at h
        cases hs : sortItems w fuel v acc item 0 ts b with
        | error e => rw [hs] at h; cases h
        | ok b' =>
          rw [hs] at h
          simp only at h
          cases h
          rw [SortedNode]
          refine ⟨_, _, rfl, sortItems_kept w fuel v b acc item 0 ts b' hs, mapGroups_moved (fun last start items => ?_) b'⟩
          unfold editValues
          have := editGroup_moved (off := ArrayOff w (cs ++ s.toList ++ headComments b)) (items := items.take (ts.length - start))
            (last && decide (items.length ≤ ts.length - start)) (b.lastComma false)
            (sort := arrayOrder w acc schema item (w.arrayDirective (cs ++ s.toList ++ headComments b)) ((items.map (·.1)).zip (ts.drop start)))
            (by
              cases ho : arrayOrder w acc schema item (w.arrayDirective (cs ++ s.toList ++ headComments b))
                  ((items.map (·.1)).zip (ts.drop start)) (sourceValues (arrayItems (items.take (ts.length - start)))) with
              | none => exact .inl rfl
              | some sorted => exact .inr ⟨sorted, rfl, arrayOrder_reordered ho⟩)
            (fun h => arrayOrder_off h)
          have e : items.map (fun x => plain x.1) = (items.take (ts.length - start)).map (fun x => plain x.1) ++
              (items.drop (ts.length - start)).map fun x => plain x.1 := by
            rw [← List.map_append, List.take_append_drop]
          rw [List.map_append, e]
          exact ⟨this.1.append (.refl _), fun h => by rw [this.2 h]⟩
  | .table l s b tr, cs, acc, schema, t, n', h => by
    rw [sortNode] at h
    split at h
    · cases hs : sortEntries w fuel v acc schema t b with
      | error e => rw [hs] at h; cases h
      | ok b' =>
        rw [hs] at h
        simp only at h
        cases h
        rw [SortedNode]
        refine ⟨_, _, rfl, sortEntries_kept w fuel v b acc schema t b' hs, mapGroups_moved (fun last start items => ?_) b'⟩
        exact editGroup_moved last (b.lastComma false) (inlineSort_ok items) fun h => by rw [inlineOrder_off h]; rfl
    · cases h
      exact SortedNode.refl w _ _
  | .pair l ks src n, cs, acc, schema, t, n', h => by
    rw [sortNode] at h
    cases hf : followSchema w fuel t (ks.map fun k => .key (keyOr v k)) acc schema with
    | error e => rw [hf] at h; cases h
    | ok o =>
      rw [hf] at h
      cases o with
      | none => cases h; exact SortedNode.refl w _ _
      | some x =>
        obtain ⟨t', acc', schema'⟩ := x
        simp only at h
        cases hn : sortNode w fuel v (l ++ n.trailing.toList) acc' schema' t' n with
        | error e => rw [hn] at h; cases h
        | ok n1 =>
          rw [hn] at h
          cases h
          rw [SortedNode]
          exact ⟨n1, rfl, sortNode_kept w fuel v n _ _ _ _ n1 hn⟩
theorem sortItems_kept (w : EditWorld S) (fuel : Nat) (v : TomlVersion) : (b : Body) → ∀ acc item i ts b',
    sortItems w fuel v acc item i ts b = .ok b' → SortedItems w b (plainItems b')
  | .nil, acc, item, i, ts, b', h => by
    rw [sortItems] at h
    cases h
    exact SortedItems.refl w _
  | .dangling n cs rest, acc, item, i, ts, b', h => by
    rw [sortItems] at h
    cases hs : sortItems w fuel v acc item i ts rest with
    | error e => rw [hs] at h; cases h
    | ok rest' =>
      rw [hs] at h
      cases h
      rw [SortedItems, plainItems]
      exact sortItems_kept w fuel v rest acc item i ts rest' hs
  | .item f n c rest, acc, item, i, ts, b', h => by
    cases ts with
    | nil => rw [sortItems] at h; cases h; exact SortedItems.refl w _
    | cons t ts =>
      rw [sortItems] at h
      cases hn : sortNode w fuel v [] (acc ++ [.index i]) item t n with
      | error e => rw [hn] at h; cases h
      | ok n' =>
        rw [hn] at h
        simp only at h
        cases hs : sortItems w fuel v acc item (i + 1) ts rest with
        | error e => rw [hs] at h; cases h
        | ok rest' =>
          rw [hs] at h
          cases h
          rw [SortedItems, plainItems]
          exact ⟨n', _, rfl, sortNode_kept w fuel v n _ _ _ _ n' hn, sortItems_kept w fuel v rest acc item (i + 1) ts rest' hs⟩
theorem sortEntries_kept (w : EditWorld S) (fuel : Nat) (v : TomlVersion) : (b : Body) → ∀ acc schema t b',
    sortEntries w fuel v acc schema t b = .ok b' → SortedItems w b (plainItems b')
  | .nil, acc, schema, t, b', h => by
    rw [sortEntries] at h
    cases h
    exact SortedItems.refl w _
  | .dangling n cs rest, acc, schema, t, b', h => by
    rw [sortEntries] at h
    cases hs : sortEntries w fuel v acc schema t rest with
    | error e => rw [hs] at h; cases h
    | ok rest' =>
      rw [hs] at h
      cases h
      rw [SortedItems, plainItems]
      exact sortEntries_kept w fuel v rest acc schema t rest' hs
  | .item f n c rest, acc, schema, t, b', h => by
    rw [sortEntries] at h
    cases hn : sortNode w fuel v [] acc schema t n with
    | error e => rw [hn] at h; cases h
    | ok n' =>
      rw [hn] at h
      simp only at h
      cases hs : sortEntries w fuel v acc schema t rest with
      | error e => rw [hs] at h; cases h
      | ok rest' =>
        rw [hs] at h
        cases h
        rw [SortedItems, plainItems]
        exact ⟨n', _, rfl, sortNode_kept w fuel v n _ _ _ _ n' hn, sortEntries_kept w fuel v rest acc schema t rest' hs⟩
end

theorem sortSection_kept {w : EditWorld S} {fuel : Nat} {v : TomlVersion} {schema : Option S} {root : DValue Scalar}
    {prev : List (AstSection Scalar)} {s s' : Section} (h : sortSection w fuel v schema root prev s = .ok s') : SortedSection w s s' := by
  have same : SortedSection w s s := ⟨rfl, rfl, _, SortedItems.refl w s.body, moved_refl _ s.body⟩
  unfold sortSection at h
  cases hh : (astSection v s).headerAccessors prev with
  | none => rw [hh] at h; cases h; exact same
  | some header =>
    rw [hh] at h
    simp only at h
    cases hf : followSchema w fuel root header [] schema with
    | error e => rw [hf] at h; cases h
    | ok o =>
      rw [hf] at h
      cases o with
      | none => cases h; exact same
      | some x =>
        obtain ⟨t, acc, schema'⟩ := x
        simp only at h
        cases hs : sortEntries w fuel v acc schema' t s.body with
        | error e => rw [hs] at h; cases h
        | ok b =>
          rw [hs] at h
          cases h
          exact ⟨rfl, rfl, _, sortEntries_kept w fuel v _ _ _ _ b hs,
            orderTable_moved (fun items rs hr => tableOrder_perm hr) (fun ho items => tableOrder_off ho) b⟩

theorem sortEach_kept {w : EditWorld S} {fuel : Nat} {v : TomlVersion} {schema : Option S} {root : DValue Scalar} :
    (ss : List Section) → ∀ prev ss', sortEach w fuel v schema root prev ss = .ok ss' →
    (∀ s' ∈ ss', ∃ s ∈ ss, SortedSection w s s') ∧ ss'.map (·.header) = ss.map (·.header)
  | [], prev, ss', h => by
    rw [sortEach] at h
    cases h
    exact ⟨fun _ h => (nomatch h), rfl⟩
  | s :: ss, prev, ss', h => by
    rw [sortEach] at h
    cases h1 : sortSection w fuel v schema root prev s with
    | error e => rw [h1] at h; cases h
    | ok s1 =>
      rw [h1] at h
      simp only at h
      cases h2 : sortEach w fuel v schema root (astSection v s :: prev) ss with
      | error e => rw [h2] at h; cases h
      | ok ss1 =>
        rw [h2] at h
        cases h
        have k1 := sortSection_kept h1
        obtain ⟨k2, k3⟩ := sortEach_kept ss _ ss1 h2
        refine ⟨fun s' hs' => ?_, by rw [List.map_cons, List.map_cons, k3, k1.1]⟩
        rcases List.mem_cons.1 hs' with rfl | hs'
        · exact ⟨s, List.mem_cons_self, k1⟩
        · obtain ⟨s0, h0, h3⟩ := k2 s' hs'
          exact ⟨s0, List.mem_cons_of_mem _ h0, h3⟩

theorem moveTop_moved {w : EditWorld S} (n : Nat) (d : Doc) (source : List Section) (h : ∀ s' ∈ d.sections, ∃ s ∈ source, SortedSection w s s') :
    plainItems (moveTop n d).body = plainItems d.body ∧ (moveTop n d).sections.map (·.header) = d.sections.map (·.header) ∧
      ∀ s' ∈ (moveTop n d).sections, ∃ s ∈ source, SortedSection w s s' := by
  unfold moveTop
  split
  · rename_i f x c rest e
    split
    · exact ⟨by rw [e, plainItems, plainItems, plainItems, plain_dropLeading], rfl, h⟩
    · exact ⟨rfl, rfl, h⟩
  · rename_i s ss e1 e2
    split
    · refine ⟨by rw [e1]; rfl, by rw [e2]; rfl, fun s' hs' => ?_⟩
      rcases List.mem_cons.mp hs' with rfl | hs'
      · obtain ⟨s0, h0, h1⟩ := h s (by rw [e2]; exact List.mem_cons_self)
        exact ⟨s0, h0, h1⟩
      · exact h s' (by rw [e2]; exact List.mem_cons_of_mem _ hs')
    · exact ⟨rfl, rfl, h⟩
  · exact ⟨rfl, rfl, h⟩

/-- Where sorting is turned off, items stay where they are, and all items stay in their table or array. -/
theorem sortTree_moved {w : EditWorld S} {fuel : Nat} {v : TomlVersion} {schema : Option S} {root : Green} {d : Doc}
    (h : sortTree w fuel v schema root = .ok d) :
    SortedBody w (TableOff w (headComments (docOf root).body)) (docOf root).body d.body ∧
    (∀ s' ∈ d.sections, ∃ s ∈ (docOf root).sections, SortedSection w s s') ∧
    (CommentOff w (headComments (docOf root).body) → d.sections.map (·.header) = (docOf root).sections.map (·.header)) := by
  unfold sortTree at h
  simp only at h
  split at h
  · cases h1 : sortEntries w fuel v [] schema (convert v (docOf root)).1.value (docOf root).body with
    | error e => rw [h1] at h; cases h
    | ok b =>
      rw [h1] at h
      simp only at h
      cases h2 : sortEach w fuel v schema (convert v (docOf root)).1.value [] (docOf root).sections with
      | error e => rw [h2] at h; cases h
      | ok ss =>
        rw [h2] at h
        cases h
        have k1 := sortEntries_kept w fuel v _ _ _ _ b h1
        obtain ⟨k2, k3⟩ := sortEach_kept _ _ ss h2
        obtain ⟨m1, m2, m3⟩ := moveTop_moved (w := w) (topBreaks (childrenOf root)) ⟨b, ss⟩ _ k2
        generalize moveTop (topBreaks (childrenOf root)) ⟨b, ss⟩ = d' at m1 m2 m3
        have m1 : plainItems d'.body = plainItems b := m1
        have m2 : d'.sections.map (·.header) = ss.map (·.header) := m2
        unfold orderRoot
        split
        · exact ⟨⟨_, k1, m1 ▸ moved_refl _ _⟩, m3, fun _ => m2.trans k3⟩
        · rename_i hdis
          refine ⟨⟨_, k1, m1 ▸ orderTable_moved (fun items rs hr => tableOrder_perm hr) (fun ho items => tableOrder_off ho) d'.body⟩,
            fun s' hs' => ?_, fun ho => ?_⟩
          · simp only at hs'
            split at hs'
            · exact m3 s' hs'
            · have key : ∀ xs : List Section, (∀ s ∈ xs, s ∈ d'.sections) → ∀ s' ∈ placeSections d'.sections xs,
                  ∃ s ∈ (docOf root).sections, SortedSection w s s' := by
                intro xs hx s' hs'
                cases xs with
                | nil => cases hs'
                | cons s xs =>
                  rw [placeSections] at hs'
                  rcases List.mem_cons.mp hs' with rfl | hs'
                  · obtain ⟨s0, h0, h1⟩ := m3 s (hx s List.mem_cons_self)
                    exact ⟨s0, h0, h1⟩
                  · obtain ⟨s1, hs1, rfl⟩ := List.mem_map.mp hs'
                    obtain ⟨s0, h0, h1⟩ := m3 s1 (hx s1 (List.mem_cons_of_mem _ hs1))
                    exact ⟨s0, h0, h1⟩
              refine key _ (fun s hs => ?_) s' hs'
              obtain ⟨i, -, hi⟩ := List.mem_filterMap.mp hs
              exact List.mem_of_getElem? hi
          · obtain ⟨o, e1, e2⟩ := ho
            rw [e1] at hdis
            simp [e2] at hdis
  · cases h
    exact ⟨⟨_, SortedItems.refl w _, moved_refl _ _⟩, fun s hs => ⟨s, hs, rfl, rfl, _, SortedItems.refl w s.body, moved_refl _ s.body⟩, fun _ => rfl⟩

end Tombi.Editing
