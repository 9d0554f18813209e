import Verif.Proofs.KeysOrder5
import Verif.Proofs.KeysMeaning2

/-! Properties C30, C31, C54 and C55: sorting keys and sections. -/
namespace Tombi
open Spec

variable {σ S : Type}

/-! ### Examples -/

/-- A path of keys. -/
def exKeys (keys : List String) : List Accessor := keys.map fun k => .key k.toList

/-- No schemas, no configuration. -/
def exNoSchema : SchemaWorld Empty Nat :=
  ⟨fun s _ => s.elim, fun _ _ s => s.elim, fun _ => false, fun _ _ => none, fun _ => none⟩

/-- Four schemas: the document has the properties `a` and `c`; `a` is an array of tables that have the property `b`, an
array of tables. -/
inductive ExSchema where
  | root | tables | table | other
  deriving DecidableEq

/-- The schema `ExSchema.root`, which puts `c` first. -/
def exSchema : SchemaWorld ExSchema Nat where
  view s _ := match s with
    | .root => .table ⟨some (.all .schema), exKeys ["c", "a"], [],
        fun a => if a = .key "a".toList then some .tables else none, none⟩
    | .tables => .array (some .table)
    | .table => .table ⟨some (.all .ascending), exKeys ["b"], [],
        fun a => if a = .key "b".toList then some .tables else none, none⟩
    | .other => .other
  valid _ _ _ := true
  enabled _ := true
  schemaOverride _ _ := none
  directiveOverride _ := none

/-- The sections in their new order. -/
def exSorted (sections : List (AstSection Nat)) : Option (List Nat) := sortSections exNoSchema 10 sections none (some .ascending)

/-! ### C30 -/

/-- **C30**, key-values: sorting returns the items, each once, whatever the schema, the tree, the order and the overrides.
Items with the same keys keep their order. The items are given by their positions. -/
theorem C30_keys_permuted (w : SchemaWorld S σ) (fuel : Nat) (value : DValue σ) (acc : List Accessor)
    (paths : List (List Accessor)) (schema : Option S) (order : Option KeysOrder) (rs : List Nat)
    (hk : ∀ p ∈ paths, ∀ a ∈ p, a.isKey = true)
    (h : getSorted w fuel value acc paths.zipIdx schema order = some rs) :
    rs.Perm (List.range paths.length) ∧
    ∀ q : List Accessor, rs.filter (fun i => pathAt paths i == q) = (List.range paths.length).filter (fun i => pathAt paths i == q) := by
  have key : ∀ q, atPath (pathAt paths) q rs = atPath (pathAt paths) q (List.range paths.length) := by
    intro q
    rw [← zipIdx_positions]
    exact getSorted_rel w eq_listRel (pathAt paths) fuel value acc paths.zipIdx schema order rs [] q h
      (fun t ht => pathAt_zipIdx ht) (Or.inr (Or.inr (Or.inl fun t ht a ha => hk t.1 (List.fst_mem_of_mem_zipIdx ht) a ha)))
  exact ⟨perm_of_atPath _ key, key⟩

/-- **C30**, sections, without a schema: sorting returns the sections, each once. -/
theorem C30_no_schema_permuted (w : SchemaWorld S σ) (fuel : Nat) (sections : List (AstSection σ))
    (order : Option KeysOrder) (rs : List Nat) (h : sortSections w fuel sections none order = some rs) :
    rs.Perm (List.range sections.length) := by
  refine perm_of_atPath (pathAt (sectionAccessors [] sections)) fun q => ?_
  rw [← sectionAccessors_length [] sections, ← zipIdx_positions]
  exact getSorted_rel w eq_listRel _ fuel _ [] _ none order rs [] q h (fun _ ht => pathAt_zipIdx ht)
    (Or.inr (Or.inl ⟨⟨_, _, rfl⟩, rfl⟩))

/-- **C30**, everything, with any schema: sorting returns no item twice and no new item, and items with the same accessors
keep their order. (It may lose items, see `C30_false`.) -/
theorem C30_nothing_new (w : SchemaWorld S σ) (fuel : Nat) (value : DValue σ) (acc : List Accessor)
    (paths : List (List Accessor)) (schema : Option S) (order : Option KeysOrder) (rs : List Nat)
    (h : getSorted w fuel value acc paths.zipIdx schema order = some rs) :
    rs.Nodup ∧ (∀ i ∈ rs, i < paths.length) ∧
    ∀ q : List Accessor, (rs.filter fun i => pathAt paths i == q).Sublist ((List.range paths.length).filter fun i => pathAt paths i == q) := by
  have key : ∀ q, (atPath (pathAt paths) q rs).Sublist (atPath (pathAt paths) q (List.range paths.length)) := by
    intro q
    rw [← zipIdx_positions]
    exact getSorted_rel w sublist_listRel (pathAt paths) fuel value acc paths.zipIdx schema order rs [] q h
      (fun t ht => pathAt_zipIdx ht) (Or.inl fun x => List.nil_sublist x)
  refine ⟨?_, fun i hi => ?_, key⟩
  · rw [List.nodup_iff_count]
    intro m
    have := (key (pathAt paths m)).count_le m
    unfold atPath at this
    rw [List.count_filter (by simp), List.count_filter (by simp)] at this
    exact Nat.le_trans this (List.nodup_iff_count.1 List.nodup_range m)
  · have hm : i ∈ atPath (pathAt paths) (pathAt paths i) rs := List.mem_filter.2 ⟨hi, by simp⟩
    exact List.mem_range.1 (List.mem_filter.1 ((key _).subset hm)).1

/-- **C30**, sections with any schema, where arrays of tables are `Flat` and `Near`: sorting returns the sections, each
once. Missing: documents with nested or interrupted arrays of tables, see `C30_false`; headers that need quotes. -/
theorem C30_sections_permuted_partial (w : SchemaWorld S σ) (fuel : Nat) (sections : List (AstSection σ)) (schema : Option S)
    (order : Option KeysOrder) (rs : List Nat) (hf : Flat sections) (hn : Near sections) (hh : HasHeaders sections)
    (hb : ∀ s ∈ sections, ∀ header, s.header = some header → ∀ k ∈ header, TomlText.toKeyString k = k)
    (he : (AstRoot.tree ⟨[], sections⟩).2 = []) (h : sortSections w fuel sections schema order = some rs) :
    rs.Perm (List.range sections.length) := by
  refine perm_of_atPath (pathAt (sectionAccessors [] sections)) fun q => ?_
  rw [← sectionAccessors_length [] sections, ← zipIdx_positions]
  refine getSorted_rel w eq_listRel _ fuel _ [] _ schema order rs [] q h (fun t ht => pathAt_zipIdx ht)
    (Or.inr (Or.inr (Or.inr ?_)))
  rw [List.zipIdx_map_fst]
  exact sections_aligned hf hn hh hb he

/-- **C30.** There is a result, if no schema is combined of others: sorting terminates, after as many steps as the deepest
item has keys. -/
theorem C30_result (w : SchemaWorld S σ) (hw : ∀ s acc schemas o, w.view s acc ≠ .combined schemas o) (value : DValue σ)
    (acc : List Accessor) (paths : List (List Accessor)) (schema : Option S) (order : Option KeysOrder) (fuel : Nat)
    (hlen : ∀ p ∈ paths, p.length < fuel) (h0 : 0 < fuel) :
    ∃ rs, getSorted w fuel value acc paths.zipIdx schema order = some rs :=
  getSorted_some w hw fuel value acc _ schema order (fun t ht => hlen t.1 (List.fst_mem_of_mem_zipIdx ht)) h0

/-- The document of `C30_false`: `[[a]] [[a.b]] [[c]] [[a]] [[a.b]] [[a.b]]`. -/
def exLost : List (AstSection Nat) :=
  [exArray ["a"] [], exArray ["a", "b"] [], exArray ["c"] [], exArray ["a"] [], exArray ["a", "b"] [], exArray ["a", "b"] []]

/-- **C30 is false in general.** Sorting `[[a]] [[a.b]] [[c]] [[a]] [[a.b]] [[a.b]]` with a schema for `a` and `b` loses the
last section. -/
theorem C30_false : (AstRoot.tree ⟨[], exLost⟩).2 = [] ∧
    sortSections exSchema 10 exLost (some .root) none = some [2, 0, 3, 1, 4] := by
  decide +kernel

/-- A document `Flat` and `Near`: `[b]`, `[[a]]`, `[a.y]`, `[a.x]`, `[[a]]`, `[c.d]`. -/
def exFlat : List (AstSection Nat) :=
  [exTable ["b"] [exKv ["n"] (.scalar 1)], exArray ["a"] [exKv ["n"] (.scalar 2)], exTable ["a", "y"] [], exTable ["a", "x"] [],
    exArray ["a"] [exKv ["n"] (.scalar 3)], exTable ["c", "d"] []]

theorem exFlat_headers : HasHeaders exFlat := by
  intro s hs
  simp only [exFlat, List.mem_cons, List.not_mem_nil, or_false] at hs
  rcases hs with rfl | rfl | rfl | rfl | rfl | rfl <;> exact ⟨_, _, rfl⟩

theorem exFlat_flat : Flat exFlat := by
  have : ∀ s ∈ exFlat, ∀ s' ∈ exFlat, s.isArray = true → (s.header.getD []).isPrefixOf (s'.header.getD []) = true →
      (s'.isArray = true ↔ s.header.getD [] = s'.header.getD []) := by decide +kernel
  intro s hs s' hs' ha h h' hh hh' hp
  have h1 := this s hs s' hs' ha
  rw [hh, hh'] at h1
  exact h1 (List.isPrefixOf_iff_prefix.2 hp)

theorem exFlat_near : Near exFlat := by
  intro l s m s' r h ha hd hd' hh hh' hhead x hx hxa hxd hxh
  have hmem : x ∈ exFlat := by rw [h]; simp [hx]
  have hxn : hxd.head? = some "a".toList := by
    have : ∀ x ∈ exFlat, x.isArray = true → ((x.header.getD []).head? = some "a".toList) := by decide +kernel
    have := this x hmem hxa
    rwa [hxh] at this
  have hsn : hd.head? = some "a".toList := by
    have : ∀ x ∈ exFlat, x.isArray = true → ((x.header.getD []).head? = some "a".toList) := by decide +kernel
    have := this s (by rw [h]; simp) ha
    rwa [hh] at this
  rw [hxn, ← hhead, hsn]

theorem exFlat_bare : ∀ s ∈ exFlat, ∀ header, s.header = some header → ∀ k ∈ header, TomlText.toKeyString k = k := by
  have : ∀ s ∈ exFlat, ∀ k ∈ s.header.getD [], TomlText.toKeyString k = k := by decide +kernel
  intro s hs header hh k hk
  have := this s hs k
  rw [hh] at this
  exact this hk

example : Flat exFlat ∧ Near exFlat ∧ HasHeaders exFlat ∧ (AstRoot.tree ⟨[], exFlat⟩).2 = [] ∧
    sortSections exNoSchema 10 exFlat none (some .ascending) = some [1, 2, 3, 4, 0, 5] ∧
    sortSections exSchema 10 exFlat (some .root) none = some [5, 1, 3, 2, 4, 0] :=
  ⟨exFlat_flat, exFlat_near, exFlat_headers, by decide +kernel, by decide +kernel, by decide +kernel⟩

/-- `b.y`, `a`, `b.x`, `10`, `9` -/
example : getSorted exNoSchema 10 (.table .table []) [] [exKeys ["b", "y"], exKeys ["a"], exKeys ["b", "x"], exKeys ["10"], exKeys ["9"]].zipIdx
      none (some .versionSort) = some [4, 3, 1, 2, 0] := by
  decide +kernel

/-! ### C31 -/

/-- **C31.** With an order and no schema and no overrides, the sorted items are in that order at all depths: an item comes
before the items below it, and of two items that differ, the one with the smaller key comes first. -/
theorem C31_sorted (w : SchemaWorld S σ) (o : KeysOrder) (ho : o ≠ .schema)
    (hw : ∀ acc, w.directiveOverride acc = none ∧ w.schemaOverride none acc = none) (fuel : Nat) (kind : TableKind)
    (entries : List (DKey × DValue σ)) (acc : List Accessor) (paths : List (List Accessor)) (rs : List Nat)
    (hk : ∀ p ∈ paths, ∀ a ∈ p, a.isKey = true)
    (h : getSorted w fuel (.table kind entries) acc paths.zipIdx none (some o) = some rs) :
    rs.Pairwise fun i j => NotAfter (OrderLe [] o) (pathAt paths i) (pathAt paths j) :=
  getSorted_sorted w (pathAt paths) o ho hw fuel kind entries acc _ rs [] h (fun _ ht => pathAt_zipIdx ht)
    (fun t ht a ha => hk t.1 (List.fst_mem_of_mem_zipIdx ht) a ha)

/-- **C31.** One order for all keys of a table: the keys are in that order. -/
theorem C31_table_sorted {α : Type} (targets : List (Accessor × α)) (table : Option (TableView S)) (o : KeysOrder)
    (ps : List Accessor) (ht : table.map (·.properties) = some ps ∨ o ≠ .schema) (hk : ∀ t ∈ targets, t.1.isKey = true) :
    (sortTableTargets targets table (.all o)).Pairwise fun x y => OrderLe ps o x.1 y.1 :=
  sortTargets_pairwise targets o ps _ ht hk

/-- **C31.** Orders for groups: keys whose kind has no order keep their positions. -/
theorem C31_others_stay {α : Type} (targets : List (Accessor × α)) (table : TableView S) (groups : List (GroupKind × KeysOrder))
    (i : Nat) (t : Accessor × α) (ht : targets[i]? = some t) (hk : kindOrder groups (keyKind table t.1) = none) :
    (sortTableTargets targets (some table) (.groups groups))[i]? = some t := by
  unfold sortTableTargets
  simp only []
  have hp := sortSpecified_perm table groups (targets.filter fun t => isSpecified groups (keyKind table t.1))
    (fun x hx => (List.mem_filter.1 hx).2)
  exact (fillSlots_spec (fun t : Accessor × α => isSpecified groups (keyKind table t.1)) targets _ hp.length_eq).2.1 i t ht
    (by rw [isSpecified_iff, hk]; rfl)

/-- **C31.** Orders for groups: the keys that have an order are in the order of their group, and groups are in their
order. -/
theorem C31_groups_sorted {α : Type} (targets : List (Accessor × α)) (table : TableView S) (groups : List (GroupKind × KeysOrder))
    (hk : ∀ t ∈ targets, t.1.isKey = true) :
    ((sortTableTargets targets (some table) (.groups groups)).filter fun t => (kindOrder groups (keyKind table t.1)).isSome).Pairwise
      fun x y => (keyKind table x.1 = keyKind table y.1 ∧
          ∃ o, kindOrder groups (keyKind table x.1) = some o ∧ OrderLe table.properties o x.1 y.1) ∨
        kindRank groups (keyKind table x.1) < kindRank groups (keyKind table y.1) := by
  unfold sortTableTargets
  simp only []
  have hp := sortSpecified_perm table groups (targets.filter fun t => isSpecified groups (keyKind table t.1))
    (fun x hx => (List.mem_filter.1 hx).2)
  have h3 := (fillSlots_spec (fun t : Accessor × α => isSpecified groups (keyKind table t.1)) targets _ hp.length_eq).2.2
    (fun x hx => (List.mem_filter.1 (hp.mem_iff.1 hx)).2)
  rw [show (fun t : Accessor × α => (kindOrder groups (keyKind table t.1)).isSome) =
    (fun t : Accessor × α => isSpecified groups (keyKind table t.1)) from funext fun t => (isSpecified_iff _ _).symm]
  rw [h3]
  exact sortSpecified_pairwise table groups _ (fun x hx => hk x (List.mem_filter.1 hx).1)

/-- **C31.** The order of the table schema arrives in the result: if the schema of a table gives one order for its keys, and
no override and no directive gives another one, the first keys of the sorted items are in that order. -/
theorem C31_schema_order (w : SchemaWorld S σ) (fuel : Nat) (kind : TableKind) (entries : List (DKey × DValue σ))
    (acc : List Accessor) (paths : List (List Accessor)) (s : S) (t : TableView S) (o : KeysOrder) (rs : List Nat)
    (hview : w.view s acc = .table t) (ho : t.keysOrder = some (.all o)) (hen : w.enabled (some s) = true)
    (hd : w.directiveOverride acc = none) (hs : w.schemaOverride (some s) acc = none)
    (hk : ∀ p ∈ paths, ∀ a ∈ p, a.isKey = true)
    (h : getSorted w (fuel + 1) (.table kind entries) acc paths.zipIdx (some s) none = some rs) :
    rs.Pairwise fun i j => pathAt paths i = [] ∨ ∃ a p b q, pathAt paths i = a :: p ∧ pathAt paths j = b :: q ∧
      (a = b ∨ OrderLe t.properties o a b) := by
  have hk' : ∀ x ∈ paths.zipIdx, ∀ a ∈ x.1, a.isKey = true := fun x hx a ha => hk x.1 (List.fst_mem_of_mem_zipIdx hx) a ha
  refine getSorted_first w (pathAt paths) ?_ h (fun t ht => pathAt_zipIdx ht) hk' _ ?_
  · intro schemas o'
    rw [Option.map_some, hview]
    intro h; cases h
  · rw [Option.map_some, hview]
    have : orderedGroups w acc (some s) (some t) none (groupTargets [] paths.zipIdx) =
        sortTargets (groupTargets [] paths.zipIdx) o (some t.properties) := by
      unfold orderedGroups
      rw [hd, hs, hen]
      simp only [Option.map_none, Option.bind_none, Option.getD_none, Option.or_none, Bool.or_self, Bool.or_true, tableKeysOrder, ho,
        Bool.false_eq_true, if_false, if_true]
      rfl
    rw [show (some (SchemaView.table t)).bind SchemaView.asTable = some t from rfl, this]
    refine sortTargets_pairwise _ o t.properties _ (Or.inl rfl) fun g hg => ?_
    obtain ⟨as, x, hm⟩ := (group_keys paths.zipIdx g.1).1 (List.mem_map.2 ⟨g, hg, rfl⟩)
    exact hk' _ hm g.1 List.mem_cons_self

/-- **C31.** An order given for the whole document wins over the one of the table schema: unless sorting is disabled or a
directive gives another order, the first keys of the sorted items are in that order. -/
theorem C31_explicit_order (w : SchemaWorld S σ) (fuel : Nat) (kind : TableKind) (entries : List (DKey × DValue σ))
    (acc : List Accessor) (paths : List (List Accessor)) (s : S) (t : TableView S) (o : KeysOrder) (rs : List Nat)
    (hview : w.view s acc = .table t) (hd : w.directiveOverride acc = none)
    (hs : ∀ override, w.schemaOverride (some s) acc = some override → override.disabled = false)
    (hk : ∀ p ∈ paths, ∀ a ∈ p, a.isKey = true)
    (h : getSorted w (fuel + 1) (.table kind entries) acc paths.zipIdx (some s) (some o) = some rs) :
    rs.Pairwise fun i j => pathAt paths i = [] ∨ ∃ a p b q, pathAt paths i = a :: p ∧ pathAt paths j = b :: q ∧
      (a = b ∨ OrderLe t.properties o a b) := by
  have hk' : ∀ x ∈ paths.zipIdx, ∀ a ∈ x.1, a.isKey = true := fun x hx a ha => hk x.1 (List.fst_mem_of_mem_zipIdx hx) a ha
  refine getSorted_first w (pathAt paths) ?_ h (fun t ht => pathAt_zipIdx ht) hk' _ ?_
  · intro schemas o'
    rw [Option.map_some, hview]
    intro h; cases h
  · rw [Option.map_some, hview]
    have : orderedGroups w acc (some s) (some t) (some o) (groupTargets [] paths.zipIdx) =
        sortTargets (groupTargets [] paths.zipIdx) o (some t.properties) := by
      have hdis : ((w.schemaOverride (some s) acc).map (·.disabled)).getD false = false := by
        cases he : w.schemaOverride (some s) acc with
        | none => rfl
        | some v => exact hs v he
      unfold orderedGroups
      rw [hd]
      simp only [Option.map_none, Option.bind_none, Option.getD_none, Option.none_or, Option.some_or, tableKeysOrder, hdis,
        Bool.false_or, Bool.false_eq_true, if_false]
      rfl
    rw [show (some (SchemaView.table t)).bind SchemaView.asTable = some t from rfl, this]
    refine sortTargets_pairwise _ o t.properties _ (Or.inl rfl) fun g hg => ?_
    obtain ⟨as, x, hm⟩ := (group_keys paths.zipIdx g.1).1 (List.mem_map.2 ⟨g, hg, rfl⟩)
    exact hk' _ hm g.1 List.mem_cons_self

example : getSorted exSchema 10 (.table .table []) [] [exKeys ["a"], exKeys ["c"]].zipIdx (some .root) (some .ascending) = some [0, 1] ∧
    getSorted exSchema 10 (.table .table []) [] [exKeys ["a"], exKeys ["c"]].zipIdx (some .root) none = some [1, 0] := by
  decide +kernel

example : OrderLe [] .ascending (.key "a".toList) (.key "b".toList) ∧ ¬ OrderLe [] .ascending (.key "b".toList) (.key "a".toList) ∧
    OrderLe [] .versionSort (.key "9".toList) (.key "10".toList) ∧
    OrderLe (exKeys ["c", "a"]) .schema (.key "c".toList) (.key "a".toList) := by
  refine ⟨(textLe_iff _ _).2 (by decide +kernel), fun h => (textLe_iff _ _).1 h (by decide +kernel), ?_, ?_⟩
  · show VersionSort.versionSort _ _ ≠ _
    decide +kernel
  · show List.idxOf _ _ ≤ List.idxOf _ _
    decide +kernel

/-- A schema with the properties `z`, `y`, a pattern for keys that begin with `p`, and groups: pattern keys descending, then
keys in the order of the schema. Additional keys come last. -/
example : let table : TableView Empty := ⟨none, exKeys ["z", "y"], [fun k => k.head? == some 'p'], fun _ => none, none⟩
    (sortTableTargets [(.key ['y'], 0), (.key ['q'], 1), (.key ['p', '1'], 2), (.key ['z'], 3), (.key ['p', '2'], 4), (.key ['o'], 5)]
      (some table) (.groups [(.patternKeys, .descending), (.keys, .schema)])).map (·.2) = [4, 2, 3, 0, 1, 5] ∧
    (sortTableTargets [(.key ['y'], 0), (.key ['q'], 1), (.key ['p', '1'], 2), (.key ['z'], 3), (.key ['p', '2'], 4), (.key ['o'], 5)]
      (some table) (.groups [(.keys, .schema), (.patternKeys, .descending)])).map (·.2) = [3, 1, 0, 4, 2, 5] := by
  decide +kernel

/-! ### C54 -/

/-- **C54**, where arrays of tables are `Flat` and `Near`: the accessors of a header are the place of the table of the
section. -/
theorem C54_header_accessors_partial (sections before after : List (AstSection σ)) (s : AstSection σ)
    (hs : sections = before ++ s :: after) (hf : Flat sections) (hn : Near sections) (hh : HasHeaders sections) :
    ∃ accessors, s.headerAccessors before.reverse = some accessors ∧ accessors.map stepOf = sectionPath (openedBy [] before) s := by
  subst hs
  exact header_path hf hn hh

example : (sectionAccessors [] exFlat).map (List.map stepOf) = sectionPaths [] exFlat := by decide +kernel

/-- `[[a]] [[b]] [[a]]` -/
def exFar : List (AstSection Nat) := [exArray ["a"] [], exArray ["b"] [], exArray ["a"] []]

/-- `[[a]] [[a.b]] [[a.b]] [[a]] [[a.b]]` -/
def exNested : List (AstSection Nat) :=
  [exArray ["a"] [], exArray ["a", "b"] [], exArray ["a", "b"] [], exArray ["a"] [], exArray ["a", "b"] []]

/-- **C54 is false in general.** The third section of `[[a]] [[b]] [[a]]` is `a[1]`, its accessors say `a[0]`; the last
section of `[[a]] [[a.b]] [[a.b]] [[a]] [[a.b]]` is `a[1].b[0]`, its accessors say `a[1].b[2]`. -/
theorem C54_false :
    ((AstRoot.tree ⟨[], exFar⟩).2 = [] ∧ (sectionPaths [] exFar).getLast? = some [.key ['a'], .index 1] ∧
      (sectionAccessors [] exFar).getLast? = some [.key ['a'], .index 0]) ∧
    ((AstRoot.tree ⟨[], exNested⟩).2 = [] ∧
      (sectionPaths [] exNested).getLast? = some [.key ['a'], .index 1, .key ['b'], .index 0] ∧
      (sectionAccessors [] exNested).getLast? = some [.key ['a'], .index 1, .key ['b'], .index 2]) := by
  decide +kernel

/-! ### C55 -/

/-- **C55**, key-values: key-values in another order denote the same. -/
theorem C55_key_values (kvs kvs' : List (AstKeyValue σ)) (h : kvs.Perm kvs') (x : Path × Node σ) :
    x ∈ kvsNodes kvs ↔ x ∈ kvsNodes kvs' := by
  have : ∀ l : List (AstKeyValue σ), x ∈ kvsNodes l ↔ ∃ kv ∈ l, x ∈ kvNodes kv := by
    intro l
    induction l with
    | nil => rw [kvsNodes]; simp
    | cons kv l ih => rw [kvsNodes, List.mem_append, ih]; simp
  rw [this, this]
  exact ⟨fun ⟨kv, h1, h2⟩ => ⟨kv, h.mem_iff.1 h1, h2⟩, fun ⟨kv, h1, h2⟩ => ⟨kv, h.mem_iff.2 h1, h2⟩⟩

/-- **C55**, where arrays of tables are `Flat` and `Near`: the document with its sections sorted denotes the same nodes,
with any schema and any order. -/
theorem C55_sections_partial (w : SchemaWorld S σ) (fuel : Nat) (kvs : List (AstKeyValue σ)) (sections : List (AstSection σ))
    (schema : Option S) (order : Option KeysOrder) (rs : List Nat) (hf : Flat sections) (hn : Near sections)
    (hh : HasHeaders sections) (hb : ∀ s ∈ sections, ∀ header, s.header = some header → ∀ k ∈ header, TomlText.toKeyString k = k)
    (he : (AstRoot.tree ⟨[], sections⟩).2 = []) (h : sortSections w fuel sections schema order = some rs) (x : Path × Node σ) :
    x ∈ docNodes ⟨kvs, rs.filterMap (sections[·]?)⟩ ↔ x ∈ docNodes ⟨kvs, sections⟩ := by
  have hperm := C30_sections_permuted_partial w fuel sections schema order rs hf hn hh hb he h
  have hbefore := getSorted_before w (pathAt (sectionAccessors [] sections)) fuel _ [] _ schema order rs [] h
    (fun t ht => pathAt_zipIdx ht) (targets_before hf hn hh)
  have := sections_meaning hf hn hh he hperm (hbefore.imp fun {x y} h => by
    obtain ⟨p, q, h1, h2, h3, -⟩ := h
    rw [h1, h2]; exact h3) x
  unfold docNodes
  rw [List.mem_append, List.mem_append]
  simp only []
  rw [this]

/-- **C55**, without a schema: the same; keys may need quotes. -/
theorem C55_sections_no_schema_partial (w : SchemaWorld S σ) (fuel : Nat) (kvs : List (AstKeyValue σ))
    (sections : List (AstSection σ)) (order : Option KeysOrder) (rs : List Nat) (hf : Flat sections) (hn : Near sections)
    (hh : HasHeaders sections) (he : (AstRoot.tree ⟨[], sections⟩).2 = [])
    (h : sortSections w fuel sections none order = some rs) (x : Path × Node σ) :
    x ∈ docNodes ⟨kvs, rs.filterMap (sections[·]?)⟩ ↔ x ∈ docNodes ⟨kvs, sections⟩ := by
  have hperm := C30_no_schema_permuted w fuel sections order rs h
  have hbefore := getSorted_before w (pathAt (sectionAccessors [] sections)) fuel _ [] _ none order rs [] h
    (fun t ht => pathAt_zipIdx ht) (targets_before hf hn hh)
  have := sections_meaning hf hn hh he hperm (hbefore.imp fun {x y} h => by
    obtain ⟨p, q, h1, h2, h3, -⟩ := h
    rw [h1, h2]; exact h3) x
  unfold docNodes
  rw [List.mem_append, List.mem_append]
  simp only []
  rw [this]

/-- Documents without arrays of tables are `Flat` and `Near`. -/
theorem C55_without_arrays (sections : List (AstSection σ)) (h : ∀ s ∈ sections, s.isArray = false) :
    Flat sections ∧ Near sections := by
  refine ⟨fun s hs s' _ ha => ?_, fun l s m s' r hs ha => ?_⟩
  · rw [h s hs] at ha; cases ha
  · rw [h s (by rw [hs]; simp)] at ha; cases ha

/-- `[[a]] n = 1`, `[[a]] n = 2`, `[[b]]`, `[[a]] n = 3` -/
def exSwapped : List (AstSection Nat) := [exArray ["a"] [exKv ["n"] (.scalar 1)], exArray ["a"] [exKv ["n"] (.scalar 2)],
  exArray ["b"] [], exArray ["a"] [exKv ["n"] (.scalar 3)]]

/-- **C55 is false in general.** Sorting the sections of `[[a]] n = 1`, `[[a]] n = 2`, `[[b]]`, `[[a]] n = 3` swaps the
elements 2 and 3 of `a`. -/
theorem C55_false : (AstRoot.tree ⟨[], exSwapped⟩).2 = [] ∧ exSorted exSwapped = some [0, 3, 1, 2] ∧
    (exPath ["a"] ++ [.index 1] ++ exPath ["n"], Node.scalar 2) ∈ docNodes ⟨[], exSwapped⟩ ∧
    (exPath ["a"] ++ [.index 1] ++ exPath ["n"], Node.scalar 2) ∉ docNodes ⟨[], [0, 3, 1, 2].filterMap (exSwapped[·]?)⟩ := by
  decide +kernel

end Tombi
