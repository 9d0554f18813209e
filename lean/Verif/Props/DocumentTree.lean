import Verif.Proofs.DocConflict2
import Verif.Proofs.DocOrder
/-! Properties C26, C27, C28 and C29: the document tree. -/
namespace Tombi
open Spec

variable {σ : Type}

/-! ### Example documents -/

/-- `k1.k2.… = v` -/
def exKv (keys : List String) (v : AstValue Nat) : AstKeyValue Nat := .mk (some (keys.map String.toList)) (some v)
/-- `[k1.k2.…]` -/
def exTable (keys : List String) (kvs : List (AstKeyValue Nat)) : AstSection Nat := ⟨false, some (keys.map String.toList), kvs⟩
/-- `[[k1.k2.…]]` -/
def exArray (keys : List String) (kvs : List (AstKeyValue Nat)) : AstSection Nat := ⟨true, some (keys.map String.toList), kvs⟩
/-- A path of keys. -/
def exPath (keys : List String) : Path := keyPath (keys.map String.toList)

/--
```toml
x.y = [1]
x.z = { u.v = 2 }
[[a]]
[[a.b]]
n = 3
[a.b.c]
[[a.b]]
m.k = 4
[a.d]
```
-/
def exDocument : AstRoot Nat :=
  ⟨[exKv ["x", "y"] (.array [.value (.scalar 1)]), exKv ["x", "z"] (.inlineTable [exKv ["u", "v"] (.scalar 2)])],
   [exArray ["a"] [], exArray ["a", "b"] [exKv ["n"] (.scalar 3)], exTable ["a", "b", "c"] [],
    exArray ["a", "b"] [exKv ["m", "k"] (.scalar 4)], exTable ["a", "d"] []]⟩

/-- A decision procedure for `RegularFrom`. -/
def regularFromB (prev : List (AstSection σ)) (opened : List Path) : List (AstSection σ) → Bool
  | [] => true
  | s :: rest =>
    (match s.header with
      | none => true
      | some header => prev.all fun s' => match s'.isArray, s'.header with
        | true, some name => !(name.isPrefixOf header && name != header) || opened.contains (named opened name)
        | _, _ => true) && regularFromB (s :: prev) (openedAfter opened s) rest

theorem regularFromB_sound (sections : List (AstSection σ)) : ∀ (prev : List (AstSection σ)) (opened : List Path),
    regularFromB prev opened sections = true → RegularFrom prev opened sections := by
  induction sections with
  | nil => intro prev opened _; exact trivial
  | cons s rest ih =>
    intro prev opened h
    rw [regularFromB, Bool.and_eq_true] at h
    refine ⟨?_, ih _ _ h.2⟩
    rintro header name hh hp hne ⟨s', hs', ha, hn⟩
    have h1 := h.1
    rw [hh] at h1
    have h2 := List.all_eq_true.1 h1 s' hs'
    rw [ha, hn] at h2
    simp only [Bool.or_eq_true, Bool.not_eq_true', Bool.and_eq_false_iff] at h2
    rcases h2 with (h2 | h2) | h2
    · have := List.isPrefixOf_iff_prefix.2 hp; rw [h2] at this; cases this
    · simp at h2; exact absurd h2 hne
    · exact List.contains_iff_mem.1 h2

theorem exDocument_accepted : exDocument.tree.2 = [] := by decide +kernel
theorem exDocument_regular : Regular exDocument := regularFromB_sound _ _ _ (by decide +kernel)
theorem exDocument_keys : HasKeys exDocument := by
  refine ⟨fun s hs => ?_, fun kv hkv v => ?_, fun s hs kv hkv v => ?_⟩
  · simp only [exDocument, List.mem_cons, List.not_mem_nil, or_false] at hs
    rcases hs with rfl | rfl | rfl | rfl | rfl <;> decide
  · simp only [exDocument, List.mem_cons, List.not_mem_nil, or_false] at hkv
    rcases hkv with rfl | rfl <;> simp [exKv]
  · simp only [exDocument, List.mem_cons, List.not_mem_nil, or_false] at hs
    rcases hs with rfl | rfl | rfl | rfl | rfl <;>
      simp only [exArray, exTable, List.mem_cons, List.not_mem_nil, or_false] at hkv
    · subst hkv; simp [exKv]
    · subst hkv; simp [exKv]

/-! ### C26 -/

/-- **C26.** For every document, with or without errors, every table in the tree has each key once, and the conversion does
not panic. -/
theorem C26_distinct_keys (root : AstRoot σ) :
    (∀ p k entries, lookup root.tree.1.value p = some (.table k entries) → (entries.map (·.1)).Nodup) ∧
    DError.panic ∉ root.tree.2 :=
  ⟨fun p _ _ h => (root_tree_ok root).1 p _ h, (root_tree_ok root).2⟩

/-- **C26.** Later sections do not move or drop the keys there are: a table keeps its keys, in their order, and new keys
come behind them. -/
theorem C26_keys_keep_their_place (kvs : List (AstKeyValue σ)) (A B : List (AstSection σ)) (p : Path) (k : TableKind)
    (e : List (DKey × DValue σ)) (h : lookup (AstRoot.tree ⟨kvs, A⟩).1.value p = some (.table k e)) :
    ∃ k' e', lookup (AstRoot.tree ⟨kvs, A ++ B⟩).1.value p = some (.table k' e') ∧ e.map (·.1) <+: e'.map (·.1) := by
  unfold AstRoot.tree at h ⊢
  simp only [mergeSections_append] at h ⊢
  exact mergeSections_extends B _ _ p k e h

/-- **C26.** Later key-values do not move or drop the keys there are. -/
theorem C26_keys_keep_their_place_kvs (a b : List (AstKeyValue σ)) (p : Path) (k : TableKind)
    (e : List (DKey × DValue σ)) (h : lookup (AstRoot.tree ⟨a, []⟩).1.value p = some (.table k e)) :
    ∃ k' e', lookup (AstRoot.tree ⟨a ++ b, []⟩).1.value p = some (.table k' e') ∧ e.map (·.1) <+: e'.map (·.1) := by
  unfold AstRoot.tree at h ⊢
  simp only [mergeSections, mergeKeyValues_append] at h ⊢
  exact mergeKeyValues_extends b _ p k e h

/-- **C26.** Merging two tables without conflict appends the new keys in their order. -/
theorem C26_merge_order (t o : DTable σ) (ho : (o.entries.map (·.1)).Nodup)
    (h : tableConflict t.kind t.entries o.kind o.entries = false) :
    (t.merge o).1.entries.map (·.1) =
      t.entries.map (·.1) ++ (o.entries.map (·.1)).filter (fun k => !(t.entries.map (·.1)).contains k) := by
  unfold DTable.merge
  rw [h]
  exact mergeEntries_keys o.entries t.entries ho

example : ∃ e, lookup exDocument.tree.1.value (exPath ["a"] ++ [.index 0]) = some (.table .table e) ∧
    e.map (·.1) = ["b".toList, "d".toList] := by
  refine ⟨_, rfl, by decide +kernel⟩

/-! ### C27 -/

/-- **C27**, except for documents that are not `Regular` (see `C27_false`): the tree of an accepted document has exactly the
nodes the document denotes. -/
theorem C27_tree_partial (root : AstRoot σ) (h : root.tree.2 = []) (hk : HasKeys root) (hr : Regular root) (p : Path)
    (n : Node σ) : nodeAt root.tree.1.value p = some n ↔ (p, n) ∈ docNodes root := by
  unfold AstRoot.tree at h ⊢
  simp only [List.append_eq_nil_iff] at h
  obtain ⟨h1, h2⟩ := h
  obtain ⟨r1, r2, r3⟩ := root_start h1
  rw [sections_nodes root.sections [] _ [] r1 r2 hk.1 hr h2, r3, docNodes, List.mem_append]

/-- Documents without arrays of tables are `Regular`. -/
theorem C27_regular_without_arrays (root : AstRoot σ) (h : ∀ s ∈ root.sections, s.isArray = false) : Regular root := by
  have : ∀ (sections : List (AstSection σ)) (prev : List (AstSection σ)) (opened : List Path),
      (∀ s ∈ sections, s.isArray = false) → (∀ s ∈ prev, s.isArray = false) → RegularFrom prev opened sections := by
    intro sections
    induction sections with
    | nil => intro _ _ _ _; exact trivial
    | cons s rest ih =>
      intro prev opened h1 h2
      refine ⟨?_, ih _ _ (fun x hx => h1 x (List.mem_cons_of_mem _ hx)) (fun x hx => ?_)⟩
      · rintro header name - - - ⟨s', hs', ha, -⟩
        rw [h2 s' hs'] at ha; cases ha
      · rcases List.mem_cons.1 hx with rfl | hx
        · exact h1 _ List.mem_cons_self
        · exact h2 x hx
  exact this root.sections [] [] h (fun _ h => (by cases h))

/-- **C27.** The document denotes one node for a place: nothing an accepted document says is overwritten. -/
theorem C27_one_meaning_partial (root : AstRoot σ) (h : root.tree.2 = []) (hk : HasKeys root) (hr : Regular root) (p : Path)
    (n n' : Node σ) (h1 : (p, n) ∈ docNodes root) (h2 : (p, n') ∈ docNodes root) : n = n' := by
  rw [← C27_tree_partial root h hk hr] at h1 h2
  rw [h1] at h2
  injection h2

example : (exPath ["a"] ++ [.index 0] ++ exPath ["b"] ++ [.index 1] ++ exPath ["m", "k"], Node.scalar 4) ∈ docNodes exDocument ∧
    exDocument.tree.2 = [] ∧ HasKeys exDocument ∧ Regular exDocument :=
  ⟨by decide +kernel, exDocument_accepted, exDocument_keys, exDocument_regular⟩

/-- **C27 is false in general.** In `[[a]] [[a.b]] [[a]] [a.b.c]` the last header makes a table `a[1].b`; the tree has an
array there. -/
theorem C27_false : let root : AstRoot Nat := ⟨[], [exArray ["a"] [], exArray ["a", "b"] [], exArray ["a"] [], exTable ["a", "b", "c"] []]⟩
    root.tree.2 = [] ∧ (exPath ["a"] ++ [.index 1] ++ exPath ["b"], Node.table) ∈ docNodes root ∧
      nodeAt root.tree.1.value (exPath ["a"] ++ [.index 1] ++ exPath ["b"]) = some .array := by
  decide +kernel

/-! ### C28 -/

/-- **C28**, for `Regular` documents: an accepted document does not assign a key twice, and assigns nothing below a key
that has a value. An assignment above an earlier one is an inline table. -/
theorem C28_assignments_partial (root : AstRoot σ) (h : root.tree.2 = []) (hk : HasKeys root) (hr : Regular root) :
    (assigns root).Pairwise fun a b => ¬ a.1 <+: b.1 ∧ (b.1 <+: a.1 → isInline b.2) := by
  obtain ⟨h1, h2, -⟩ := bodies_compatible h hk hr
  unfold assigns
  rw [List.pairwise_flatMap]
  refine ⟨fun B hB => ?_, h1.imp fun {B1 B2} hc a ha b hb => hc.2.1 a ha b hb⟩
  unfold assignsOf
  rw [List.pairwise_map]
  refine (h2 B hB).imp fun {a b} hab => ⟨fun hp => hab.1 ?_, fun hp => absurd ?_ hab.2⟩
  · exact (List.prefix_append_right_inj _).1 hp
  · exact (List.prefix_append_right_inj _).1 hp

/-- **C28**, for `Regular` documents: an accepted document does not define a table twice by headers. -/
theorem C28_headers_partial (root : AstRoot σ) (h : root.tree.2 = []) (hk : HasKeys root) (hr : Regular root) :
    (sectionPaths [] root.sections).Nodup := by
  obtain ⟨h1, -, -⟩ := bodies_compatible h hk hr
  have h2 : (((sectionPaths [] root.sections).zip (root.sections.map (·.kvs))).map (·.1)).Nodup := by
    rw [List.nodup_iff_pairwise_ne, List.pairwise_map]
    exact (List.pairwise_cons.1 h1).2.imp fun hc => hc.2.2.2
  have hl : ∀ (ss : List (AstSection σ)) (o : List Path), (sectionPaths o ss).length = (ss.map (·.kvs)).length := by
    intro ss
    induction ss with
    | nil => intro o; rfl
    | cons s ss ih => intro o; simp [sectionPaths, ih]
  rwa [List.map_fst_zip (Nat.le_of_eq (hl _ _))] at h2

/-- **C28**, for `Regular` documents: in an accepted document no header opens a place at or below an earlier value. -/
theorem C28_values_not_reopened_partial (root : AstRoot σ) (h : root.tree.2 = []) (hk : HasKeys root) (hr : Regular root) :
    (bodies root).Pairwise fun B1 B2 => ∀ a ∈ assignsOf B1, ¬ a.1 <+: B2.1 :=
  (bodies_compatible h hk hr).1.imp fun hc => hc.1

/-- **C28**, for `Regular` documents: in an accepted document no key-value assigns to a table of an earlier header; above
it, only an inline table is assigned. -/
theorem C28_tables_not_assigned_partial (root : AstRoot σ) (h : root.tree.2 = []) (hk : HasKeys root) (hr : Regular root) :
    (bodies root).Pairwise fun B1 B2 => ∀ b ∈ assignsOf B2, b.1 ≠ B1.1 ∧ (b.1 <+: B1.1 → isInline b.2) :=
  (bodies_compatible h hk hr).1.imp fun hc => hc.2.2.1

/-- **C28**, for `Regular` documents: in an accepted document no header defines a table that the dotted keys of an earlier
table have made, provided nothing was there before. -/
theorem C28_dotted_tables_partial (root : AstRoot σ) (h : root.tree.2 = []) (hk : HasKeys root) (hr : Regular root)
    (before after : List (Path × List (AstKeyValue σ))) (B : Path × List (AstKeyValue σ))
    (hs : bodies root = before ++ B :: after) (d : Path) (hd : d ∈ dottedOf B)
    (hnew : ∀ B0 ∈ before, ∀ n, (d, n) ∉ wayNodes [] B0.1 ++ below B0.1 (kvsNodes B0.2)) :
    ∀ B2 ∈ after, B2.1 ≠ d :=
  (bodies_compatible h hk hr).2.2 before B after hs d hd hnew

example : (assigns exDocument).map (·.1) = [exPath ["x", "y"], exPath ["x", "z"],
    exPath ["a"] ++ [.index 0] ++ exPath ["b"] ++ [.index 0] ++ exPath ["n"],
    exPath ["a"] ++ [.index 0] ++ exPath ["b"] ++ [.index 1] ++ exPath ["m", "k"]] ∧
    sectionPaths [] exDocument.sections = [exPath ["a"] ++ [.index 0], exPath ["a"] ++ [.index 0] ++ exPath ["b"] ++ [.index 0],
      exPath ["a"] ++ [.index 0] ++ exPath ["b"] ++ [.index 0] ++ exPath ["c"],
      exPath ["a"] ++ [.index 0] ++ exPath ["b"] ++ [.index 1], exPath ["a"] ++ [.index 0] ++ exPath ["d"]] := by
  decide +kernel

example : exPath ["x"] ∈ dottedOf ([], exDocument.kvs) ∧ (bodies exDocument).head? = some ([], exDocument.kvs) :=
  ⟨by decide +kernel, rfl⟩

/-- **C28 is false in general.** These documents define something twice and are accepted:
`[a.b.c]`, `[a]`, `b = { x = 1 }`; `[a.b]`, `[a]`, `b.c = 1`; `[a.b.c]`, `[a]`, `b.x = 1`, `[a.b]`;
`[[a]]`, `[[a.b]]`, `[[a]]`, `[a.b.c]`, `[[a.b]]`. -/
theorem C28_false :
    (AstRoot.tree ⟨[], [exTable ["a", "b", "c"] [], exTable ["a"] [exKv ["b"] (.inlineTable [exKv ["x"] (.scalar 1)])]]⟩).2 = [] ∧
    (AstRoot.tree ⟨[], [exTable ["a", "b"] [], exTable ["a"] [exKv ["b", "c"] (.scalar 1)]]⟩).2 = [] ∧
    (AstRoot.tree ⟨[], [exTable ["a", "b", "c"] [], exTable ["a"] [exKv ["b", "x"] (.scalar 1)], exTable ["a", "b"] []]⟩).2 = [] ∧
    (AstRoot.tree (σ := Nat) ⟨[], [exArray ["a"] [], exArray ["a", "b"] [], exArray ["a"] [], exTable ["a", "b", "c"] [],
      exArray ["a", "b"] []]⟩).2 = [] := by
  decide +kernel

/-! ### C29 -/

theorem sectionsNodes_mem (sections : List (AstSection σ)) : ∀ (opened : List Path) (A B : List (AstSection σ)) (s : AstSection σ),
    sections = A ++ s :: B → ∀ x, x ∈ wayNodes [] (sectionPath (openedBy opened A) s) ++
      below (sectionPath (openedBy opened A) s) (kvsNodes s.kvs) → x ∈ sectionsNodes opened sections := by
  induction sections with
  | nil => intro opened A B s h; simp at h
  | cons s' rest ih =>
    intro opened A B s h x hx
    rw [sectionsNodes, List.mem_append]
    cases A with
    | nil =>
      rw [List.nil_append] at h
      injection h with h1 h2
      subst h1
      exact Or.inl hx
    | cons a A =>
      rw [List.cons_append] at h
      injection h with h1 h2
      subst h1
      exact Or.inr (ih _ A B s h2 x hx)

/-- **C29**, for `Regular` documents: in an accepted document every `[[name]]` makes one element of the array `name`, the
next one: the first makes element 0, and so on; its key-values are there; and the array has no other elements. -/
theorem C29_array_of_tables_partial (root : AstRoot σ) (h : root.tree.2 = []) (hk : HasKeys root) (hr : Regular root)
    (before after : List (AstSection σ)) (s : AstSection σ) (hs : root.sections = before ++ s :: after)
    (ha : s.isArray = true) :
    let name := named (openedBy [] before) (s.header.getD [])
    let element := name ++ [.index ((openedBy [] before).count name)]
    (∃ kind vs, lookup root.tree.1.value name = some (.array kind vs) ∧ vs.length = (openedBy [] root.sections).count name) ∧
    nodeAt root.tree.1.value element = some .table ∧
    ∀ q n, (q, n) ∈ kvsNodes s.kvs → nodeAt root.tree.1.value (element ++ q) = some n := by
  intro name element
  have hel : element = sectionPath (openedBy [] before) s := by
    unfold sectionPath; rw [if_pos ha]
  have hmem : ∀ x, x ∈ wayNodes [] element ++ below element (kvsNodes s.kvs) → nodeAt root.tree.1.value x.1 = some x.2 := by
    intro x hx
    rw [C27_tree_partial root h hk hr]
    unfold docNodes
    rw [hel] at hx
    exact List.mem_append_right _ (sectionsNodes_mem root.sections [] before after s hs x hx)
  refine ⟨?_, ?_, ?_⟩
  · have hh := h
    unfold AstRoot.tree at hh
    simp only [List.append_eq_nil_iff] at hh
    obtain ⟨r1, r2, r3⟩ := root_start hh.1
    have hc := sections_count root.sections [] _ [] r1 r2 hk.1 hr hh.2 name
    have hpos : 0 < (openedBy [] root.sections).count name := by
      have : ∀ (A : List (AstSection σ)) (o : List Path), openedBy o (A ++ s :: after) = openedBy (openedAfter (openedBy o A) s) after := by
        intro A
        induction A with
        | nil => intro o; rfl
        | cons a A ih => intro o; exact ih _
      have hmono : ∀ (A : List (AstSection σ)) (o : List Path), name ∈ o → name ∈ openedBy o A := by
        intro A
        induction A with
        | nil => intro o h; exact h
        | cons a A ih =>
          intro o h
          refine ih _ ?_
          unfold openedAfter
          split
          · exact List.mem_append_left _ h
          · exact h
      rw [hs, this, List.count_pos_iff]
      refine hmono after _ ?_
      unfold openedAfter
      rw [if_pos ha]
      exact List.mem_append_right _ List.mem_cons_self
    obtain ⟨a, -, h2⟩ := hc.1 hpos
    obtain ⟨vs, h3, h4⟩ := kindAt_array h2
    exact ⟨a, vs, h3, h4⟩
  · refine hmem (element, .table) (List.mem_append_left _ ((mem_wayNodes _ _ _ _).2 (Or.inl ⟨by simp, rfl⟩)))
  · intro q n hq
    exact hmem (element ++ q, n) (List.mem_append_right _ (mem_below.2 ⟨q, rfl, hq⟩))

/-- **C29**, for `Regular` documents: in an accepted document the table of a header that passes an array of tables is in
its last element so far. (`sectionPath` of the specification says so.) -/
theorem C29_sub_tables_partial (root : AstRoot σ) (h : root.tree.2 = []) (hk : HasKeys root) (hr : Regular root)
    (before after : List (AstSection σ)) (s : AstSection σ) (hs : root.sections = before ++ s :: after) :
    nodeAt root.tree.1.value (sectionPath (openedBy [] before) s) = some .table ∧
    ∀ q n, (q, n) ∈ kvsNodes s.kvs → nodeAt root.tree.1.value (sectionPath (openedBy [] before) s ++ q) = some n := by
  have hmem : ∀ x, x ∈ wayNodes [] (sectionPath (openedBy [] before) s) ++
      below (sectionPath (openedBy [] before) s) (kvsNodes s.kvs) → nodeAt root.tree.1.value x.1 = some x.2 := by
    intro x hx
    rw [C27_tree_partial root h hk hr]
    unfold docNodes
    exact List.mem_append_right _ (sectionsNodes_mem root.sections [] before after s hs x hx)
  refine ⟨hmem (sectionPath (openedBy [] before) s, .table) (List.mem_append_left _ ((mem_wayNodes _ _ _ _).2 (Or.inl ⟨by simp, rfl⟩))), fun q n hq => ?_⟩
  exact hmem (sectionPath (openedBy [] before) s ++ q, n) (List.mem_append_right _ (mem_below.2 ⟨q, rfl, hq⟩))

example : openedBy [] exDocument.sections = [exPath ["a"], exPath ["a"] ++ [.index 0] ++ exPath ["b"],
    exPath ["a"] ++ [.index 0] ++ exPath ["b"]] ∧
    named (openedBy [] (exDocument.sections.take 3)) ["a".toList, "b".toList] = exPath ["a"] ++ [.index 0] ++ exPath ["b"] := by
  decide +kernel

end Tombi
