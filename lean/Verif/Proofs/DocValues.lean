import Verif.Proofs.DocEmbed

/-! The trees of values, key-values and lists of key-values. -/
namespace Tombi
open Spec (Step Path child lookup nodeAt nodeOf below assignNodes valueNodes itemsNodes itemNodes kvNodes kvsNodes)

variable {σ : Type}

theorem DTable.merge_value (t o : DTable σ) :
    (t.merge o).1.value = (mergeValue [] t.value o.value).1 ∧ (t.merge o).2 = (mergeValue [] t.value o.value).2 := by
  unfold DTable.merge DTable.value
  rw [mergeValue]
  split <;> exact ⟨rfl, rfl⟩

theorem DTable.merge_kind (t o : DTable σ) : (t.merge o).1.kind = kindAfter t.kind o.kind := by
  unfold DTable.merge
  split <;> rfl

/-- `keyValueTable`, from the first key on. -/
def kvNest (v : DValue σ) : List DKey → DValue σ
  | [] => .table .keyValue []
  | [k] => .table .keyValue [(k, v)]
  | k :: ks => .table .parentKey [(k, kvNest v ks)]

theorem insertEntry_nil (k : DKey) (v : DValue σ) : insertEntry [] k v = .ok [(k, v)] := rfl

theorem kvNest_append (v : DValue σ) (ks : List DKey) (k : DKey) :
    kvNest v (ks ++ [k]) = ks.foldr (fun key w => .table .parentKey [(key, w)]) (.table .keyValue [(k, v)]) := by
  induction ks with
  | nil => rfl
  | cons a ks ih =>
    rw [List.foldr_cons, ← ih]
    cases ks <;> rfl

theorem keyValueTable_spec (keys : List DKey) (v : DValue σ) :
    (keyValueTable keys v).2 = [] ∧ (keyValueTable keys v).1.value = kvNest v keys := by
  unfold keyValueTable
  cases hr : keys.reverse with
  | nil =>
    have : keys = [] := by simpa using hr
    subst this
    exact ⟨rfl, rfl⟩
  | cons last parents =>
    have hk : keys = parents.reverse ++ [last] := by
      have := congrArg List.reverse hr
      simpa using this
    rw [hk, kvNest_append]
    simp only [insertEntry_nil]
    rw [List.foldr_reverse]
    have : ∀ (ps : List DKey) (t : DTable σ),
        (ps.foldl (fun (acc : DTable σ × List DError) key => (⟨.parentKey, [(key, acc.1.value)]⟩, acc.2)) (t, [])).2 = [] ∧
        (ps.foldl (fun (acc : DTable σ × List DError) key => (⟨.parentKey, [(key, acc.1.value)]⟩, acc.2)) (t, [])).1.value =
          ps.foldl (fun w key => .table .parentKey [(key, w)]) t.value := by
      intro ps
      induction ps with
      | nil => intro t; exact ⟨rfl, rfl⟩
      | cons p ps ih => intro t; exact ih ⟨.parentKey, [(p, t.value)]⟩
    exact this parents ⟨.keyValue, [(last, v)]⟩

theorem kvNest_ok (v : DValue σ) (h : Everywhere LocalOk v) (ks : List DKey) : Everywhere LocalOk (kvNest v ks) := by
  induction ks with
  | nil => exact everywhere_ok_table.2 ⟨List.nodup_nil, fun _ h => (by cases h)⟩
  | cons k ks ih =>
    cases ks with
    | nil =>
      refine everywhere_ok_table.2 ⟨by simp, fun kv h' => ?_⟩
      rw [List.mem_singleton] at h'; rw [h']; exact h
    | cons k' ks =>
      refine everywhere_ok_table.2 ⟨by simp, fun kv h' => ?_⟩
      rw [List.mem_singleton] at h'; rw [h']; exact ih

mutual
/-- Every tree of a value has distinct keys, and no conversion panics, with or without errors. -/
theorem value_tree_ok (v : AstValue σ) : Everywhere LocalOk v.tree.1 ∧ DError.panic ∉ v.tree.2 := by
  match v with
  | .scalar s =>
    rw [AstValue.tree]
    exact ⟨(everywhere_iff_step _ _).2 ⟨trivial, fun s w h => (by cases h)⟩, by simp⟩
  | .bad =>
    rw [AstValue.tree]
    exact ⟨(everywhere_iff_step _ _).2 ⟨trivial, fun s w h => (by cases h)⟩, by simp⟩
  | .array items =>
    rw [AstValue.tree]
    have := array_trees_ok items
    exact ⟨everywhere_array (fun h => absurd rfl h) this.1, this.2⟩
  | .inlineTable kvs =>
    rw [AstValue.tree]
    have := merge_kvs_ok ⟨.table, []⟩ (everywhere_ok_table.2 ⟨List.nodup_nil, fun _ h => (by cases h)⟩) kvs
    exact ⟨everywhere_ok_table.2 (everywhere_ok_table.1 this.1), this.2⟩
theorem array_trees_ok (items : List (AstItem σ)) :
    (∀ w ∈ (arrayTrees items).1, Everywhere LocalOk w) ∧ DError.panic ∉ (arrayTrees items).2 := by
  match items with
  | [] => rw [arrayTrees]; exact ⟨fun _ h => (by cases h), by simp⟩
  | item :: rest =>
    rw [arrayTrees]
    have h1 := item_tree_ok item
    have h2 := array_trees_ok rest
    refine ⟨fun w hw => ?_, fun h => ?_⟩
    · rcases List.mem_cons.1 hw with h | h
      · rw [h]; exact h1.1
      · exact h2.1 w h
    · exact (List.mem_append.1 h).elim h1.2 h2.2
theorem item_tree_ok (item : AstItem σ) : Everywhere LocalOk item.tree.1 ∧ DError.panic ∉ item.tree.2 := by
  match item with
  | .value v => rw [AstItem.tree]; exact value_tree_ok v
  | .keyValue kv => rw [AstItem.tree]; exact kv_tree_ok kv
theorem kv_tree_ok (kv : AstKeyValue σ) : Everywhere LocalOk kv.tree.1.value ∧ DError.panic ∉ kv.tree.2 := by
  match kv with
  | .mk none _ =>
    rw [AstKeyValue.tree]
    exact ⟨everywhere_ok_table.2 ⟨List.nodup_nil, fun _ h => (by cases h)⟩, by simp⟩
  | .mk (some keys) none =>
    rw [AstKeyValue.tree]
    have := keyValueTable_spec keys (.incomplete : DValue σ)
    simp only [this.1, this.2]
    exact ⟨kvNest_ok _ ((everywhere_iff_step LocalOk DValue.incomplete).2 ⟨trivial, fun s w h => (by cases h)⟩) _, by simp⟩
  | .mk (some keys) (some v) =>
    rw [AstKeyValue.tree]
    have h := value_tree_ok v
    have := keyValueTable_spec keys v.tree.1
    simp only [this.1, this.2]
    exact ⟨kvNest_ok _ h.1 _, by simpa using h.2⟩
theorem merge_kvs_ok (t : DTable σ) (ht : Everywhere LocalOk t.value) (kvs : List (AstKeyValue σ)) :
    Everywhere LocalOk (mergeKeyValues t kvs).1.value ∧ DError.panic ∉ (mergeKeyValues t kvs).2 := by
  match kvs with
  | [] => rw [mergeKeyValues]; exact ⟨ht, by simp⟩
  | kv :: rest =>
    rw [mergeKeyValues]
    have h1 := kv_tree_ok kv
    have hm := mergeValue_ok [] t.value ht kv.tree.1.value h1.1
    obtain ⟨e1, e2⟩ := DTable.merge_value t kv.tree.1
    rw [← e1, ← e2] at hm
    have h2 := merge_kvs_ok (t.merge kv.tree.1).1 hm.1 rest
    refine ⟨h2.1, fun h => ?_⟩
    rcases List.mem_append.1 h with h | h
    · exact (List.mem_append.1 h).elim h1.2 hm.2
    · exact h2.2 h
end

/-! ### kinds -/

/-- The kinds that occur below a value, or below a table made of key-values. -/
def BodyKind : DKind σ → Prop
  | .scalar _ => True
  | .array a _ => a = .array
  | .table k => k = .inlineTable ∨ k = .parentKey ∨ k = .keyValue
  | .incomplete => False

/-- The kinds of values. -/
def ValueKind : DKind σ → Prop
  | .scalar _ => True
  | .array a _ => a = .array
  | .table k => k = .inlineTable
  | .incomplete => False

theorem ValueKind.body {k : DKind σ} (h : ValueKind k) : BodyKind k := by
  cases k with
  | table k => exact Or.inl h
  | _ => exact h

/-- All kinds below the root of a tree. -/
def BodyTree (v : DValue σ) : Prop := ∀ p k, p ≠ [] → kindAt v p = some k → BodyKind k

theorem mergedKind_body {k1 k2 k : DKind σ} (h1 : BodyKind k1) (h2 : BodyKind k2) (h : mergedKind k1 k2 = some k) :
    BodyKind k := by
  cases k1 <;> cases k2 <;> rw [mergedKind] at h <;> try (cases h; done)
  · rw [if_neg (fun hh => hh.1 h1)] at h; cases h
  · rename_i t1 t2
    split at h
    · cases h
    · rename_i hc
      cases h
      rcases h1 with rfl | rfl | rfl <;> rcases h2 with rfl | rfl | rfl <;>
        first | exact absurd rfl hc | exact Or.inl rfl | exact Or.inr (Or.inl rfl) | exact Or.inr (Or.inr rfl)

theorem plain_of_body {v : DValue σ} (h0 : ∀ a vs, v = .array a vs → a = .array) (h : BodyTree v) : Everywhere PlainOk v := by
  intro p w hw
  cases w with
  | array a vs =>
    by_cases hp : p = []
    · subst hp; cases hw; exact h0 a vs rfl
    · exact h p (.array a vs.length) hp (by unfold kindAt; rw [hw]; rfl)
  | _ => exact trivial

/-- Merging a tree with plain arrays: what is at each place. -/
theorem merge_plain {key : DKey} {v1 v2 : DValue σ} (h : (mergeValue key v1 v2).2 = []) (h1 : Everywhere LocalOk v1)
    (h2 : Everywhere LocalOk v2) (h3 : Everywhere PlainOk v2) (p : Path) :
    (kindAt v2 p = none → kindAt (mergeValue key v1 v2).1 p = kindAt v1 p) ∧
    (∀ k2, kindAt v2 p = some k2 →
      (kindAt v1 p = none ∧ kindAt (mergeValue key v1 v2).1 p = some k2) ∨
      (∃ k1 k, kindAt v1 p = some k1 ∧ mergedKind k1 k2 = some k ∧ kindAt (mergeValue key v1 v2).1 p = some k)) := by
  constructor
  · intro hn
    rcases merge_other p key v1 v2 h h1 h2 (single_of_plain h3) with ⟨p2, k2, hk, hp⟩ | h
    · rw [embed_plain _ _ h3] at hp
      subst hp
      rw [hk] at hn; cases hn
    · exact h
  · intro k2 hk
    have := merge_second p key v1 v2 k2 h h1 h2 (single_of_plain h3) hk
    rw [embed_plain _ _ h3] at this
    exact this

theorem merge_plain_node {key : DKey} {v1 v2 : DValue σ} (h : (mergeValue key v1 v2).2 = []) (h1 : Everywhere LocalOk v1)
    (h2 : Everywhere LocalOk v2) (h3 : Everywhere PlainOk v2) (p : Path) (n : Spec.Node σ) :
    nodeAt (mergeValue key v1 v2).1 p = some n ↔ nodeAt v1 p = some n ∨ nodeAt v2 p = some n := by
  obtain ⟨hn, hs⟩ := merge_plain h h1 h2 h3 p
  rw [nodeAt_eq, nodeAt_eq, nodeAt_eq]
  cases hk : kindAt v2 p with
  | none => rw [hn hk]; simp
  | some k2 =>
    rcases hs k2 hk with ⟨e1, e2⟩ | ⟨k1, k, e1, e2, e3⟩
    · rw [e1, e2]; simp
    · rw [e1, e3]
      obtain ⟨m1, m2, m3⟩ := mergedKind_erase e2
      show eraseKind k = some n ↔ eraseKind k1 = some n ∨ eraseKind k2 = some n
      rw [← m1, ← m2]; simp

theorem mem_below {p : Path} {nodes : List (Path × Spec.Node σ)} {q : Path} {n : Spec.Node σ} :
    (q, n) ∈ below p nodes ↔ ∃ r, q = p ++ r ∧ (r, n) ∈ nodes := by
  unfold below
  rw [List.mem_map]
  constructor
  · rintro ⟨⟨r, m⟩, h, e⟩; cases e; exact ⟨r, rfl, h⟩
  · rintro ⟨r, rfl, h⟩; exact ⟨(r, n), h, rfl⟩

theorem child_single (k : TableKind) (key key' : DKey) (v : DValue σ) :
    child (.table k [(key, v)]) (.key key') = if key = key' then some v else none := by
  rw [child_table, dget, dget]

theorem nodeAt_single_key (k : TableKind) (key : DKey) (v : DValue σ) (p : Path) (n : Spec.Node σ) (hp : p ≠ []) :
    nodeAt (.table k [(key, v)]) p = some n ↔ ∃ r, p = .key key :: r ∧ nodeAt v r = some n := by
  cases p with
  | nil => exact absurd rfl hp
  | cons s p =>
    unfold nodeAt
    rw [lookup_cons]
    cases s with
    | index i =>
      constructor
      · intro h; cases h
      · rintro ⟨r, h, _⟩; cases h
    | key key' =>
      rw [child_single]
      by_cases h : key = key'
      · subst h
        rw [if_pos rfl]
        constructor
        · intro h; exact ⟨p, rfl, h⟩
        · rintro ⟨r, h, h'⟩; cases h; exact h'
      · rw [if_neg h]
        constructor
        · intro h; cases h
        · rintro ⟨r, h', _⟩; cases h'; exact absurd rfl h

theorem kindAt_single_key (k : TableKind) (key : DKey) (v : DValue σ) (p : Path) (kd : DKind σ) (hp : p ≠ []) :
    kindAt (.table k [(key, v)]) p = some kd ↔ ∃ r, p = .key key :: r ∧ kindAt v r = some kd := by
  cases p with
  | nil => exact absurd rfl hp
  | cons s p =>
    unfold kindAt
    rw [lookup_cons]
    cases s with
    | index i =>
      constructor
      · intro h; cases h
      · rintro ⟨r, h, _⟩; cases h
    | key key' =>
      rw [child_single]
      by_cases h : key = key'
      · subst h
        rw [if_pos rfl]
        constructor
        · intro h; exact ⟨p, rfl, h⟩
        · rintro ⟨r, h, h'⟩; cases h; exact h'
      · rw [if_neg h]
        constructor
        · intro h; cases h
        · rintro ⟨r, h', _⟩; cases h'; exact absurd rfl h

theorem kvNest_table (v : DValue σ) (ks : List DKey) :
    ∃ k e, kvNest v ks = .table k e ∧ (k = .parentKey ∨ k = .keyValue) := by
  match ks with
  | [] => exact ⟨_, _, rfl, Or.inr rfl⟩
  | [k] => exact ⟨_, _, rfl, Or.inr rfl⟩
  | k :: k' :: ks => exact ⟨_, _, rfl, Or.inl rfl⟩

theorem kvNest_nodes (v : DValue σ) (nodes : List (Path × Spec.Node σ))
    (hv : ∀ p n, nodeAt v p = some n ↔ (p, n) ∈ nodes) (ks : List DKey) (p : Path) (n : Spec.Node σ) (hp : p ≠ []) :
    nodeAt (kvNest v ks) p = some n ↔ (p, n) ∈ assignNodes nodes ks := by
  induction ks generalizing p with
  | nil =>
    rw [kvNest, assignNodes]
    constructor
    · intro h
      cases p with
      | nil => exact absurd rfl hp
      | cons s p => cases s <;> cases h
    · intro h; cases h
  | cons k ks ih =>
    cases ks with
    | nil =>
      rw [kvNest, assignNodes, nodeAt_single_key _ _ _ _ _ hp, mem_below]
      constructor
      · rintro ⟨r, rfl, h⟩; exact ⟨r, rfl, (hv r n).1 h⟩
      · rintro ⟨r, rfl, h⟩; exact ⟨r, rfl, (hv r n).2 h⟩
    | cons k' ks =>
      rw [kvNest, assignNodes, nodeAt_single_key _ _ _ _ _ hp, List.mem_cons, mem_below]
      · constructor
        · rintro ⟨r, rfl, h⟩
          cases r with
          | nil =>
            left
            obtain ⟨kd, e, hk, -⟩ := kvNest_table v (k' :: ks)
            rw [hk] at h; cases h; rfl
          | cons s r => right; exact ⟨s :: r, rfl, (ih _ (by simp)).1 h⟩
        · rintro (h | ⟨r, rfl, h⟩)
          · cases h
            obtain ⟨kd, e, hk, -⟩ := kvNest_table v (k' :: ks)
            exact ⟨[], rfl, by rw [hk]; rfl⟩
          · refine ⟨r, rfl, ?_⟩
            cases r with
            | nil =>
              exfalso
              revert h
              cases ks with
              | nil => rw [assignNodes, mem_below]; rintro ⟨r, h, _⟩; cases h
              | cons k'' ks =>
                rw [assignNodes, List.mem_cons, mem_below]
                · rintro (h | ⟨r, h, _⟩)
                  · cases h
                  · cases h
                · simp
            | cons s r => exact (ih _ (by simp)).2 h
      · simp
      · simp

theorem kvNest_body (v : DValue σ) (hv : ∀ p k, kindAt v p = some k → BodyKind k) (ks : List DKey) :
    BodyTree (kvNest v ks) := by
  induction ks with
  | nil =>
    intro p k hp h
    cases p with
    | nil => exact absurd rfl hp
    | cons s p => cases s <;> cases h
  | cons k ks ih =>
    intro p kd hp h
    cases ks with
    | nil =>
      rw [kvNest, kindAt_single_key _ _ _ _ _ hp] at h
      obtain ⟨r, rfl, h⟩ := h
      exact hv r kd h
    | cons k' ks =>
      rw [kvNest, kindAt_single_key _ _ _ _ _ hp] at h
      · obtain ⟨r, rfl, h⟩ := h
        cases r with
        | nil =>
          obtain ⟨kd', e, hk, hd⟩ := kvNest_table v (k' :: ks)
          rw [hk] at h; cases h
          exact Or.inr hd
        | cons s r => exact ih _ kd (by simp) h
      · simp

/-- A table of key-values being filled: what is needed of it. -/
structure BodyOk (t : DTable σ) : Prop where
  ok : Everywhere LocalOk t.value
  body : BodyTree t.value
  kind : t.kind = .table ∨ t.kind = .root

/-- The conversion of a key-value without errors. -/
structure KvSpec (t : DTable σ) (nodes : List (Path × Spec.Node σ)) : Prop where
  ok : Everywhere LocalOk t.value
  body : BodyTree t.value
  kind : t.kind = .parentKey ∨ t.kind = .keyValue
  nodes : ∀ p n, p ≠ [] → (nodeAt t.value p = some n ↔ (p, n) ∈ nodes)

theorem KvSpec.plain {t : DTable σ} {nodes} (h : KvSpec t nodes) : Everywhere PlainOk t.value :=
  plain_of_body (fun a vs h => (by cases h)) h.body

theorem kindAfter_root {k1 k2 : TableKind} (h : k1 = .table ∨ k1 = .root) : kindAfter k1 k2 = k1 := by
  rcases h with rfl | rfl <;> rfl

/-- One key-value merged into a table without errors. -/
theorem merge_kv_step {t : DTable σ} {o : DTable σ} {nodes} (ht : BodyOk t) (ho : KvSpec o nodes)
    (h : (t.merge o).2 = []) :
    BodyOk (t.merge o).1 ∧ (t.merge o).1.kind = t.kind ∧
    ∀ p n, p ≠ [] → (nodeAt (t.merge o).1.value p = some n ↔ nodeAt t.value p = some n ∨ (p, n) ∈ nodes) := by
  obtain ⟨e1, e2⟩ := DTable.merge_value t o
  rw [e2] at h
  have hk : (t.merge o).1.kind = t.kind := by rw [DTable.merge_kind, kindAfter_root ht.kind]
  refine ⟨⟨?_, ?_, by rw [hk]; exact ht.kind⟩, hk, ?_⟩
  · rw [e1]; exact (mergeValue_ok [] _ ht.ok _ ho.ok).1
  · rw [e1]
    intro p k hp hk
    obtain ⟨hn, hs⟩ := merge_plain h ht.ok ho.ok ho.plain p
    cases hk2 : kindAt o.value p with
    | none => rw [hn hk2] at hk; exact ht.body p k hp hk
    | some k2 =>
      rcases hs k2 hk2 with ⟨_, e⟩ | ⟨k1, k', e1, e2, e3⟩
      · rw [e] at hk; cases hk; exact ho.body p _ hp hk2
      · rw [e3] at hk; cases hk
        exact mergedKind_body (ht.body p _ hp e1) (ho.body p _ hp hk2) e2
  · intro p n hp
    rw [e1, merge_plain_node h ht.ok ho.ok ho.plain, ho.nodes p n hp]

theorem empty_bodyOk {k : TableKind} (h : k = .table ∨ k = .root) : BodyOk (⟨k, []⟩ : DTable σ) where
  ok := everywhere_ok_table.2 ⟨List.nodup_nil, fun _ h => (by cases h)⟩
  body := by
    intro p k hp h
    cases p with
    | nil => exact absurd rfl hp
    | cons s p => cases s <;> cases h
  kind := h

theorem assignNodes_ne_nil (nodes : List (Path × Spec.Node σ)) (ks : List DKey) (n : Spec.Node σ) :
    ([], n) ∉ assignNodes nodes ks := by
  match ks with
  | [] => rw [assignNodes]; simp
  | [k] => rw [assignNodes, mem_below]; rintro ⟨r, h, _⟩; cases h
  | k :: k' :: ks =>
    rw [assignNodes, List.mem_cons, mem_below]
    · rintro (h | ⟨r, h, _⟩) <;> cases h
    · simp

theorem kvNodes_ne_nil (kv : AstKeyValue σ) (n : Spec.Node σ) : ([], n) ∉ kvNodes kv := by
  match kv with
  | .mk none _ => rw [kvNodes] <;> simp
  | .mk (some ks) none => rw [kvNodes] <;> simp
  | .mk (some ks) (some v) => rw [kvNodes]; exact assignNodes_ne_nil _ _ _

theorem kvsNodes_ne_nil (kvs : List (AstKeyValue σ)) (n : Spec.Node σ) : ([], n) ∉ kvsNodes kvs := by
  induction kvs with
  | nil => rw [kvsNodes]; simp
  | cons kv kvs ih =>
    rw [kvsNodes, List.mem_append]
    exact fun h => h.elim (kvNodes_ne_nil kv n) ih

mutual
/-- The tree of a value without errors has the nodes of the value. -/
theorem value_tree_spec (v : AstValue σ) (h : v.tree.2 = []) :
    (∀ p k, kindAt v.tree.1 p = some k → BodyKind k) ∧ ValueKind (kindOf v.tree.1) ∧
    ∀ p n, nodeAt v.tree.1 p = some n ↔ (p, n) ∈ valueNodes v := by
  match v with
  | .scalar s =>
    rw [AstValue.tree, valueNodes]
    refine ⟨?_, trivial, ?_⟩
    · intro p k hk
      cases p with
      | nil => cases hk; exact trivial
      | cons s p => cases s <;> cases hk
    · intro p n
      rw [List.mem_singleton]
      cases p with
      | nil => constructor <;> (intro h; cases h; rfl)
      | cons s p => constructor <;> (intro h; cases s <;> cases h)
  | .bad => rw [AstValue.tree] at h; cases h
  | .array items =>
    rw [AstValue.tree] at h
    rw [AstValue.tree, valueNodes]
    have hi := array_trees_spec items h
    refine ⟨?_, rfl, ?_⟩
    · intro p k hk
      cases p with
      | nil => cases hk; exact rfl
      | cons s p =>
        cases s with
        | key _ => cases hk
        | index i =>
          cases hc : child (.array .array (arrayTrees items).1) (.index i) with
          | none => rw [kindAt_cons_none hc] at hk; cases hk
          | some w =>
            rw [kindAt_cons hc] at hk
            exact hi.1 w (List.mem_of_getElem? hc) p k hk
    · intro p n
      rw [List.mem_cons, hi.2 0 p n]
      cases p with
      | nil =>
        constructor
        · intro h; cases h; exact Or.inl rfl
        · rintro (h | ⟨j, q, w, h, _⟩)
          · cases h; rfl
          · cases h
      | cons s p =>
        unfold nodeAt
        rw [lookup_cons]
        constructor
        · intro hn
          right
          cases s with
          | key _ => cases hn
          | index i =>
            cases hc : child (.array .array (arrayTrees items).1) (.index i) with
            | none => rw [hc] at hn; cases hn
            | some w =>
              rw [hc] at hn
              exact ⟨i, p, w, by rw [Nat.zero_add], hc, hn⟩
        · rintro (h | ⟨j, q, w, h, hw, hn⟩)
          · cases h
          · cases h
            rw [show child (.array .array (arrayTrees items).1) (.index (0 + j)) = some w from by
              rw [Nat.zero_add]; exact hw]
            exact hn
  | .inlineTable kvs =>
    rw [AstValue.tree] at h
    rw [AstValue.tree, valueNodes]
    obtain ⟨hb, hk, hn⟩ := merge_kvs_spec ⟨.table, []⟩ (empty_bodyOk (Or.inl rfl)) kvs h
    have e : ∀ p, p ≠ [] → lookup (.table .inlineTable (mergeKeyValues ⟨.table, []⟩ kvs).1.entries) p =
        lookup (mergeKeyValues ⟨.table, []⟩ kvs).1.value p := by
      intro p hp
      cases p with
      | nil => exact absurd rfl hp
      | cons s p => cases s <;> rfl
    refine ⟨?_, rfl, ?_⟩
    · intro p k hk
      by_cases hp : p = []
      · subst hp; cases hk; exact Or.inl rfl
      · refine hb.body p k hp ?_
        unfold kindAt at hk ⊢
        rw [e p hp] at hk
        exact hk
    · intro p n
      rw [List.mem_cons]
      by_cases hp : p = []
      · subst hp
        constructor
        · intro h; cases h; exact Or.inl rfl
        · rintro (h | h)
          · cases h; rfl
          · exact absurd h (kvsNodes_ne_nil kvs n)
      · unfold nodeAt
        rw [e p hp]
        have := hn p n hp
        unfold nodeAt at this
        rw [this]
        constructor
        · rintro (h | h)
          · exfalso
            cases p with
            | nil => exact hp rfl
            | cons s p => cases s <;> cases h
          · exact Or.inr h
        · rintro (h | h)
          · cases h; exact absurd rfl hp
          · exact Or.inr h
theorem array_trees_spec (items : List (AstItem σ)) (h : (arrayTrees items).2 = []) :
    (∀ w ∈ (arrayTrees items).1, ∀ p k, kindAt w p = some k → BodyKind k) ∧
    ∀ i p n, (p, n) ∈ itemsNodes i items ↔
      ∃ j q w, p = .index (i + j) :: q ∧ (arrayTrees items).1[j]? = some w ∧ nodeAt w q = some n := by
  match items with
  | [] =>
    rw [arrayTrees]
    refine ⟨fun _ h => (by cases h), fun i p n => ?_⟩
    rw [itemsNodes]
    constructor
    · intro h; cases h
    · rintro ⟨j, q, w, _, h, _⟩; cases h
  | item :: rest =>
    rw [arrayTrees, List.append_eq_nil_iff] at h
    rw [arrayTrees]
    have h1 := item_tree_spec item h.1
    have h2 := array_trees_spec rest h.2
    refine ⟨?_, ?_⟩
    · intro w hw
      rcases List.mem_cons.1 hw with h | h
      · rw [h]; exact h1.1
      · exact h2.1 w h
    · intro i p n
      rw [itemsNodes, List.mem_append, mem_below, h2.2 (i + 1) p n]
      constructor
      · rintro (⟨r, rfl, h⟩ | ⟨j, q, w, rfl, hw, hn⟩)
        · exact ⟨0, r, item.tree.1, rfl, rfl, (h1.2 r n).2 h⟩
        · exact ⟨j + 1, q, w, by rw [show i + 1 + j = i + (j + 1) from by omega], hw, hn⟩
      · rintro ⟨j, q, w, rfl, hw, hn⟩
        cases j with
        | zero => left; cases hw; exact ⟨q, rfl, (h1.2 q n).1 hn⟩
        | succ j => right; exact ⟨j, q, w, by rw [show i + (j + 1) = i + 1 + j from by omega], hw, hn⟩
theorem item_tree_spec (item : AstItem σ) (h : item.tree.2 = []) :
    (∀ p k, kindAt item.tree.1 p = some k → BodyKind k) ∧
    ∀ p n, nodeAt item.tree.1 p = some n ↔ (p, n) ∈ itemNodes item := by
  match item with
  | .value v =>
    rw [AstItem.tree] at h
    rw [AstItem.tree, itemNodes]
    have := value_tree_spec v h
    exact ⟨this.1, this.2.2⟩
  | .keyValue kv =>
    rw [AstItem.tree] at h
    rw [AstItem.tree, itemNodes]
    have hs := kv_tree_spec kv h
    refine ⟨?_, ?_⟩
    · intro p k hk
      by_cases hp : p = []
      · subst hp; cases hk; exact Or.inr hs.kind
      · exact hs.body p k hp hk
    · intro p n
      rw [List.mem_cons]
      by_cases hp : p = []
      · subst hp
        constructor
        · intro h; cases h; exact Or.inl rfl
        · rintro (h | h)
          · cases h; rfl
          · exact absurd h (kvNodes_ne_nil kv n)
      · rw [hs.nodes p n hp]
        constructor
        · exact Or.inr
        · rintro (h | h)
          · cases h; exact absurd rfl hp
          · exact h
theorem kv_tree_spec (kv : AstKeyValue σ) (h : kv.tree.2 = []) : KvSpec kv.tree.1 (kvNodes kv) := by
  match kv with
  | .mk none _ => rw [AstKeyValue.tree] at h; cases h
  | .mk (some keys) none => rw [AstKeyValue.tree] at h; cases h
  | .mk (some keys) (some v) =>
    have ho := kv_tree_ok (.mk (some keys) (some v))
    rw [AstKeyValue.tree] at h ho
    rw [AstKeyValue.tree, kvNodes]
    obtain ⟨k1, k2⟩ := keyValueTable_spec keys v.tree.1
    simp only [k1, List.append_nil] at h ho ⊢
    have hv := value_tree_spec v h
    obtain ⟨kd, e, hk, hd⟩ := kvNest_table v.tree.1 keys
    refine ⟨ho.1, by rw [k2]; exact kvNest_body _ hv.1 keys, ?_, ?_⟩
    · rw [hk] at k2
      injection k2 with k2
      rw [k2]; exact hd
    · intro p n hp
      rw [k2]
      exact kvNest_nodes _ _ hv.2.2 keys p n hp
theorem merge_kvs_spec (t : DTable σ) (ht : BodyOk t) (kvs : List (AstKeyValue σ)) (h : (mergeKeyValues t kvs).2 = []) :
    BodyOk (mergeKeyValues t kvs).1 ∧ (mergeKeyValues t kvs).1.kind = t.kind ∧
    ∀ p n, p ≠ [] → (nodeAt (mergeKeyValues t kvs).1.value p = some n ↔
      nodeAt t.value p = some n ∨ (p, n) ∈ kvsNodes kvs) := by
  match kvs with
  | [] =>
    rw [mergeKeyValues, kvsNodes]
    exact ⟨ht, rfl, fun p n _ => by simp⟩
  | kv :: rest =>
    rw [mergeKeyValues] at h
    simp only [List.append_eq_nil_iff] at h
    rw [mergeKeyValues]
    obtain ⟨⟨h1, h2⟩, h3⟩ := h
    obtain ⟨s1, s2, s3⟩ := merge_kv_step ht (kv_tree_spec kv h1) h2
    obtain ⟨r1, r2, r3⟩ := merge_kvs_spec (t.merge kv.tree.1).1 s1 rest h3
    refine ⟨r1, by rw [r2, s2], fun p n hp => ?_⟩
    rw [kvsNodes, List.mem_append, r3 p n hp, s3 p n hp, or_assoc]
end

end Tombi
