import Verif.Proofs.DocSteps

/-! What an accepted document cannot contain. -/
namespace Tombi
open Spec (Step Path child lookup nodeAt nodeOf below kvsNodes wayNodes enter resolve named sectionPath openedAfter
  RegularFrom sectionsNodes keyPath kvAssigns assignsOf dottedOf sectionPaths)

variable {σ : Type}

/-- There is a value at a place. -/
def ValueAt (T : DValue σ) (p : Path) : Prop := ∃ k, kindAt T p = some k ∧ ValueKind k

/-- A table has been made by a header. -/
def TableAt (T : DValue σ) (p : Path) : Prop := kindAt T p = some (.table .table)

/-- A table that no header can make any more. -/
def ClosedAt (T : DValue σ) (p : Path) : Prop :=
  ∃ k, kindAt T p = some (.table k) ∧ (k = .table ∨ k = .parentKey ∨ k = .keyValue)

theorem mergedKind_value_left {k1 k2 : DKind σ} (h : ValueKind k1) (h2 : k2 ≠ .table .root) : mergedKind k1 k2 = none := by
  cases k1 with
  | scalar s => rfl
  | incomplete => rfl
  | array a n =>
    cases k2 with
    | array a2 m => rw [mergedKind, if_neg (fun hh => hh.1 h)]
    | _ => rfl
  | table k =>
    have : k = .inlineTable := h
    subst this
    cases k2 with
    | table k2 => cases k2 <;> first | rfl | exact absurd rfl h2
    | _ => rfl

theorem mergedKind_value_right {k1 k2 k : DKind σ} (h : ValueKind k2) (hm : mergedKind k1 k2 = some k) :
    k2 = .table .inlineTable ∧ (k1 = .table .parentTable ∨ k1 = .table .root) ∧
      (k1 = .table .parentTable → k = .table .inlineTable) := by
  cases k2 with
  | scalar s => cases k1 <;> cases hm
  | incomplete => cases k1 <;> cases hm
  | array a n =>
    cases k1 with
    | array a1 m => rw [mergedKind, if_neg (fun hh => hh.2 h)] at hm; cases hm
    | _ => cases hm
  | table k2 =>
    have : k2 = .inlineTable := h
    subst this
    cases k1 with
    | table k1 =>
      cases k1 with
      | parentTable => refine ⟨rfl, Or.inl rfl, fun _ => ?_⟩; cases hm; rfl
      | root => refine ⟨rfl, Or.inr rfl, fun h => by cases h⟩
      | _ => cases hm
    | _ => cases hm

theorem placed_not_root {body : DTable σ} (hb : BodyOk body) (hk : body.kind = .table) {r p : Path} {k2 : DKind σ}
    (h : Placed body.value r p k2) : k2 ≠ .table .root := by
  rcases h with ⟨q, -, h⟩ | ⟨s, rest, -, rfl⟩
  · by_cases hq : q = []
    · subst hq; cases h
      show DKind.table body.kind ≠ _
      rw [hk]; simp
    · have := hb.body q k2 hq h
      intro he; subst he
      rcases this with h | h | h <;> cases h
  · unfold wayKind
    split <;> simp

theorem lookup_prefix {T w : DValue σ} {p q : Path} (h : lookup T q = some w) (hp : p <+: q) : ∃ x, lookup T p = some x := by
  obtain ⟨t, rfl⟩ := hp
  rw [lookup_append] at h
  cases hl : lookup T p with
  | none => rw [hl] at h; cases h
  | some x => exact ⟨x, rfl⟩

theorem kindAt_prefix {T : DValue σ} {k : DKind σ} {p q : Path} (h : kindAt T q = some k) (hp : p <+: q) :
    ∃ x, kindAt T p = some x := by
  unfold kindAt at h ⊢
  cases hl : lookup T q with
  | none => rw [hl] at h; cases h
  | some w =>
    obtain ⟨x, hx⟩ := lookup_prefix hl hp
    exact ⟨kindOf x, by rw [hx]; rfl⟩

theorem placed_prefix {body : DValue σ} {r p q : Path} {k2 : DKind σ} (h : kindAt body q = some k2) (hp : p <+: r ++ q) :
    ∃ x, Placed body r p x := by
  rcases Nat.lt_or_ge p.length r.length with hl | hl
  · have hpr : p <+: r := List.prefix_of_prefix_length_le hp (List.prefix_append r q) (Nat.le_of_lt hl)
    obtain ⟨t, rfl⟩ := hpr
    cases t with
    | nil => simp at hl
    | cons s t => exact ⟨_, Or.inr ⟨s, t, rfl, rfl⟩⟩
  · have hpr : r <+: p := List.prefix_of_prefix_length_le (List.prefix_append r q) hp hl
    obtain ⟨t, rfl⟩ := hpr
    obtain ⟨x, hx⟩ := kindAt_prefix h ((List.prefix_append_right_inj r).1 hp)
    exact ⟨x, Or.inl ⟨t, rfl, hx⟩⟩

/-! ### one section -/

section
variable {T T' : DValue σ} {body : DTable σ} {r : Path}

theorem step_some (hst : Step' T T' body.value r) {p : Path} {k : DKind σ} (h : kindAt T p = some k) :
    ∃ k', kindAt T' p = some k' := by
  by_cases hp : ∃ k2, Placed body.value r p k2
  · obtain ⟨k2, hp⟩ := hp
    rcases hst.placed p k2 hp with ⟨h1, h2⟩ | ⟨k1, k, h1, h2, h3⟩
    · exact ⟨_, h2⟩
    · exact ⟨_, h3⟩
  · rw [hst.other p (fun k2 h => hp ⟨k2, h⟩)]
    exact ⟨k, h⟩

theorem step_value_not_placed (hst : Step' T T' body.value r) (hb : BodyOk body) (hk : body.kind = .table) {p : Path}
    (h : ValueAt T p) (k2 : DKind σ) : ¬ Placed body.value r p k2 := by
  intro hp
  obtain ⟨k, h1, h2⟩ := h
  rcases hst.placed p k2 hp with ⟨h3, -⟩ | ⟨k1, k', h3, h4, -⟩
  · rw [h1] at h3; cases h3
  · rw [h1] at h3; cases h3
    rw [mergedKind_value_left h2 (placed_not_root hb hk hp)] at h4; cases h4

theorem step_value (hst : Step' T T' body.value r) (hb : BodyOk body) (hk : body.kind = .table) {p : Path}
    (h : ValueAt T p) : ValueAt T' p := by
  unfold ValueAt
  rw [hst.other p (step_value_not_placed hst hb hk h)]
  exact h

theorem placed_kinds {p : Path} {k2 : DKind σ} (hb : BodyOk body) (hk : body.kind = .table)
    (h : Placed body.value r p k2) : (∃ k, k2 = .table k ∧ k ≠ .root) ∨ (∀ k, k2 ≠ .table k) := by
  have := placed_not_root hb hk h
  cases k2 with
  | table k => left; exact ⟨k, rfl, fun h => this (by rw [h])⟩
  | _ => right; intro k h; cases h

theorem step_table (hst : Step' T T' body.value r) {p : Path}
    (h : TableAt T p) : TableAt T' p := by
  unfold TableAt at h ⊢
  by_cases hp : ∃ k2, Placed body.value r p k2
  · obtain ⟨k2, hp⟩ := hp
    rcases hst.placed p k2 hp with ⟨h1, h2⟩ | ⟨k1, k, h1, h2, h3⟩
    · rw [h] at h1; cases h1
    · rw [h] at h1; cases h1
      rw [h3]
      cases k2 with
      | table k2 =>
        rw [mergedKind] at h2
        split at h2
        · cases h2
        · cases h2; cases k2 <;> rfl
      | _ => cases h2
  · rw [hst.other p (fun k2 h => hp ⟨k2, h⟩)]
    exact h

theorem step_closed (hst : Step' T T' body.value r) {p : Path}
    (h : ClosedAt T p) : ClosedAt T' p := by
  obtain ⟨k0, h, hk0⟩ := h
  by_cases hp : ∃ k2, Placed body.value r p k2
  · obtain ⟨k2, hp⟩ := hp
    rcases hst.placed p k2 hp with ⟨h1, h2⟩ | ⟨k1, k, h1, h2, h3⟩
    · rw [h] at h1; cases h1
    · rw [h] at h1; cases h1
      cases k2 with
      | table k2 =>
        rw [mergedKind] at h2
        split at h2
        · cases h2
        · rename_i hc
          cases h2
          refine ⟨_, h3, ?_⟩
          rcases hk0 with rfl | rfl | rfl <;> cases k2 <;>
            first | exact absurd rfl hc | exact Or.inl rfl | exact Or.inr (Or.inl rfl) | exact Or.inr (Or.inr rfl)
      | _ => cases h2
  · exact ⟨k0, by rw [hst.other p (fun k2 h => hp ⟨k2, h⟩)]; exact h, hk0⟩

theorem step_closed_ne (hst : Step' T T' body.value r) (hk : body.kind = .table) {p : Path} (h : ClosedAt T p) : r ≠ p := by
  intro he; subst he
  obtain ⟨k0, h, hk0⟩ := h
  have hp : Placed body.value r r (.table .table) := Or.inl ⟨[], by simp, by rw [← hk]; rfl⟩
  rcases hst.placed r _ hp with ⟨h1, h2⟩ | ⟨k1, k, h1, h2, h3⟩
  · rw [h] at h1; cases h1
  · rw [h] at h1; cases h1
    rcases hk0 with rfl | rfl | rfl <;> cases h2

/-- The table of the section, afterwards. -/
theorem step_new_table (hst : Step' T T' body.value r) (hk : body.kind = .table) (hr : kindAt T r ≠ some (.table .root)) :
    TableAt T' r := by
  have hp : Placed body.value r r (.table .table) := Or.inl ⟨[], by simp, by rw [← hk]; rfl⟩
  unfold TableAt
  rcases hst.placed r _ hp with ⟨h1, h2⟩ | ⟨k1, k, h1, h2, h3⟩
  · exact h2
  · rw [h3]
    cases k1 with
    | table k1 =>
      cases k1 with
      | root => exact absurd h1 hr
      | parentTable => cases h2; rfl
      | _ => cases h2
    | _ => cases h2

/-- A value of the section, afterwards. -/
theorem step_new_value (hst : Step' T T' body.value r) {q : Path} (hr : kindAt T (r ++ q) ≠ some (.table .root))
    (h : ValueAt body.value q) : ValueAt T' (r ++ q) := by
  obtain ⟨k2, h1, h2⟩ := h
  rcases hst.placed (r ++ q) k2 (Or.inl ⟨q, rfl, h1⟩) with ⟨h3, h4⟩ | ⟨k1, k, h3, h4, h5⟩
  · exact ⟨k2, h4, h2⟩
  · obtain ⟨e1, e2, e3⟩ := mergedKind_value_right h2 h4
    rcases e2 with e2 | e2
    · exact ⟨k, h5, by rw [e3 e2]; exact rfl⟩
    · subst e2; exact absurd h3 hr

/-- A value of the section that something was below of. -/
theorem step_value_on (hst : Step' T T' body.value r) {q : Path} {k1 k2 : DKind σ} (h : kindAt T (r ++ q) = some k1)
    (hq : kindAt body.value q = some k2) (hv : ValueKind k2) : k2 = .table .inlineTable ∧ (k1 = .table .parentTable ∨ k1 = .table .root) := by
  rcases hst.placed (r ++ q) k2 (Or.inl ⟨q, rfl, hq⟩) with ⟨h3, h4⟩ | ⟨k1', k, h3, h4, h5⟩
  · rw [h] at h3; cases h3
  · rw [h] at h3; cases h3
    obtain ⟨e1, e2, -⟩ := mergedKind_value_right hv h4
    exact ⟨e1, e2⟩

/-- A dotted table of the section, afterwards, when there was nothing before. -/
theorem step_new_closed (hst : Step' T T' body.value r) {q : Path} (h0 : kindAt T (r ++ q) = none)
    (h : ClosedAt body.value q) : ClosedAt T' (r ++ q) := by
  obtain ⟨k, h1, h2⟩ := h
  rcases hst.placed (r ++ q) _ (Or.inl ⟨q, rfl, h1⟩) with ⟨h3, h4⟩ | ⟨k1, k, h3, h4, h5⟩
  · exact ⟨k, h4, h2⟩
  · rw [h0] at h3; cases h3

end

/-! ### one table of key-values -/

theorem lookup_kvNest (v : DValue σ) (ks1 ks2 : List DKey) (h : ks2 ≠ []) :
    lookup (kvNest v (ks1 ++ ks2)) (keyPath ks1) = some (kvNest v ks2) := by
  induction ks1 with
  | nil => rfl
  | cons k ks1 ih =>
    have : ks1 ++ ks2 ≠ [] := by simp [h]
    have hk : kvNest v (k :: (ks1 ++ ks2)) = .table .parentKey [(k, kvNest v (ks1 ++ ks2))] := by
      cases hc : ks1 ++ ks2 with
      | nil => exact absurd hc this
      | cons a b => rfl
    rw [List.cons_append, hk]
    show lookup _ (.key k :: keyPath ks1) = _
    rw [lookup_cons, child_single, if_pos rfl]
    exact ih

theorem lookup_kvNest_value (v : DValue σ) (ks : List DKey) (h : ks ≠ []) : lookup (kvNest v ks) (keyPath ks) = some v := by
  rcases List.eq_nil_or_concat ks with rfl | ⟨ks', k, rfl⟩
  · exact absurd rfl h
  · rw [List.concat_eq_append]
    show lookup _ ((ks' ++ [k]).map _) = _
    rw [List.map_append]
    show lookup _ (keyPath ks' ++ [.key k]) = _
    rw [lookup_append, lookup_kvNest v ks' [k] (by simp)]
    show lookup (.table .keyValue [(k, v)]) [.key k] = _
    rw [lookup_cons, child_single, if_pos rfl]
    rfl

theorem kv_tree_nest {keys : List DKey} {v : AstValue σ} :
    (AstKeyValue.mk (some keys) (some v)).tree.1.value = kvNest v.tree.1 keys := by
  rw [AstKeyValue.tree]
  exact (keyValueTable_spec keys v.tree.1).2

theorem kv_tree_value_errors {keys : List DKey} {v : AstValue σ} (h : (AstKeyValue.mk (some keys) (some v)).tree.2 = []) :
    v.tree.2 = [] := by
  rw [AstKeyValue.tree, (keyValueTable_spec keys v.tree.1).1, List.append_nil] at h
  exact h

theorem body_merge {t o : DTable σ} {nodes} (ht : BodyOk t) (ho : KvSpec o nodes) (h : (t.merge o).2 = []) (p : Path) :
    (kindAt o.value p = none → kindAt (t.merge o).1.value p = kindAt t.value p) ∧
    (∀ k2, kindAt o.value p = some k2 →
      (kindAt t.value p = none ∧ kindAt (t.merge o).1.value p = some k2) ∨
      (∃ k1 k, kindAt t.value p = some k1 ∧ mergedKind k1 k2 = some k ∧ kindAt (t.merge o).1.value p = some k)) := by
  obtain ⟨e1, e2⟩ := DTable.merge_value t o
  rw [e2] at h
  rw [e1]
  exact merge_plain h ht.ok ho.ok ho.plain p

theorem kv_kind_not_root {o : DTable σ} {nodes} (ho : KvSpec o nodes) {p : Path} {k : DKind σ} (h : kindAt o.value p = some k) :
    k ≠ .table .root := by
  by_cases hp : p = []
  · subst hp; cases h
    show DKind.table o.kind ≠ _
    rcases ho.kind with h | h <;> rw [h] <;> simp
  · have := ho.body p k hp h
    intro he; subst he
    rcases this with h | h | h <;> cases h

theorem kv_step_value {t o : DTable σ} {nodes} (ht : BodyOk t) (ho : KvSpec o nodes) (h : (t.merge o).2 = []) {p : Path}
    (hv : ValueAt t.value p) : kindAt o.value p = none ∧ ValueAt (t.merge o).1.value p := by
  obtain ⟨k, h1, h2⟩ := hv
  obtain ⟨hn, hs⟩ := body_merge ht ho h p
  cases hk : kindAt o.value p with
  | none => exact ⟨rfl, k, by rw [hn hk]; exact h1, h2⟩
  | some k2 =>
    rcases hs k2 hk with ⟨h3, -⟩ | ⟨k1, k', h3, h4, -⟩
    · rw [h1] at h3; cases h3
    · rw [h1] at h3; cases h3
      rw [mergedKind_value_left h2 (kv_kind_not_root ho hk)] at h4; cases h4

theorem kv_step_some {t o : DTable σ} {nodes} (ht : BodyOk t) (ho : KvSpec o nodes) (h : (t.merge o).2 = []) {p : Path}
    {k : DKind σ} (hv : kindAt t.value p = some k) : ∃ k', kindAt (t.merge o).1.value p = some k' := by
  obtain ⟨hn, hs⟩ := body_merge ht ho h p
  cases hk : kindAt o.value p with
  | none => rw [hn hk]; exact ⟨k, hv⟩
  | some k2 =>
    rcases hs k2 hk with ⟨h3, h4⟩ | ⟨k1, k', h3, h4, h5⟩
    · exact ⟨_, h4⟩
    · exact ⟨_, h5⟩

theorem kv_step_closed {t o : DTable σ} {nodes} (ht : BodyOk t) (ho : KvSpec o nodes) (h : (t.merge o).2 = []) {p : Path}
    (_hp : p ≠ []) (hv : ClosedAt t.value p) : ClosedAt (t.merge o).1.value p := by
  obtain ⟨k, h1, hc⟩ := hv
  obtain ⟨hn, hs⟩ := body_merge ht ho h p
  cases hk : kindAt o.value p with
  | none => exact ⟨k, by rw [hn hk]; exact h1, hc⟩
  | some k2 =>
    rcases hs k2 hk with ⟨h3, h4⟩ | ⟨k1, k', h3, h4, h5⟩
    · rw [h1] at h3; cases h3
    · rw [h1] at h3; cases h3
      cases k2 with
      | table k2 =>
        rw [mergedKind] at h4
        split at h4
        · cases h4
        · rename_i hcc
          cases h4
          refine ⟨_, h5, ?_⟩
          rcases hc with rfl | rfl | rfl <;> cases k2 <;>
            first | exact absurd rfl hcc | exact Or.inl rfl | exact Or.inr (Or.inl rfl) | exact Or.inr (Or.inr rfl)
      | _ => cases h4

/-- What the key-values of a table cannot contain, and what is in the table afterwards. -/
theorem kvs_assigns (kvs : List (AstKeyValue σ)) : ∀ (t : DTable σ), BodyOk t → (mergeKeyValues t kvs).2 = [] →
    (∀ kv ∈ kvs, ∀ v, kv ≠ .mk (some []) v) →
    (∀ p, ValueAt t.value p → ValueAt (mergeKeyValues t kvs).1.value p ∧ ∀ a ∈ kvAssigns kvs, ¬ p <+: keyPath a.1) ∧
    (∀ p, p ≠ [] → ClosedAt t.value p → ClosedAt (mergeKeyValues t kvs).1.value p) ∧
    (∀ p k, kindAt t.value p = some k → ∀ a ∈ kvAssigns kvs, ¬ keyPath a.1 <+: p) ∧
    (∀ a ∈ kvAssigns kvs, a.1 ≠ [] ∧ a.2.tree.2 = [] ∧
      kindAt (mergeKeyValues t kvs).1.value (keyPath a.1) = some (kindOf a.2.tree.1)) ∧
    (∀ a ∈ kvAssigns kvs, ∀ ks1 ks2, a.1 = ks1 ++ ks2 → ks1 ≠ [] → ks2 ≠ [] →
      ClosedAt (mergeKeyValues t kvs).1.value (keyPath ks1)) ∧
    (kvAssigns kvs).Pairwise (fun a b => ¬ keyPath a.1 <+: keyPath b.1 ∧ ¬ keyPath b.1 <+: keyPath a.1) := by
  induction kvs with
  | nil =>
    intro t ht h _
    rw [mergeKeyValues]
    refine ⟨fun p hp => ⟨hp, fun a h => (by cases h)⟩, fun p _ hp => hp, fun p k _ a h => (by cases h),
      fun a h => (by cases h), fun a h => (by cases h), List.Pairwise.nil⟩
  | cons kv rest ih =>
    intro t ht h hkeys
    rw [mergeKeyValues] at h
    simp only [List.append_eq_nil_iff] at h
    obtain ⟨⟨h1, h2⟩, h3⟩ := h
    have hs := kv_tree_spec kv h1
    obtain ⟨s1, s2, s3⟩ := merge_kv_step ht hs h2
    obtain ⟨i1, i2, i3, i4, i5, i6⟩ := ih (t.merge kv.tree.1).1 s1 h3 (fun x hx => hkeys x (List.mem_cons_of_mem _ hx))
    rw [mergeKeyValues]
    match kv, h1, h2, h3, hs, s1, s2, s3, i1, i2, i3, i4, i5, hkeys with
    | .mk none _, h1, _, _, _, _, _, _, _, _, _, _, _, _ => rw [AstKeyValue.tree] at h1; cases h1
    | .mk (some keys) none, h1, _, _, _, _, _, _, _, _, _, _, _, _ => rw [AstKeyValue.tree] at h1; cases h1
    | .mk (some keys) (some v), h1, h2, h3, hs, s1, s2, s3, i1, i2, i3, i4, i5, hkeys =>
      have hne : keys ≠ [] := fun h => hkeys _ List.mem_cons_self (some v) (by rw [h])
      have hve := kv_tree_value_errors h1
      have hvk := (value_tree_spec v hve).2.1
      have hka : kvAssigns (AstKeyValue.mk (some keys) (some v) :: rest) = (keys, v) :: kvAssigns rest := rfl
      rw [hka]
      generalize hkv : AstKeyValue.mk (some keys) (some v) = kv at *
      have hnest : kv.tree.1.value = kvNest v.tree.1 keys := by rw [← hkv]; exact kv_tree_nest
      have hlook : lookup kv.tree.1.value (keyPath keys) = some v.tree.1 := by
        rw [hnest]; exact lookup_kvNest_value _ _ hne
      have hkind : kindAt kv.tree.1.value (keyPath keys) = some (kindOf v.tree.1) := by
        unfold kindAt; rw [hlook]; rfl
      have hp0 : keyPath keys ≠ [] := by
        intro h; apply hne
        unfold keyPath at h
        simpa using h
      -- nothing was there
      have hnone : kindAt t.value (keyPath keys) = none := by
        rcases (body_merge ht hs h2 (keyPath keys)).2 _ hkind with ⟨h, -⟩ | ⟨k1, k, e1, e2, -⟩
        · exact h
        · exfalso
          obtain ⟨-, e3, -⟩ := mergedKind_value_right hvk e2
          have := ht.body _ _ hp0 e1
          rcases e3 with e3 | e3 <;> subst e3 <;> rcases this with h | h | h <;> cases h
      have hnew : kindAt (t.merge kv.tree.1).1.value (keyPath keys) = some (kindOf v.tree.1) := by
        rcases (body_merge ht hs h2 (keyPath keys)).2 _ hkind with ⟨-, h⟩ | ⟨k1, k, e1, e2, -⟩
        · exact h
        · rw [hnone] at e1; cases e1
      have hnewv : ValueAt (t.merge kv.tree.1).1.value (keyPath keys) := ⟨_, hnew, hvk⟩
      refine ⟨?_, ?_, ?_, ?_, ?_, ?_⟩
      · intro p hp
        obtain ⟨e1, e2⟩ := kv_step_value ht hs h2 hp
        obtain ⟨j1, j2⟩ := i1 p e2
        refine ⟨j1, fun a ha => ?_⟩
        rcases List.mem_cons.1 ha with rfl | ha
        · intro hpre
          obtain ⟨x, hx⟩ := kindAt_prefix hkind hpre
          rw [e1] at hx; cases hx
        · exact j2 a ha
      · intro p hp hc
        exact i2 p hp (kv_step_closed ht hs h2 hp hc)
      · intro p k hk a ha
        rcases List.mem_cons.1 ha with rfl | ha
        · intro hpre
          obtain ⟨x, hx⟩ := kindAt_prefix hk hpre
          rw [hnone] at hx; cases hx
        · obtain ⟨k', hk'⟩ := kv_step_some ht hs h2 hk
          exact i3 p k' hk' a ha
      · intro a ha
        rcases List.mem_cons.1 ha with rfl | ha
        · refine ⟨hne, hve, ?_⟩
          -- the value stays as it is
          have stay : ∀ (rest : List (AstKeyValue σ)) (t : DTable σ), BodyOk t → (mergeKeyValues t rest).2 = [] →
              ∀ p k, kindAt t.value p = some k → ValueKind k → kindAt (mergeKeyValues t rest).1.value p = some k := by
            intro rest
            induction rest with
            | nil => intro t _ _ p k hk _; rw [mergeKeyValues]; exact hk
            | cons kv rest ihs =>
              intro t ht h p k hk hvk
              rw [mergeKeyValues] at h ⊢
              simp only [List.append_eq_nil_iff] at h
              obtain ⟨⟨h1, h2⟩, h3⟩ := h
              have hs := kv_tree_spec kv h1
              refine ihs _ (merge_kv_step ht hs h2).1 h3 p k ?_ hvk
              have := (kv_step_value ht hs h2 ⟨k, hk, hvk⟩).1
              rw [(body_merge ht hs h2 p).1 this]
              exact hk
          exact stay rest _ s1 h3 _ _ hnew hvk
        · exact i4 a ha
      · intro a ha ks1 ks2 he hk1 hk2
        rcases List.mem_cons.1 ha with rfl | ha
        · have he' : keys = ks1 ++ ks2 := he
          have hp1 : keyPath ks1 ≠ [] := by
            intro h; apply hk1
            unfold keyPath at h
            simpa using h
          refine i2 _ hp1 ?_
          have hl : lookup kv.tree.1.value (keyPath ks1) = some (kvNest v.tree.1 ks2) := by
            rw [hnest, he']; exact lookup_kvNest _ _ _ hk2
          obtain ⟨kd, e, hkd, hd⟩ := kvNest_table v.tree.1 ks2
          have hkk : kindAt kv.tree.1.value (keyPath ks1) = some (.table kd) := by
            unfold kindAt; rw [hl, hkd]; rfl
          have hbody := fun k (h : kindAt t.value (keyPath ks1) = some k) => ht.body _ k hp1 h
          rcases (body_merge ht hs h2 (keyPath ks1)).2 _ hkk with ⟨-, h⟩ | ⟨k1, k, e1, e2, e3⟩
          · exact ⟨kd, h, Or.inr hd⟩
          · have hb1 := hbody k1 e1
            cases k1 with
            | table k1 =>
              rw [mergedKind] at e2
              split at e2
              · cases e2
              · rename_i hc
                cases e2
                refine ⟨_, e3, ?_⟩
                rcases hb1 with rfl | rfl | rfl <;> rcases hd with rfl | rfl <;>
                  first | exact absurd rfl hc | exact Or.inl rfl | exact Or.inr (Or.inl rfl) | exact Or.inr (Or.inr rfl)
            | _ => cases e2
        · exact i5 a ha ks1 ks2 he hk1 hk2
      · refine List.Pairwise.cons (fun b hb => ⟨(i1 _ hnewv).2 b hb, i3 _ _ hnew b hb⟩) i6

end Tombi
