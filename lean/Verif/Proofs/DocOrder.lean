import Verif.Proofs.DocSteps

/-! The document tree in general, with or without errors: keys are distinct, nothing panics, and merging never moves or
drops a key. -/
namespace Tombi
open Spec (Step Path child lookup)

variable {σ : Type}

/-- Every table of `v` is a table of `w`, at the same place, and its keys are the first keys there. -/
def Extends (v w : DValue σ) : Prop :=
  ∀ p k e, lookup v p = some (.table k e) → ∃ k' e', lookup w p = some (.table k' e') ∧ e.map (·.1) <+: e'.map (·.1)

theorem Extends.refl (v : DValue σ) : Extends v v := fun _ k e h => ⟨k, e, h, List.prefix_rfl⟩

theorem Extends.trans {u v w : DValue σ} (h1 : Extends u v) (h2 : Extends v w) : Extends u w := by
  intro p k e h
  obtain ⟨k1, e1, h3, h4⟩ := h1 p k e h
  obtain ⟨k2, e2, h5, h6⟩ := h2 p k1 e1 h3
  exact ⟨k2, e2, h5, h4.trans h6⟩

theorem extends_of_step {v w : DValue σ} (h0 : ∀ k e, v = .table k e → ∃ k' e', w = .table k' e' ∧ e.map (·.1) <+: e'.map (·.1))
    (h1 : ∀ s c, child v s = some c → ∃ d, child w s = some d ∧ Extends c d) : Extends v w := by
  intro p k e h
  cases p with
  | nil =>
    rw [lookup] at h
    injection h with h
    obtain ⟨k', e', h2, h3⟩ := h0 k e h
    exact ⟨k', e', by rw [lookup, h2], h3⟩
  | cons s p =>
    rw [lookup] at h
    cases hc : child v s with
    | none => rw [hc] at h; cases h
    | some c =>
      rw [hc] at h
      obtain ⟨d, hd, hx⟩ := h1 s c hc
      obtain ⟨k', e', h2, h3⟩ := hx p k e h
      exact ⟨k', e', by rw [lookup, hd]; exact h2, h3⟩

/-- `Extends` for the entries of a table. -/
def EntriesExtend (e e' : DEntries σ) : Prop :=
  e.map (·.1) <+: e'.map (·.1) ∧ ∀ k v, dget e k = some v → ∃ w, dget e' k = some w ∧ Extends v w

theorem EntriesExtend.trans {a b c : DEntries σ} (h1 : EntriesExtend a b) (h2 : EntriesExtend b c) : EntriesExtend a c := by
  refine ⟨h1.1.trans h2.1, fun k v h => ?_⟩
  obtain ⟨w, h3, h4⟩ := h1.2 k v h
  obtain ⟨x, h5, h6⟩ := h2.2 k w h3
  exact ⟨x, h5, h4.trans h6⟩

theorem extends_table {k k' : TableKind} {e e' : DEntries σ} (h : EntriesExtend e e') :
    Extends (.table k e) (.table k' e') := by
  refine extends_of_step (fun _ _ hh => ?_) (fun s c hc => ?_)
  · injection hh with _ h2; subst h2; exact ⟨_, _, rfl, h.1⟩
  · cases s with
    | key key =>
      rw [child_table] at hc ⊢
      exact h.2 key c hc
    | index i => cases hc

theorem extends_array {a a' : ArrayKind} {vs ws : List (DValue σ)}
    (h : ∀ (i : Nat) c, vs[i]? = some c → ∃ d, ws[i]? = some d ∧ Extends c d) : Extends (.array a vs) (.array a' ws) := by
  refine extends_of_step (fun _ _ hh => (by cases hh)) (fun s c hc => ?_)
  cases s with
  | key key => cases hc
  | index i => exact h i c hc

mutual
theorem mergeEntries_extends (e1 : DEntries σ) (e2 : DEntries σ) : EntriesExtend e1 (mergeEntries e1 e2).1 := by
  match e2 with
  | [] => rw [mergeEntries]; exact ⟨List.prefix_rfl, fun k v h => ⟨v, h, Extends.refl v⟩⟩
  | (k, v2) :: rest =>
    rw [mergeEntries]
    cases hg : dget e1 k with
    | some v1 =>
      simp only []
      refine EntriesExtend.trans (b := dset e1 k (mergeValue k v1 v2).1) ⟨?_, fun k' v h => ?_⟩ (mergeEntries_extends _ rest)
      · rw [dset_keys]; exact List.prefix_rfl
      · rw [dget_dset e1 k k' _ (by rw [hg]; simp)]
        by_cases hk : k = k'
        · subst hk
          rw [hg] at h
          injection h with h
          subst h
          exact ⟨_, if_pos rfl, mergeValue_extends k v1 v2⟩
        · exact ⟨v, by rw [if_neg hk]; exact h, Extends.refl v⟩
    | none =>
      simp only []
      refine EntriesExtend.trans (b := e1 ++ [(k, v2)]) ⟨?_, fun k' v h => ?_⟩ (mergeEntries_extends _ rest)
      · rw [List.map_append]; exact List.prefix_append _ _
      · rw [dget_append e1 k k' v2 hg]
        by_cases hk : k = k'
        · subst hk; rw [hg] at h; cases h
        · exact ⟨v, by rw [if_neg hk]; exact h, Extends.refl v⟩
theorem mergeValue_extends (key : DKey) (v1 : DValue σ) (v2 : DValue σ) : Extends v1 (mergeValue key v1 v2).1 := by
  match v2 with
  | .scalar s => rw [mergeValue]; exact Extends.refl _
  | .incomplete => rw [mergeValue]; exact Extends.refl _
  | .table k2 e2 =>
    cases v1 with
    | table k1 e1 =>
      rw [mergeValue]
      split
      · exact extends_table ⟨List.prefix_rfl, fun k v h => ⟨v, h, Extends.refl v⟩⟩
      · exact extends_table (mergeEntries_extends e1 e2)
    | scalar s => rw [mergeValue]; exact Extends.refl _; intro k1 e1 h; cases h
    | incomplete => rw [mergeValue]; exact Extends.refl _; intro k1 e1 h; cases h
    | array a vs => rw [mergeValue]; exact Extends.refl _; intro k1 e1 h; cases h
  | .array a2 vs2 =>
    cases v1 with
    | array a1 vs1 =>
      rw [mergeValue]
      split
      · split
        · exact extends_array (mergeLast_extends vs1 vs2)
        · refine extends_array (fun i c h => ⟨c, ?_, Extends.refl c⟩)
          rw [List.getElem?_append_left]
          · exact h
          · exact (List.getElem?_eq_some_iff.1 h).1
      · exact Extends.refl _
    | scalar s => rw [mergeValue]; exact Extends.refl _; intro k1 e1 h; cases h
    | incomplete => rw [mergeValue]; exact Extends.refl _; intro k1 e1 h; cases h
    | table a vs => rw [mergeValue]; exact Extends.refl _; intro k1 e1 h; cases h
theorem mergeLast_extends (vs1 : List (DValue σ)) (vs2 : List (DValue σ)) : ∀ (i : Nat) c, vs1[i]? = some c →
    ∃ d, (mergeLast vs1 vs2).1[i]? = some d ∧ Extends c d := by
  match vs2 with
  | [] => rw [mergeLast]; exact fun i c h => ⟨c, h, Extends.refl c⟩
  | [.scalar s] => rw [mergeLast]; exact fun i c h => ⟨c, h, Extends.refl c⟩; all_goals (intros; simp_all)
  | [.incomplete] => rw [mergeLast]; exact fun i c h => ⟨c, h, Extends.refl c⟩; all_goals (intros; simp_all)
  | [.array a vs] => rw [mergeLast]; exact fun i c h => ⟨c, h, Extends.refl c⟩; all_goals (intros; simp_all)
  | [.table k2 e2] =>
    by_cases hl : ∃ k1 e1, vs1.getLast? = some (.table k1 e1)
    · obtain ⟨k1, e1, hl⟩ := hl
      rw [mergeLast_table hl]
      have hx := mergeValue_extends [] (.table k1 e1) (.table k2 e2)
      have hv : vs1 = vs1.dropLast ++ [.table k1 e1] := by
        rw [List.getLast?_eq_some_iff] at hl
        obtain ⟨ys, rfl⟩ := hl
        rw [List.dropLast_concat]
      intro i c h
      rw [hv] at h
      rw [List.getElem?_append] at h ⊢
      split
      · rename_i hi
        rw [if_pos hi] at h
        exact ⟨c, h, Extends.refl c⟩
      · rename_i hi
        rw [if_neg hi] at h
        cases hj : i - vs1.dropLast.length with
        | zero =>
          rw [hj] at h
          simp only [List.getElem?_cons_zero, Option.some.injEq] at h
          subst h
          exact ⟨_, rfl, hx⟩
        | succ j => rw [hj] at h; simp at h
    · rw [mergeLast.eq_3 vs1 k2 e2 (fun k1 e1 h => hl ⟨k1, e1, h⟩)]
      · intro i c h
        refine ⟨c, ?_, Extends.refl c⟩
        rw [List.getElem?_append_left]
        · exact h
        · exact (List.getElem?_eq_some_iff.1 h).1
  | _ :: v :: rest => rw [mergeLast]; exact mergeLast_extends vs1 (v :: rest)
end

theorem DTable.merge_extends (t o : DTable σ) : Extends t.value (t.merge o).1.value := by
  rw [(DTable.merge_value t o).1]
  exact mergeValue_extends [] t.value o.value

theorem section_tree_localOk (prev : List (AstSection σ)) (s : AstSection σ) :
    Everywhere LocalOk (s.tree prev).1.value ∧ DError.panic ∉ (s.tree prev).2 := by
  have hb := merge_kvs_ok ⟨.table, []⟩ (empty_bodyOk (σ := σ) (Or.inl rfl)).ok s.kvs
  cases hh : s.header with
  | none =>
    unfold AstSection.tree
    rw [hh]
    exact ⟨(empty_bodyOk (Or.inl rfl)).ok, by simp⟩
  | some header =>
    rcases List.eq_nil_or_concat header with rfl | ⟨ks, last, rfl⟩
    · unfold AstSection.tree
      rw [hh]
      simp only [List.reverse_nil, nestHeader, List.append_nil]
      split <;> exact hb
    · rw [List.concat_eq_append] at hh
      obtain ⟨h1, h2⟩ := section_tree prev s ks last hh
      rw [h1, h2]
      exact ⟨(spineTree_localOk rfl hb.1 _).1, hb.2⟩

theorem mergeSections_ok (sections : List (AstSection σ)) : ∀ (prev : List (AstSection σ)) (t : DTable σ),
    Everywhere LocalOk t.value →
    Everywhere LocalOk (mergeSections prev t sections).1.value ∧ DError.panic ∉ (mergeSections prev t sections).2 := by
  induction sections with
  | nil => intro prev t h; rw [mergeSections]; exact ⟨h, by simp⟩
  | cons s rest ih =>
    intro prev t h
    rw [mergeSections]
    have h1 := section_tree_localOk prev s
    have h2 := mergeValue_ok [] t.value h (s.tree prev).1.value h1.1
    rw [← (DTable.merge_value t (s.tree prev).1).1, ← (DTable.merge_value t (s.tree prev).1).2] at h2
    have h3 := ih (s :: prev) _ h2.1
    refine ⟨h3.1, fun hm => ?_⟩
    simp only [List.mem_append] at hm
    rcases hm with (hm | hm) | hm
    · exact h1.2 hm
    · exact h2.2 hm
    · exact h3.2 hm

theorem root_tree_ok (root : AstRoot σ) : Everywhere LocalOk root.tree.1.value ∧ DError.panic ∉ root.tree.2 := by
  unfold AstRoot.tree
  have h1 := merge_kvs_ok ⟨.root, []⟩ (empty_bodyOk (σ := σ) (Or.inr rfl)).ok root.kvs
  have h2 := mergeSections_ok root.sections [] _ h1.1
  refine ⟨h2.1, fun h => ?_⟩
  exact (List.mem_append.1 h).elim h1.2 h2.2

theorem mergeSections_extends (sections : List (AstSection σ)) : ∀ (prev : List (AstSection σ)) (t : DTable σ),
    Extends t.value (mergeSections prev t sections).1.value := by
  induction sections with
  | nil => intro prev t; rw [mergeSections]; exact Extends.refl _
  | cons s rest ih =>
    intro prev t
    rw [mergeSections]
    exact (DTable.merge_extends t _).trans (ih _ _)

theorem mergeSections_append (A B : List (AstSection σ)) : ∀ (prev : List (AstSection σ)) (t : DTable σ),
    (mergeSections prev t (A ++ B)).1 = (mergeSections (A.reverse ++ prev) (mergeSections prev t A).1 B).1 := by
  induction A with
  | nil => intro prev t; rw [mergeSections]; rfl
  | cons s rest ih =>
    intro prev t
    rw [List.cons_append, mergeSections, mergeSections]
    simp only [List.reverse_cons, List.append_assoc, List.singleton_append]
    exact ih _ _

theorem mergeKeyValues_extends (kvs : List (AstKeyValue σ)) : ∀ (t : DTable σ), Extends t.value (mergeKeyValues t kvs).1.value := by
  induction kvs with
  | nil => intro t; rw [mergeKeyValues]; exact Extends.refl _
  | cons kv rest ih =>
    intro t
    rw [mergeKeyValues]
    exact (DTable.merge_extends t _).trans (ih _)

theorem mergeKeyValues_append (a b : List (AstKeyValue σ)) : ∀ (t : DTable σ),
    (mergeKeyValues t (a ++ b)).1 = (mergeKeyValues (mergeKeyValues t a).1 b).1 := by
  induction a with
  | nil => intro t; rw [List.nil_append, mergeKeyValues]
  | cons kv rest ih =>
    intro t
    rw [List.cons_append, mergeKeyValues, mergeKeyValues]
    exact ih _

/-- New keys are appended in their order. -/
theorem mergeEntries_keys (e2 : DEntries σ) : ∀ (e1 : DEntries σ), (e2.map (·.1)).Nodup →
    (mergeEntries e1 e2).1.map (·.1) = e1.map (·.1) ++ (e2.map (·.1)).filter (fun k => !(e1.map (·.1)).contains k) := by
  induction e2 with
  | nil => intro e1 _; rw [mergeEntries]; simp
  | cons kv rest ih =>
    obtain ⟨k, v2⟩ := kv
    intro e1 hn
    rw [List.map_cons, List.nodup_cons] at hn
    rw [mergeEntries, List.map_cons, List.filter_cons]
    cases hg : dget e1 k with
    | some v1 =>
      have hm : k ∈ e1.map (·.1) := List.mem_map.2 ⟨_, dget_mem hg, rfl⟩
      simp only []
      rw [ih _ hn.2, dset_keys, if_neg]
      simpa using hm
    | none =>
      have hm := dget_none.1 hg
      simp only []
      rw [ih _ hn.2, if_pos (by simpa using hm)]
      simp only [List.map_append, List.map_cons, List.map_nil, List.append_assoc, List.cons_append, List.nil_append]
      congr 2
      apply List.filter_congr
      intro x hx
      have : x ≠ k := fun h => hn.1 (h ▸ hx)
      simp [this]

end Tombi
