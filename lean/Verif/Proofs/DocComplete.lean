import Verif.Proofs.DocMerge
/-! A document tree built without errors has no incomplete values. -/
namespace Tombi
variable {σ : Type}

mutual
/-- Nothing in the value is incomplete. -/
def DValue.Complete : DValue σ → Prop
  | .scalar _ => True
  | .array _ vs => CompleteItems vs
  | .table _ es => CompleteEntries es
  | .incomplete => False
/-- Elements. -/
def CompleteItems : List (DValue σ) → Prop
  | [] => True
  | v :: vs => v.Complete ∧ CompleteItems vs
/-- Entries. -/
def CompleteEntries : List (DKey × DValue σ) → Prop
  | [] => True
  | (_, v) :: es => v.Complete ∧ CompleteEntries es
end

theorem completeItems_iff {vs : List (DValue σ)} : CompleteItems vs ↔ ∀ v ∈ vs, v.Complete := by
  induction vs with
  | nil => simp [CompleteItems]
  | cons v vs ih => simp only [CompleteItems, ih, List.mem_cons, forall_eq_or_imp]

theorem completeEntries_iff {es : List (DKey × DValue σ)} : CompleteEntries es ↔ ∀ kv ∈ es, kv.2.Complete := by
  induction es with
  | nil => simp [CompleteEntries]
  | cons e es ih => obtain ⟨k, v⟩ := e; simp only [CompleteEntries, ih, List.mem_cons, forall_eq_or_imp]

mutual
theorem mergeEntries_complete (e1 : DEntries σ) (h1 : CompleteEntries e1) (e2 : DEntries σ) (h2 : CompleteEntries e2) :
    CompleteEntries (mergeEntries e1 e2).1 := by
  match e2 with
  | [] => rw [mergeEntries]; exact h1
  | (k, v2) :: rest =>
    rw [mergeEntries]
    simp only [CompleteEntries] at h2
    split
    · rename_i v1 hv1
      have hm := mergeValue_complete k v1 (completeEntries_iff.1 h1 _ (dget_mem hv1)) v2 h2.1
      refine mergeEntries_complete (dset e1 k (mergeValue k v1 v2).1) (completeEntries_iff.2 fun kv hkv => ?_) rest h2.2
      rcases mem_dset hkv with h | h
      · exact completeEntries_iff.1 h1 kv h
      · rw [h]; exact hm
    · refine mergeEntries_complete (e1 ++ [(k, v2)]) (completeEntries_iff.2 fun kv hkv => ?_) rest h2.2
      rcases List.mem_append.1 hkv with h | h
      · exact completeEntries_iff.1 h1 kv h
      · rw [List.mem_singleton] at h; rw [h]; exact h2.1

theorem mergeValue_complete (key : DKey) (v1 : DValue σ) (h1 : v1.Complete) (v2 : DValue σ) (h2 : v2.Complete) :
    (mergeValue key v1 v2).1.Complete := by
  match v2 with
  | .scalar s => rw [mergeValue]; exact h1
  | .incomplete => rw [mergeValue]; exact h1
  | .table k2 e2 =>
    cases v1 with
    | table k1 e1 =>
      rw [mergeValue]
      simp only [DValue.Complete] at h1 h2
      split
      · simpa only [DValue.Complete] using h1
      · simpa only [DValue.Complete] using mergeEntries_complete e1 h1 e2 h2
    | _ => simpa only [mergeValue] using h1
  | .array a2 vs2 =>
    cases v1 with
    | array a1 vs1 =>
      rw [mergeValue]
      simp only [DValue.Complete] at h2
      have h1' : CompleteItems vs1 := by simpa only [DValue.Complete] using h1
      split
      · split
        · simpa only [DValue.Complete] using mergeLast_complete vs1 h1' vs2 h2
        · simp only [DValue.Complete]
          exact completeItems_iff.2 fun w hw => (List.mem_append.1 hw).elim (completeItems_iff.1 h1' w) (completeItems_iff.1 h2 w)
      · exact h1
    | _ => simpa only [mergeValue] using h1

theorem mergeLast_complete (vs1 : List (DValue σ)) (h1 : CompleteItems vs1) (vs2 : List (DValue σ)) (h2 : CompleteItems vs2) :
    CompleteItems (mergeLast vs1 vs2).1 := by
  match vs2 with
  | [] => rw [mergeLast]; exact h1
  | [v2] =>
    match v2, h2 with
    | .table k2 e2, h2 =>
      simp only [CompleteItems, and_true] at h2
      cases hl : vs1.getLast? with
      | none =>
        have : vs1 = [] := List.getLast?_eq_none_iff.1 hl
        subst this
        simpa [mergeLast, CompleteItems] using h2
      | some l =>
        have hm : l ∈ vs1 := List.mem_of_getLast? hl
        have hl' := completeItems_iff.1 h1 l hm
        cases l with
        | table k1 e1 =>
          rw [mergeLast_table hl]
          refine completeItems_iff.2 fun w hw => ?_
          rcases List.mem_append.1 hw with hw | hw
          · exact completeItems_iff.1 h1 w (List.dropLast_subset _ hw)
          · rw [List.mem_singleton] at hw
            rw [hw]; exact mergeValue_complete [] _ hl' _ h2
        | _ =>
          have he : (mergeLast vs1 [.table k2 e2]).1 = vs1 ++ [.table k2 e2] := by
            rw [mergeLast.eq_3 _ _ _ (by intro k1 e1 h; rw [hl] at h; cases h)]
          rw [he]
          refine completeItems_iff.2 fun w hw => ?_
          rcases List.mem_append.1 hw with hw | hw
          · exact completeItems_iff.1 h1 w hw
          · rw [List.mem_singleton] at hw; rw [hw]; exact h2
    | .scalar _, h2 => simpa [mergeLast] using h1
    | .incomplete, h2 => simpa [mergeLast] using h1
    | .array _ _, h2 => simpa [mergeLast] using h1
  | w :: v :: rest =>
    rw [mergeLast]
    simp only [CompleteItems] at h2
    exact mergeLast_complete vs1 h1 (v :: rest) (by simp only [CompleteItems]; exact h2.2)
end

theorem merge_complete {t o : DTable σ} (ht : CompleteEntries t.entries) (ho : CompleteEntries o.entries) :
    CompleteEntries (t.merge o).1.entries := by
  unfold DTable.merge
  split
  · exact ht
  · exact mergeEntries_complete _ ht _ ho

theorem insertEntry_nil (k : DKey) (v : DValue σ) : insertEntry [] k v = .ok [(k, v)] := rfl

theorem keyValueTable_complete {keys : List DKey} {v : DValue σ} (hv : v.Complete) :
    CompleteEntries (keyValueTable keys v).1.entries := by
  unfold keyValueTable
  cases keys.reverse with
  | nil => trivial
  | cons last parents =>
    simp only [insertEntry_nil]
    have : ∀ (l : List DKey) (acc : DTable σ × List DError), CompleteEntries acc.1.entries →
        CompleteEntries (l.foldl (fun (acc : DTable σ × List DError) key => (⟨.parentKey, [(key, acc.1.value)]⟩, acc.2)) acc).1.entries := by
      intro l
      induction l with
      | nil => exact fun _ h => h
      | cons k l ih =>
        intro acc h
        rw [List.foldl_cons]
        refine ih _ ?_
        show CompleteEntries [(k, acc.1.value)]
        simp only [CompleteEntries, DTable.value, DValue.Complete, and_true]
        exact h
    exact this parents _ (by simp only [CompleteEntries, and_true]; exact hv)

mutual
theorem value_complete (v : AstValue σ) (h : v.tree.2 = []) : v.tree.1.Complete := by
  match v with
  | .scalar s => trivial
  | .bad => simp [AstValue.tree] at h
  | .array items =>
    rw [AstValue.tree] at h ⊢
    simpa only [DValue.Complete] using items_complete items h
  | .inlineTable kvs =>
    rw [AstValue.tree] at h ⊢
    simpa only [DValue.Complete] using kvs_complete kvs ⟨.table, []⟩ trivial h
theorem items_complete (items : List (AstItem σ)) (h : (arrayTrees items).2 = []) : CompleteItems (arrayTrees items).1 := by
  match items with
  | [] => trivial
  | item :: rest =>
    rw [arrayTrees] at h ⊢
    have h := List.append_eq_nil_iff.1 h
    simp only [CompleteItems]
    exact ⟨item_complete item h.1, items_complete rest h.2⟩
theorem item_complete (item : AstItem σ) (h : item.tree.2 = []) : item.tree.1.Complete := by
  match item with
  | .value v => rw [AstItem.tree] at h ⊢; exact value_complete v h
  | .keyValue kv =>
    rw [AstItem.tree] at h ⊢
    simpa only [DTable.value, DValue.Complete] using kv_complete kv h
theorem kv_complete (kv : AstKeyValue σ) (h : kv.tree.2 = []) : CompleteEntries kv.tree.1.entries := by
  match kv with
  | .mk none _ => simp [AstKeyValue.tree] at h
  | .mk (some keys) none => simp [AstKeyValue.tree] at h
  | .mk (some keys) (some value) =>
    rw [AstKeyValue.tree] at h ⊢
    have h := List.append_eq_nil_iff.1 h
    exact keyValueTable_complete (value_complete value h.1)
theorem kvs_complete (kvs : List (AstKeyValue σ)) (t : DTable σ) (ht : CompleteEntries t.entries)
    (h : (mergeKeyValues t kvs).2 = []) : CompleteEntries (mergeKeyValues t kvs).1.entries := by
  match kvs with
  | [] => exact ht
  | kv :: rest =>
    rw [mergeKeyValues] at h ⊢
    have h := List.append_eq_nil_iff.1 h
    have h1 := List.append_eq_nil_iff.1 h.1
    exact kvs_complete rest _ (merge_complete ht (kv_complete kv h1.1)) h.2
end

theorem nestHeader_complete (arrays : List (List DKey)) (keys : List DKey) (b : Bool) (t : DTable σ)
    (ht : CompleteEntries t.entries) : CompleteEntries (nestHeader arrays keys b t).1.entries := by
  induction keys generalizing b t with
  | nil => exact ht
  | cons k keys ih =>
    rw [nestHeader]
    refine ih _ _ ?_
    cases b
    · show CompleteEntries [(k, t.value)]
      simp only [CompleteEntries, DTable.value, DValue.Complete, and_true]
      exact ht
    · show CompleteEntries [(k, DValue.array _ [t.value])]
      simp only [CompleteEntries, CompleteItems, DTable.value, DValue.Complete, and_true]
      exact ht

theorem section_complete (prev : List (AstSection σ)) (s : AstSection σ) (h : (s.tree prev).2 = []) :
    CompleteEntries (s.tree prev).1.entries := by
  unfold AstSection.tree at h ⊢
  cases hh : s.header with
  | none => rw [hh] at h; cases h
  | some header =>
    rw [hh] at h
    simp only at h ⊢
    split at h
    · rename_i hs
      rw [if_pos hs]
      cases hr : header.reverse with
      | nil =>
        rw [hr] at h
        exact kvs_complete _ _ trivial h
      | cons key rest =>
        rw [hr] at h
        simp only at h ⊢
        have hb := (List.append_eq_nil_iff.1 (List.append_eq_nil_iff.1 h).1).1
        have hb := kvs_complete s.kvs ⟨.table, []⟩ trivial hb
        refine nestHeader_complete _ _ _ _ ?_
        show CompleteEntries [(key, DValue.array _ [DTable.value _])]
        simp only [CompleteEntries, CompleteItems, DTable.value, DValue.Complete, and_true]
        exact hb
    · rename_i hs
      rw [if_neg hs]
      have hb := (List.append_eq_nil_iff.1 h).1
      exact nestHeader_complete _ _ _ _ (kvs_complete s.kvs ⟨.table, []⟩ trivial hb)

theorem sections_complete (ss prev : List (AstSection σ)) (t : DTable σ) (ht : CompleteEntries t.entries)
    (h : (mergeSections prev t ss).2 = []) : CompleteEntries (mergeSections prev t ss).1.entries := by
  induction ss generalizing prev t with
  | nil => exact ht
  | cons s ss ih =>
    rw [mergeSections] at h ⊢
    have h := List.append_eq_nil_iff.1 h
    have h1 := List.append_eq_nil_iff.1 h.1
    exact ih _ _ (merge_complete ht (section_complete prev s h1.1)) h.2

theorem root_complete (root : AstRoot σ) (h : root.tree.2 = []) : CompleteEntries root.tree.1.entries := by
  unfold AstRoot.tree at h ⊢
  have h := List.append_eq_nil_iff.1 h
  exact sections_complete _ _ _ (kvs_complete _ _ trivial h.1) h.2

end Tombi
