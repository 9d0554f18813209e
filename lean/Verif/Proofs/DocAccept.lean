import Verif.Spec.Valid
import Verif.Proofs.DocConflict2

/-! Merging succeeds when the kinds fit; valid key-values are converted without errors. -/
namespace Tombi
open Spec (Step Path child lookup keyPath kvAssigns ValidValue ValidItems ValidItem ValidKvs ValidKv KeysApart)

variable {σ : Type}

/-- What two places must be like for a merge to succeed. -/
def Fits (k1 : Option (DKind σ)) (k2 : DKind σ) : Prop :=
  k1 = none ∨ ∃ a k, k1 = some a ∧ mergedKind a k2 = some k

theorem mergeEntries_accepts (e2 : DEntries σ) : ∀ (e1 : DEntries σ), (e2.map (·.1)).Nodup →
    (∀ kv ∈ e2, ∀ v1, dget e1 kv.1 = some v1 → (mergeValue kv.1 v1 kv.2).2 = []) → (mergeEntries e1 e2).2 = [] := by
  induction e2 with
  | nil => intro e1 _ _; rw [mergeEntries]
  | cons kv e2 ih =>
    obtain ⟨k, v2⟩ := kv
    intro e1 hn h
    rw [List.map_cons, List.nodup_cons] at hn
    have hne : ∀ kv ∈ e2, k ≠ kv.1 := fun kv hkv he => hn.1 (List.mem_map.2 ⟨kv, hkv, he.symm⟩)
    rw [mergeEntries]
    split
    · rename_i v1 hv1
      have h1 : (mergeValue k v1 v2).2 = [] := h (k, v2) List.mem_cons_self v1 hv1
      have h2 := ih (dset e1 k (mergeValue k v1 v2).1) hn.2 (fun kv hkv w hw => by
        rw [dget_dset _ _ _ _ (by rw [hv1]; simp), if_neg (hne kv hkv)] at hw
        exact h kv (List.mem_cons_of_mem _ hkv) w hw)
      simp only [h1, h2, List.append_nil]
    · rename_i hv1
      exact ih (e1 ++ [(k, v2)]) hn.2 (fun kv hkv w hw => by
        rw [dget_append _ _ _ _ hv1, if_neg (hne kv hkv)] at hw
        exact h kv (List.mem_cons_of_mem _ hkv) w hw)

theorem conflict_of_kinds {k1 k2 : TableKind} {e1 e2 : DEntries σ} (h : kindsClash k1 k2 = false)
    (hc : ∀ kv ∈ e1, ∀ v2, dget e2 kv.1 = some v2 → inlineClash kv.2 v2 = false) : tableConflict k1 e1 k2 e2 = false := by
  cases k1 <;> cases k2 <;> first | exact h | skip
  rw [tableConflict, List.any_eq_false]
  intro kv hkv
  cases hd : dget e2 kv.1 with
  | none => simp
  | some v2 => simp [hc kv hkv v2 hd]

theorem inlineClash_fits {v1 v2 : DValue σ} (h : ∃ k, mergedKind (kindOf v1) (kindOf v2) = some k)
    (hr : kindOf v2 ≠ .table .root) : inlineClash v1 v2 = false := by
  obtain ⟨k, h⟩ := h
  cases v1 with
  | table k1 e1 =>
    cases v2 with
    | table k2 e2 =>
      cases k1 <;> cases k2 <;> first | rfl | exact absurd rfl hr | cases h
    | _ => cases h
  | array a1 vs1 => cases v2 <;> first | rfl | cases h
  | _ => cases h

theorem merge_accepts_lt (n : Nat) : ∀ (v2 : DValue σ), sizeOf v2 < n → ∀ (key : DKey) (v1 : DValue σ),
    Everywhere LocalOk v1 → Everywhere LocalOk v2 → Everywhere SingleOk v2 →
    (∀ p k, kindAt v2 p = some k → k ≠ .table .root) →
    (∀ p k2, kindAt v2 p = some k2 → Fits (kindAt v1 (embed (some v1) v2 p)) k2) → (mergeValue key v1 v2).2 = [] := by
  induction n with
  | zero => intro v2 h; omega
  | succ n ih =>
    intro v2 hsz key v1 h1 h2 h3 hr h
    have h0 : ∃ k, mergedKind (kindOf v1) (kindOf v2) = some k := by
      rcases h [] (kindOf v2) rfl with h | ⟨a, k, h, hk⟩
      · rw [embed] at h; cases h
      · rw [embed] at h; cases h; exact ⟨k, hk⟩
    match v2, hsz, h2, h3, hr, h, h0 with
    | .scalar s, _, _, _, _, _, h0 => obtain ⟨k, h0⟩ := h0; cases v1 <;> cases h0
    | .incomplete, _, _, _, _, _, h0 => obtain ⟨k, h0⟩ := h0; cases v1 <;> cases h0
    | .table k2 e2, hsz, h2, h3, hr, h, h0 =>
      cases v1 with
      | table k1 e1 =>
        have hn := (everywhere_ok_table.1 h2).1
        have hn1 := (everywhere_ok_table.1 h1).1
        have sub : ∀ key w1 w2, dget e1 key = some w1 → dget e2 key = some w2 →
            ∀ p k2, kindAt w2 p = some k2 → Fits (kindAt w1 (embed (some w1) w2 p)) k2 := by
          intro key w1 w2 g1 g2 p kd hk
          have c1 : child (.table k1 e1) (.key key) = some w1 := by rw [child_table]; exact g1
          have c2 : child (.table k2 e2) (.key key) = some w2 := by rw [child_table]; exact g2
          have := h (.key key :: p) kd (by rw [kindAt_cons c2]; exact hk)
          rw [embed, c2] at this
          simp only [Option.bind_some, c1] at this
          rw [kindAt_cons c1] at this
          exact this
        have hclash : kindsClash k1 k2 = false := by
          obtain ⟨k, h0⟩ := h0
          cases hc : kindsClash k1 k2 with
          | false => rfl
          | true =>
            have h0' : (if kindsClash k1 k2 then none else _) = some k := h0
            rw [hc, if_pos rfl] at h0'; cases h0'
        have hc := conflict_of_kinds (e1 := e1) (e2 := e2) hclash (fun kv hkv w2 hw2 => by
          refine inlineClash_fits ?_ ?_
          · rcases sub kv.1 kv.2 w2 (dget_of_mem hn1 hkv) hw2 [] (kindOf w2) rfl with h | ⟨a, k, h, hk⟩
            · rw [embed] at h; cases h
            · rw [embed] at h; cases h; exact ⟨k, hk⟩
          · exact hr [.key kv.1] _ (by rw [kindAt_cons (w := w2) (by rw [child_table]; exact hw2)]; rfl))
        rw [mergeValue, hc]
        simp only [Bool.false_eq_true, if_false]
        refine mergeEntries_accepts e2 e1 hn (fun kv hkv w1 hw1 => ?_)
        have g2 := dget_of_mem hn hkv
        have c1 : child (.table k1 e1) (.key kv.1) = some w1 := by rw [child_table]; exact hw1
        have c2 : child (.table k2 e2) (.key kv.1) = some kv.2 := by rw [child_table]; exact g2
        have : sizeOf kv.2 < sizeOf e2 := by
          have := List.sizeOf_lt_of_mem hkv
          obtain ⟨a, b⟩ := kv
          simp only [Prod.mk.sizeOf_spec] at this ⊢
          omega
        exact ih kv.2 (by rw [DValue.table.sizeOf_spec] at hsz; omega) kv.1 w1 (everywhere_child h1 c1) (everywhere_child h2 c2) (everywhere_child h3 c2)
          (fun p k hk => hr (.key kv.1 :: p) k (by rw [kindAt_cons c2]; exact hk)) (sub kv.1 w1 kv.2 hw1 g2)
      | _ => obtain ⟨k, h0⟩ := h0; cases h0
    | .array a2 vs2, hsz, h2, h3, hr, h, h0 =>
      cases v1 with
      | array a1 vs1 =>
        have ha : a1 ≠ .array ∧ a2 ≠ .array := by
          obtain ⟨k, h0⟩ := h0
          by_cases ha : a1 ≠ .array ∧ a2 ≠ .array
          · exact ha
          · have h0' : (if a1 ≠ .array ∧ a2 ≠ .array then _ else none) = some k := h0
            rw [if_neg ha] at h0'; cases h0'
        rw [mergeValue, if_pos ha]
        by_cases hp : a2 = .parentArrayOfTable
        · rw [if_pos hp]
          subst hp
          obtain ⟨k2, e2, rfl⟩ := ((everywhere_iff_step _ _).1 h3).1
          have t1 := (everywhere_ok_array ha.1).1 h1
          cases hl : vs1.getLast? with
          | none => exact absurd (List.getLast?_eq_none_iff.1 hl) t1.1
          | some l =>
            obtain ⟨k1, e1, rfl⟩ := t1.2.1 l (List.mem_of_getLast? hl)
            rw [mergeLast_table hl]
            show (mergeValue [] (.table k1 e1) (.table k2 e2)).2 = []
            obtain ⟨vs, rfl⟩ := List.getLast?_eq_some_iff.1 hl
            have c1 : child (.array a1 (vs ++ [.table k1 e1])) (.index vs.length) = some (.table k1 e1) :=
              getElem?_concat_last _ _
            refine ih (.table k2 e2) (by rw [DValue.array.sizeOf_spec, List.cons.sizeOf_spec] at hsz; omega) [] (.table k1 e1) (everywhere_child h1 c1)
              (everywhere_child (s := .index 0) h2 rfl) (everywhere_child (s := .index 0) h3 rfl)
              (fun p k hk => hr (.index 0 :: p) k hk) (fun p kd hk => ?_)
            have := h (.index 0 :: p) kd hk
            have hlen : (vs ++ [DValue.table k1 e1]).length - 1 + 0 = vs.length := by simp
            rw [embed, if_pos rfl, hlen] at this
            simp only [List.getElem?_cons_zero, List.getLast?_concat] at this
            rw [kindAt_cons c1] at this
            exact this
        · rw [if_neg hp]
      | _ => obtain ⟨k, h0⟩ := h0; cases h0

/-- A merge without errors: the kinds fit at every place of the second tree. -/
theorem merge_accepts (v2 : DValue σ) (key : DKey) (v1 : DValue σ) (h1 : Everywhere LocalOk v1)
    (h2 : Everywhere LocalOk v2) (h3 : Everywhere SingleOk v2)
    (hr : ∀ p k, kindAt v2 p = some k → k ≠ .table .root)
    (h : ∀ p k2, kindAt v2 p = some k2 → Fits (kindAt v1 (embed (some v1) v2 p)) k2) : (mergeValue key v1 v2).2 = [] :=
  merge_accepts_lt (sizeOf v2 + 1) v2 (by omega) key v1 h1 h2 h3 hr h

/-! ### key-values -/

theorem kvNest_kinds (v : DValue σ) (ks : List DKey) : ∀ (p : Path) (k : DKind σ), ks ≠ [] → kindAt (kvNest v ks) p = some k →
    keyPath ks <+: p ∨ (p <+: keyPath ks ∧ p ≠ keyPath ks ∧ (k = .table .parentKey ∨ k = .table .keyValue)) := by
  induction ks with
  | nil => intro p k h _; exact absurd rfl h
  | cons key ks ih =>
    intro p k _ h
    cases p with
    | nil =>
      right
      refine ⟨List.nil_prefix, by simp [keyPath], ?_⟩
      obtain ⟨kd, e, hk, hd⟩ := kvNest_table v (key :: ks)
      rw [hk] at h; cases h
      rcases hd with rfl | rfl
      · exact Or.inl rfl
      · exact Or.inr rfl
    | cons s p =>
      cases ks with
      | nil =>
        rw [kvNest, kindAt_single_key _ _ _ _ _ (by simp)] at h
        obtain ⟨r, he, h⟩ := h
        rw [he]
        left
        exact ⟨r, rfl⟩
      | cons key' ks =>
        have h' : kindAt (.table .parentKey [(key, kvNest v (key' :: ks))]) (s :: p) = some k := h
        rw [kindAt_single_key _ _ _ _ _ (by simp)] at h'
        obtain ⟨r, he, h'⟩ := h'
        injection he with e1 e2
        subst e1; subst e2
        rcases ih p k (by simp) h' with h | ⟨h, hne, hk⟩
        · left
          exact (List.cons_prefix_cons).2 ⟨rfl, h⟩
        · right
          refine ⟨(List.cons_prefix_cons).2 ⟨rfl, h⟩, fun he => hne ?_, hk⟩
          injection he

/-- What is in a table after the key-values with the keys `done`. -/
def Filled (t : DValue σ) (done : List (List DKey)) : Prop :=
  ∀ p k, p ≠ [] → kindAt t p = some k → (∃ ks ∈ done, keyPath ks <+: p) ∨
    ∃ ks ∈ done, p <+: keyPath ks ∧ p ≠ keyPath ks ∧ (k = .table .parentKey ∨ k = .table .keyValue)

theorem keyPath_prefix {a b : List DKey} : keyPath a <+: keyPath b ↔ a <+: b := by
  unfold keyPath
  constructor
  · intro h
    have := h.map (fun s => match s with | Step.key k => k | .index _ => [])
    simpa [List.map_map, Function.comp_def] using this
  · exact fun h => h.map _

theorem merge_kv_accepts {t o : DTable σ} {nodes} {done : List (List DKey)} {v : DValue σ} {ks : List DKey} (ht : BodyOk t)
    (ho : KvSpec o nodes) (hf : Filled t.value done) (hks : ks ≠ []) (he : o.value = kvNest v ks)
    (ha : ∀ d ∈ done, ¬ d <+: ks ∧ ¬ ks <+: d) : (t.merge o).2 = [] ∧ Filled (t.merge o).1.value (done ++ [ks]) := by
  have hacc : (t.merge o).2 = [] := by
    rw [(DTable.merge_value t o).2]
    refine merge_accepts _ _ _ ht.ok ho.ok (single_of_plain ho.plain) (fun p k hk => kv_kind_not_root ho hk) ?_
    intro p k2 hk
    rw [embed_plain _ _ ho.plain]
    by_cases hp : p = []
    · subst hp
      right
      cases hk
      have hkd := ho.kind
      have h0 : ∃ k, mergedKind (.table t.kind : DKind σ) (.table o.kind) = some k := by
        rcases ht.kind with h | h <;> rcases hkd with h' | h' <;> rw [h, h'] <;> exact ⟨_, rfl⟩
      obtain ⟨k, h0⟩ := h0
      exact ⟨_, k, rfl, h0⟩
    · cases hk1 : kindAt t.value p with
      | none => exact Or.inl rfl
      | some k1 =>
        rw [he] at hk
        right
        have hcmp : ∀ d ∈ done, ∀ q, keyPath d <+: q → keyPath ks <+: q → False := by
          intro d hd q h1 h2
          rcases List.prefix_or_prefix_of_prefix h1 h2 with h | h
          · exact (ha d hd).1 (keyPath_prefix.1 h)
          · exact (ha d hd).2 (keyPath_prefix.1 h)
        rcases hf p k1 hp hk1 with ⟨d, hd, hpre⟩ | ⟨d, hd, hpre, hne, hk1'⟩
        · exfalso
          rcases kvNest_kinds v ks p k2 hks hk with h | ⟨h, -, -⟩
          · exact hcmp d hd p hpre h
          · exact (ha d hd).1 (keyPath_prefix.1 (hpre.trans h))
        · rcases kvNest_kinds v ks p k2 hks hk with h | ⟨h, -, hk2'⟩
          · exact absurd (keyPath_prefix.1 (h.trans hpre)) (ha d hd).2
          · rcases hk1' with rfl | rfl <;> rcases hk2' with rfl | rfl <;> exact ⟨_, _, rfl, rfl⟩
  refine ⟨hacc, ?_⟩
  intro p k hp hk
  obtain ⟨hn, hs⟩ := body_merge ht ho hacc p
  have old : ∀ k1, kindAt t.value p = some k1 → (k = k1 ∨ (k1 = .table .parentKey ∨ k1 = .table .keyValue) →
      (k = .table .parentKey ∨ k = .table .keyValue)) → (∃ ks ∈ done ++ [ks], keyPath ks <+: p) ∨
      ∃ ks ∈ done ++ [ks], p <+: keyPath ks ∧ p ≠ keyPath ks ∧ (k = .table .parentKey ∨ k = .table .keyValue) := by
    intro k1 h1 hkk
    rcases hf p k1 hp h1 with ⟨d, hd, hpre⟩ | ⟨d, hd, hpre, hne, hk1'⟩
    · exact Or.inl ⟨d, List.mem_append_left _ hd, hpre⟩
    · exact Or.inr ⟨d, List.mem_append_left _ hd, hpre, hne, hkk (Or.inr hk1')⟩
  cases hk2 : kindAt o.value p with
  | none =>
    rw [hn hk2] at hk
    rcases hf p k hp hk with ⟨d, hd, hpre⟩ | ⟨d, hd, hpre, hne, hk1'⟩
    · exact Or.inl ⟨d, List.mem_append_left _ hd, hpre⟩
    · exact Or.inr ⟨d, List.mem_append_left _ hd, hpre, hne, hk1'⟩
  | some k2 =>
    have hk2' := hk2
    rw [he] at hk2'
    have hm : ks ∈ done ++ [ks] := List.mem_append_right _ List.mem_cons_self
    rcases hs k2 hk2 with ⟨h3, h4⟩ | ⟨k1, k', h3, h4, h5⟩
    · rw [h4] at hk; cases hk
      rcases kvNest_kinds v ks p k hks hk2' with h | ⟨h, hne, hk'⟩
      · exact Or.inl ⟨ks, hm, h⟩
      · exact Or.inr ⟨ks, hm, h, hne, hk'⟩
    · rw [h5] at hk; cases hk
      rcases hf p k1 hp h3 with ⟨d, hd, hpre⟩ | ⟨d, hd, hpre, hne, hk1'⟩
      · exact Or.inl ⟨d, List.mem_append_left _ hd, hpre⟩
      · rcases kvNest_kinds v ks p k2 hks hk2' with h | ⟨h, hne', hk2''⟩
        · exact Or.inl ⟨ks, hm, h⟩
        · refine Or.inr ⟨ks, hm, h, hne', ?_⟩
          rcases hk1' with rfl | rfl <;> rcases hk2'' with rfl | rfl <;> cases h4 <;> simp [kindAfter]

theorem kvs_ok_of_valid_tail {kv : AstKeyValue σ} {rest : List (AstKeyValue σ)} (h : KeysApart (kv :: rest)) :
    KeysApart rest := by
  unfold KeysApart kvAssigns at h ⊢
  rw [List.filterMap_cons] at h
  split at h
  · exact h
  · exact (List.pairwise_cons.1 h).2

mutual
/-- A valid value is converted without errors. -/
theorem value_accepts (v : AstValue σ) (h : ValidValue v) : v.tree.2 = [] := by
  match v with
  | .scalar s => rw [AstValue.tree]
  | .bad => rw [ValidValue] at h; exact h.elim
  | .array items =>
    rw [ValidValue] at h
    rw [AstValue.tree]
    exact items_accept items h
  | .inlineTable kvs =>
    rw [ValidValue] at h
    rw [AstValue.tree]
    exact (kvs_accept kvs ⟨.table, []⟩ [] (empty_bodyOk (Or.inl rfl)) (by
      intro p k hp hk
      cases p with
      | nil => exact absurd rfl hp
      | cons s p => cases s <;> cases hk) h.1 h.2 (by simp)).1
theorem items_accept (items : List (AstItem σ)) (h : ValidItems items) : (arrayTrees items).2 = [] := by
  match items with
  | [] => rw [arrayTrees]
  | item :: rest =>
    rw [ValidItems] at h
    rw [arrayTrees]
    simp only [item_accepts item h.1, items_accept rest h.2, List.append_nil]
theorem item_accepts (item : AstItem σ) (h : ValidItem item) : item.tree.2 = [] := by
  match item with
  | .value v => rw [ValidItem] at h; rw [AstItem.tree]; exact value_accepts v h
  | .keyValue kv => rw [ValidItem] at h; exact h.elim
theorem kv_accepts (kv : AstKeyValue σ) (h : ValidKv kv) :
    kv.tree.2 = [] ∧ ∃ ks v, kv = .mk (some ks) (some v) ∧ ks ≠ [] := by
  match kv with
  | .mk none _ => rw [ValidKv] at h; exact h.elim; simp
  | .mk (some ks) none => rw [ValidKv] at h; exact h.elim; simp
  | .mk (some ks) (some v) =>
    rw [ValidKv] at h
    refine ⟨?_, ks, v, rfl, h.1⟩
    rw [AstKeyValue.tree]
    simp only [(keyValueTable_spec ks v.tree.1).1, value_accepts v h.2, List.append_nil]
/-- Valid key-values are merged without errors. -/
theorem kvs_accept (kvs : List (AstKeyValue σ)) (t : DTable σ) (done : List (List DKey)) (ht : BodyOk t)
    (hf : Filled t.value done) (h : ValidKvs kvs) (ha : KeysApart kvs)
    (hd : ∀ d ∈ done, ∀ a ∈ kvAssigns kvs, ¬ d <+: a.1 ∧ ¬ a.1 <+: d) :
    (mergeKeyValues t kvs).2 = [] ∧ Filled (mergeKeyValues t kvs).1.value (done ++ (kvAssigns kvs).map (·.1)) := by
  match kvs with
  | [] =>
    rw [mergeKeyValues]
    refine ⟨rfl, ?_⟩
    show Filled t.value (done ++ [])
    rw [List.append_nil]; exact hf
  | kv :: rest =>
    rw [ValidKvs] at h
    obtain ⟨h1, ks, v, hkv, hks⟩ := kv_accepts kv h.1
    have hs := kv_tree_spec kv h1
    have hka : kvAssigns (kv :: rest) = (ks, v) :: kvAssigns rest := by rw [hkv]; rfl
    have hnest : kv.tree.1.value = kvNest v.tree.1 ks := by rw [hkv]; exact kv_tree_nest
    obtain ⟨m1, m2⟩ := merge_kv_accepts ht hs hf hks hnest (fun d hdd => hd d hdd (ks, v) (by rw [hka]; exact List.mem_cons_self))
    have hap := ha
    unfold KeysApart at hap
    rw [hka, List.pairwise_cons] at hap
    have := kvs_accept rest (t.merge kv.tree.1).1 (done ++ [ks]) (merge_kv_step ht hs m1).1 m2 h.2 (kvs_ok_of_valid_tail ha)
      (fun d hdd a haa => by
        rcases List.mem_append.1 hdd with hdd | hdd
        · exact hd d hdd a (by rw [hka]; exact List.mem_cons_of_mem _ haa)
        · rw [List.mem_singleton] at hdd; subst hdd
          exact hap.1 a haa)
    rw [mergeKeyValues, hka]
    refine ⟨?_, ?_⟩
    · simp only [h1, m1, this.1, List.append_nil]
    · rw [List.map_cons]
      have h2 := this.2
      rw [List.append_assoc] at h2
      exact h2
end

end Tombi
