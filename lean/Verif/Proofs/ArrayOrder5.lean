import Verif.Proofs.ArrayOrder4
import Verif.Proofs.KeysOrder5

/-! The orders of array values: what they keep, and that they sort. -/
namespace Tombi
open Spec VersionSort

variable {C : Type}

/-- The same values, with their commas; a missing comma may be made. -/
structure SameValues (values sorted : List (Nat × Option (CommaRef C))) : Prop where
  perm : (sorted.map (·.1)).Perm (values.map (·.1))
  commas : ∀ v ∈ sorted, ∃ w ∈ values, w.1 = v.1 ∧ (v.2 = w.2 ∨ w.2 = none ∧ v.2 = some (none, makeComma))

theorem SameValues.refl (values : List (Nat × Option (CommaRef C))) : SameValues values values :=
  ⟨.refl _, fun v hv => ⟨v, hv, rfl, .inl rfl⟩⟩

theorem SameValues.reordered {items : List (ArrayItem C)} {sorted : List (Nat × Option (CommaRef C))}
    (h : SameValues (sourceValues items) sorted) : Reordered items sorted := by
  refine ⟨by rw [← sourceValues_ids]; exact h.perm, fun v hv item hi => ?_⟩
  obtain ⟨w, hw, h1, h2⟩ := h.commas v hv
  obtain ⟨item', h3, h4⟩ := sourceValues_mem items w hw
  rw [h1, hi] at h3
  obtain rfl := Option.some.inj h3
  rcases h2 with h2 | ⟨h2, h5⟩
  · left; rw [h2, h4, h1]
  · right
    refine ⟨?_, h5⟩
    rw [h4] at h2
    cases hc : item.comma with
    | none => rfl
    | some c => rw [hc] at h2; cases h2

theorem sortableValues_spec {key : Nat → Option SortKey} {values : List (Nat × Option (CommaRef C))}
    {vs : List (SortKey × Nat × CommaRef C)} (h : sortableValues key values = some vs) :
    (∃ k0, ∀ v ∈ vs, SortKey.sameType k0 v.1 = true) ∧ vs.map (·.2.1) = values.map (·.1) ∧
      ∀ v ∈ vs, ∃ w ∈ values, w.1 = v.2.1 ∧ v.2.2 = w.2.getD (none, makeComma) ∧ key w.1 = some v.1 := by
  unfold sortableValues at h
  cases values with
  | nil => cases h
  | cons w0 ws =>
    simp only [] at h
    cases hk : key w0.1 with
    | none => rw [hk] at h; cases h
    | some k0 =>
      rw [hk] at h
      simp only [] at h
      split at h
      · rename_i hall
        rw [List.all_eq_true] at hall
        have hall' : ∀ w ∈ w0 :: ws, ∃ k, key w.1 = some k ∧ k0.sameType k = true := by
          intro w hw
          have := hall w hw
          cases hkw : key w.1 with
          | none => rw [hkw] at this; cases this
          | some k => rw [hkw] at this; exact ⟨k, rfl, this⟩
        have hvs := (Option.some.inj h).symm
        subst hvs
        clear h hall hk
        have hmem : ∀ v ∈ (w0 :: ws).filterMap (fun w => (key w.1).map fun k => (k, w.1, w.2.getD (none, makeComma))),
            ∃ w ∈ w0 :: ws, w.1 = v.2.1 ∧ v.2.2 = w.2.getD (none, makeComma) ∧ key w.1 = some v.1 := by
          intro v hv
          obtain ⟨w, hw, h1⟩ := List.mem_filterMap.1 hv
          obtain ⟨k, h2, rfl⟩ := Option.map_eq_some_iff.1 h1
          exact ⟨w, hw, rfl, rfl, h2⟩
        refine ⟨⟨k0, fun v hv => ?_⟩, ?_, hmem⟩
        · obtain ⟨w, hw, _, _, h3⟩ := hmem v hv
          obtain ⟨k, h4, h5⟩ := hall' w hw
          rw [h3] at h4
          rw [Option.some.inj h4]; exact h5
        · clear hmem
          generalize w0 :: ws = l at hall'
          induction l with
          | nil => rfl
          | cons w l ih =>
            obtain ⟨k, h1, _⟩ := hall' w List.mem_cons_self
            rw [List.filterMap_cons, h1]
            simp only [Option.map_some, List.map_cons]
            rw [ih fun w hw => hall' w (List.mem_cons_of_mem _ hw)]
      · cases h

theorem sortValues_perm (vs : List (SortKey × Nat × CommaRef C)) (order : ValuesOrder) :
    (sortValues vs order).Perm (vs.map fun v => (v.2.1, some v.2.2)) := by
  unfold sortValues
  apply List.Perm.map
  cases order with
  | ascending => exact stableSort_perm _ _
  | descending => exact (List.reverse_perm _).trans (stableSort_perm _ _)
  | versionSort => exact stableSort_perm _ _

theorem sortAll_same {key : Nat → Option SortKey} {order : ValuesOrder} {values sorted : List (Nat × Option (CommaRef C))}
    (h : sortAll key order values = some sorted) : SameValues values sorted := by
  unfold sortAll at h
  obtain ⟨vs, h1, rfl⟩ := Option.map_eq_some_iff.1 h
  obtain ⟨_, h2, h3⟩ := sortableValues_spec h1
  refine ⟨?_, fun v hv => ?_⟩
  · rw [← h2]
    have := (sortValues_perm vs order).map (·.1)
    rw [List.map_map] at this
    exact this
  · obtain ⟨u, hu, rfl⟩ := List.mem_map.1 ((sortValues_perm vs order).mem_iff.1 hv)
    obtain ⟨w, hw, h4, h5, _⟩ := h3 u hu
    refine ⟨w, hw, h4, ?_⟩
    simp only []
    rw [h5]
    cases w.2 with
    | none => exact .inr ⟨rfl, rfl⟩
    | some r => exact .inl rfl

/-- One group of `sortByGroups`. -/
def sortOne (order : ValuesOrder) (key : Nat → Option SortKey) (group : List (Nat × Option (CommaRef C))) :
    List (Nat × Option (CommaRef C)) :=
  match sortableValues key group with
  | some vs => sortValues vs order
  | none => group

theorem sortOne_same (order : ValuesOrder) (key : Nat → Option SortKey) (group : List (Nat × Option (CommaRef C))) :
    SameValues group (sortOne order key group) := by
  unfold sortOne
  split
  · rename_i vs h
    exact sortAll_same (key := key) (order := order) (by unfold sortAll; rw [h]; rfl)
  · exact .refl _

theorem sortByGroups_cons (order : ValuesOrder) (valid : Nat → Bool) (key : Nat → Option SortKey)
    (rest : List (ValuesOrder × (Nat → Bool) × (Nat → Option SortKey))) (values : List (Nat × Option (CommaRef C))) :
    sortByGroups ((order, valid, key) :: rest) values =
      sortOne order key (values.filter fun v => valid v.1) ++ sortByGroups rest (values.filter fun v => !valid v.1) := rfl

theorem sortByGroups_same (groups : List (ValuesOrder × (Nat → Bool) × (Nat → Option SortKey)))
    (values : List (Nat × Option (CommaRef C))) : SameValues values (sortByGroups groups values) := by
  induction groups generalizing values with
  | nil => exact .refl _
  | cons g groups ih =>
    obtain ⟨order, valid, key⟩ := g
    have h1 := sortOne_same order key (values.filter fun v => valid v.1)
    have h2 := ih (values.filter fun v => !valid v.1)
    rw [sortByGroups_cons]
    refine ⟨?_, fun v hv => ?_⟩
    · rw [List.map_append]
      refine (h1.perm.append h2.perm).trans ?_
      rw [← List.map_append]
      exact (filter_split_perm (fun v : Nat × Option (CommaRef C) => valid v.1) values).map _
    · rcases List.mem_append.1 hv with hv | hv
      · obtain ⟨w, hw, h⟩ := h1.commas v hv
        exact ⟨w, (List.mem_filter.1 hw).1, h⟩
      · obtain ⟨w, hw, h⟩ := h2.commas v hv
        exact ⟨w, (List.mem_filter.1 hw).1, h⟩

/-! ### Sorted -/

theorem SortKey.sameType_cases {k0 a b : SortKey} (ha : k0.sameType a = true) (hb : k0.sameType b = true) :
    (∃ x y, a = .boolean x ∧ b = .boolean y) ∨ (∃ x y, a = .integer x ∧ b = .integer y) ∨
    (∃ x y, a = .string x ∧ b = .string y) ∨ (∃ x y, a = .offsetDateTime x ∧ b = .offsetDateTime y) ∨
    (∃ x y, a = .localDateTime x ∧ b = .localDateTime y) ∨ (∃ x y, a = .localDate x ∧ b = .localDate y) ∨
    (∃ x y, a = .localTime x ∧ b = .localTime y) := by
  cases k0 <;> cases a <;> first | (cases ha; done) | (cases b <;> first | (cases hb; done) | simp)

theorem keyLe_iff {k0 a b : SortKey} (ha : k0.sameType a = true) (hb : k0.sameType b = true) :
    KeyLe a b ↔ a.cmp b ≠ .gt := by
  rcases SortKey.sameType_cases ha hb with ⟨x, y, rfl, rfl⟩ | ⟨x, y, rfl, rfl⟩ | ⟨x, y, rfl, rfl⟩ | ⟨x, y, rfl, rfl⟩ |
    ⟨x, y, rfl, rfl⟩ | ⟨x, y, rfl, rfl⟩ | ⟨x, y, rfl, rfl⟩
  · cases x <;> cases y <;> simp [KeyLe, SortKey.cmp] <;> decide
  · simp only [KeyLe, SortKey.cmp]
    rw [Int.compare_ne_gt]
  all_goals exact textLe_iff x y

theorem keyLe_total {k0 a b : SortKey} (ha : k0.sameType a = true) (hb : k0.sameType b = true) : KeyLe a b ∨ KeyLe b a := by
  rcases SortKey.sameType_cases ha hb with ⟨x, y, rfl, rfl⟩ | ⟨x, y, rfl, rfl⟩ | ⟨x, y, rfl, rfl⟩ | ⟨x, y, rfl, rfl⟩ |
    ⟨x, y, rfl, rfl⟩ | ⟨x, y, rfl, rfl⟩ | ⟨x, y, rfl, rfl⟩
  · cases x <;> cases y <;> simp [KeyLe]
  · exact Int.le_total x y
  all_goals
    simp only [KeyLe, textLe_iff]
    rw [cmpText_cmp.total.swap x y]
    cases cmpText x y <;> simp [Ordering.swap]

theorem keyLe_trans {a b c : SortKey} (h1 : KeyLe a b) (h2 : KeyLe b c) : KeyLe a c := by
  cases a <;> cases b <;> first | exact h1.elim | skip
  all_goals (cases c <;> first | exact h2.elim | skip)
  · exact fun h => h2 (h1 h)
  · exact Int.le_trans h1 h2
  all_goals
    simp only [KeyLe, textLe_iff] at *
    exact cmpText_cmp.total.trans _ _ _ h1 h2

theorem isLe_some (o : Ordering) : isLe (some o) = true ↔ o ≠ .gt := by cases o <;> decide

theorem leOn_keys {α : Type} (k0 : SortKey) :
    LeOn (fun v : SortKey × α => k0.sameType v.1 = true) (fun a b => isLe (some (a.1.cmp b.1))) := by
  refine ⟨fun a b ha hb => ?_, fun a b c ha hb hc h1 h2 => ?_⟩
  · rw [isLe_some, isLe_some, ← keyLe_iff ha hb, ← keyLe_iff hb ha]
    exact keyLe_total ha hb
  · rw [isLe_some, ← keyLe_iff ha hb] at h1
    rw [isLe_some, ← keyLe_iff hb hc] at h2
    rw [isLe_some, ← keyLe_iff ha hc]
    exact keyLe_trans h1 h2

theorem inOrder_version {k0 a b : SortKey} (ha : k0.sameType a = true) (hb : k0.sameType b = true) :
    InOrder .versionSort a b ↔ a.cmpVersion b ≠ .gt := by
  rcases SortKey.sameType_cases ha hb with ⟨x, y, rfl, rfl⟩ | ⟨x, y, rfl, rfl⟩ | ⟨x, y, rfl, rfl⟩ | ⟨x, y, rfl, rfl⟩ |
    ⟨x, y, rfl, rfl⟩ | ⟨x, y, rfl, rfl⟩ | ⟨x, y, rfl, rfl⟩
  · exact keyLe_iff ha hb
  · exact keyLe_iff ha hb
  · exact Iff.rfl
  all_goals exact keyLe_iff ha hb

theorem leOn_versions {α : Type} (k0 : SortKey) :
    LeOn (fun v : SortKey × α => k0.sameType v.1 = true) (fun a b => isLe (some (a.1.cmpVersion b.1))) := by
  have ht := versionSort_cmp.total
  refine ⟨fun a b ha hb => ?_, fun a b c ha hb hc h1 h2 => ?_⟩
  · rw [isLe_some, isLe_some, ← inOrder_version ha hb, ← inOrder_version hb ha]
    have hk := keyLe_total ha hb
    obtain ⟨a, _⟩ := a
    obtain ⟨b, _⟩ := b
    simp only [] at *
    rcases SortKey.sameType_cases ha hb with ⟨x, y, rfl, rfl⟩ | ⟨x, y, rfl, rfl⟩ | ⟨x, y, rfl, rfl⟩ | ⟨x, y, rfl, rfl⟩ |
      ⟨x, y, rfl, rfl⟩ | ⟨x, y, rfl, rfl⟩ | ⟨x, y, rfl, rfl⟩
    · exact hk
    · exact hk
    · show versionSort x y ≠ .gt ∨ versionSort y x ≠ .gt
      rw [ht.swap x y]
      cases versionSort x y <;> simp [Ordering.swap]
    all_goals exact hk
  · rw [isLe_some, ← inOrder_version ha hb] at h1
    rw [isLe_some, ← inOrder_version hb hc] at h2
    rw [isLe_some, ← inOrder_version ha hc]
    obtain ⟨a, _⟩ := a
    obtain ⟨b, _⟩ := b
    obtain ⟨c, _⟩ := c
    simp only [] at *
    cases k0 <;> cases a <;> first | (cases ha; done) | skip
    all_goals (cases b <;> first | (cases hb; done) | skip)
    all_goals (cases c <;> first | (cases hc; done) | skip)
    case string.string.string.string =>
      exact ht.trans _ _ _ h1 h2
    all_goals
      simp only [InOrder] at h1 h2 ⊢
      exact keyLe_trans h1 h2

theorem sortValues_sorted {vs : List (SortKey × Nat × CommaRef C)} {k0 : SortKey} (h0 : ∀ v ∈ vs, k0.sameType v.1 = true)
    (order : ValuesOrder) : ∃ ws : List (SortKey × Nat × CommaRef C), ws.Perm vs ∧
      sortValues vs order = ws.map (fun v => (v.2.1, some v.2.2)) ∧ ws.Pairwise fun v w => InOrder order v.1 w.1 := by
  have hcon : ∀ {ws : List (SortKey × Nat × CommaRef C)} {R Q : SortKey × Nat × CommaRef C → SortKey × Nat × CommaRef C → Prop},
      ws.Perm vs → ws.Pairwise R → (∀ v w, k0.sameType v.1 = true → k0.sameType w.1 = true → R v w → Q v w) → ws.Pairwise Q := by
    intro ws R Q hp hR himp
    refine (List.Pairwise.and_mem.1 hR).imp ?_
    rintro v w ⟨hv, hw, hr⟩
    exact himp v w (h0 v (hp.mem_iff.1 hv)) (h0 w (hp.mem_iff.1 hw)) hr
  cases order with
  | ascending =>
    refine ⟨_, stableSort_perm _ _, rfl, ?_⟩
    refine hcon (stableSort_perm _ _) (stableSort_pairwise (leOn_keys k0) h0) fun v w hv hw h => ?_
    rw [isLe_some, ← keyLe_iff hv hw] at h
    exact h
  | descending =>
    refine ⟨_, (List.reverse_perm _).trans (stableSort_perm _ _), rfl, ?_⟩
    rw [List.pairwise_reverse]
    refine hcon (stableSort_perm _ _) (stableSort_pairwise (leOn_keys k0) h0) fun v w hv hw h => ?_
    rw [isLe_some, ← keyLe_iff hv hw] at h
    exact h
  | versionSort =>
    refine ⟨_, stableSort_perm _ _, rfl, ?_⟩
    refine hcon (stableSort_perm _ _) (stableSort_pairwise (leOn_versions k0) h0) fun v w hv hw h => ?_
    rw [isLe_some, ← inOrder_version hv hw] at h
    exact h

/-- In the result, keys are in order. -/
theorem sortAll_sorted {key : Nat → Option SortKey} {order : ValuesOrder} {values sorted : List (Nat × Option (CommaRef C))}
    (h : sortAll key order values = some sorted) :
    sorted.Pairwise fun v w => ∃ a b, key v.1 = some a ∧ key w.1 = some b ∧ InOrder order a b := by
  unfold sortAll at h
  obtain ⟨vs, h1, rfl⟩ := Option.map_eq_some_iff.1 h
  obtain ⟨⟨k0, h0⟩, _, h3⟩ := sortableValues_spec h1
  obtain ⟨ws, hp, he, hs⟩ := sortValues_sorted h0 order
  rw [he, List.pairwise_map]
  refine (List.Pairwise.and_mem.1 hs).imp ?_
  rintro v w ⟨hv, hw, hr⟩
  obtain ⟨v', _, hv1, _, hv2⟩ := h3 v (hp.mem_iff.1 hv)
  obtain ⟨w', _, hw1, _, hw2⟩ := h3 w (hp.mem_iff.1 hw)
  exact ⟨v.1, w.1, by rw [← hv1]; exact hv2, by rw [← hw1]; exact hw2, hr⟩

/-! ### Groups -/

theorem sortableValues_some {key : Nat → Option SortKey} {values : List (Nat × Option (CommaRef C))} (hne : values ≠ [])
    (h : Sortable key (values.map (·.1))) : (sortableValues key values).isSome = true := by
  obtain ⟨k0, h⟩ := h
  cases values with
  | nil => exact absurd rfl hne
  | cons v vs =>
    obtain ⟨k1, h1, h2⟩ := h v.1 (List.mem_map.2 ⟨v, List.mem_cons_self, rfl⟩)
    unfold sortableValues
    simp only []
    rw [h1]
    simp only []
    rw [if_pos]
    · rfl
    · rw [List.all_eq_true]
      intro w hw
      obtain ⟨k, h3, h4⟩ := h w.1 (List.mem_map.2 ⟨w, hw, rfl⟩)
      rw [h3]
      cases k0 <;> cases k1 <;> first | (cases h2; done) | (cases k <;> first | (cases h4; done) | rfl)

theorem sortOne_sorted {key : Nat → Option SortKey} {order : ValuesOrder} {group : List (Nat × Option (CommaRef C))}
    (h : Sortable key (group.map (·.1))) :
    (sortOne order key group).Pairwise fun v w => ∃ a b, key v.1 = some a ∧ key w.1 = some b ∧ InOrder order a b := by
  by_cases hne : group = []
  · subst hne
    exact List.Pairwise.nil
  · obtain ⟨vs, hvs⟩ := Option.isSome_iff_exists.1 (sortableValues_some hne h)
    have he : sortOne order key group = sortValues vs order := by unfold sortOne; rw [hvs]
    rw [he]
    exact sortAll_sorted (values := group) (by unfold sortAll; rw [hvs]; rfl)

theorem sortByGroups_sorted (groups : List (ValuesOrder × (Nat → Bool) × (Nat → Option SortKey)))
    (values : List (Nat × Option (CommaRef C))) :
    (sortByGroups groups values).Pairwise fun v w => groupRank groups v.1 ≤ groupRank groups w.1 ∧
      ∀ order valid key, groupRank groups v.1 = groupRank groups w.1 → groups[groupRank groups v.1]? = some (order, valid, key) →
        Sortable key ((values.map (·.1)).filter fun i => groupRank groups i == groupRank groups v.1) →
        ∃ a b, key v.1 = some a ∧ key w.1 = some b ∧ InOrder order a b := by
  induction groups generalizing values with
  | nil =>
    apply List.Pairwise.imp (R := fun _ _ => True)
    · intro v w _
      exact ⟨Nat.le_refl _, fun _ _ _ _ h => (by cases h)⟩
    · exact List.pairwise_of_forall fun _ _ => trivial
  | cons g groups ih =>
    obtain ⟨order, valid, key⟩ := g
    have hr0 : ∀ i, valid i = true → groupRank ((order, valid, key) :: groups) i = 0 := by
      intro i hi; unfold groupRank; rw [List.findIdx_cons]; simp only []; rw [hi]; rfl
    have hr1 : ∀ i, valid i = false → groupRank ((order, valid, key) :: groups) i = groupRank groups i + 1 := by
      intro i hi; unfold groupRank; rw [List.findIdx_cons]; simp only []; rw [hi]; rfl
    have hm0 : ∀ v ∈ sortOne order key (values.filter fun v => valid v.1), valid v.1 = true := by
      intro v hv
      obtain ⟨w, hw, h1, _⟩ := (sortOne_same order key _).commas v hv
      rw [← h1]; exact (List.mem_filter.1 hw).2
    have hm1 : ∀ v ∈ sortByGroups groups (values.filter fun v => !valid v.1), valid v.1 = false := by
      intro v hv
      obtain ⟨w, hw, h1, _⟩ := (sortByGroups_same groups _).commas v hv
      rw [← h1]
      have := (List.mem_filter.1 hw).2
      simpa using this
    rw [sortByGroups_cons, List.pairwise_append]
    refine ⟨?_, ?_, ?_⟩
    · -- the first group
      have hall : (sortOne order key (values.filter fun v => valid v.1)).Pairwise fun v w =>
          Sortable key ((values.filter fun v => valid v.1).map (·.1)) →
            ∃ a b, key v.1 = some a ∧ key w.1 = some b ∧ InOrder order a b := by
        by_cases hs : Sortable key ((values.filter fun v => valid v.1).map (·.1))
        · exact (sortOne_sorted hs).imp fun h _ => h
        · exact List.pairwise_of_forall fun _ _ h => absurd h hs
      refine (List.Pairwise.and_mem.1 hall).imp ?_
      rintro v w ⟨hv, hw, h⟩
      rw [hr0 _ (hm0 v hv), hr0 _ (hm0 w hw)]
      refine ⟨Nat.le_refl _, fun order' valid' key' _ hg hs => ?_⟩
      simp only [List.getElem?_cons_zero, Option.some.injEq, Prod.mk.injEq] at hg
      obtain ⟨rfl, rfl, rfl⟩ := hg
      refine h ?_
      obtain ⟨k0, hs⟩ := hs
      refine ⟨k0, fun i hi => hs i ?_⟩
      obtain ⟨u, hu, rfl⟩ := List.mem_map.1 hi
      have hu' := List.mem_filter.1 hu
      refine List.mem_filter.2 ⟨List.mem_map.2 ⟨u, hu'.1, rfl⟩, ?_⟩
      rw [hr0 _ hu'.2]; rfl
    · refine (List.Pairwise.and_mem.1 (ih (values.filter fun v => !valid v.1))).imp ?_
      rintro v w ⟨hv, hw, h1, h2⟩
      rw [hr1 _ (hm1 v hv), hr1 _ (hm1 w hw)]
      refine ⟨by omega, fun order' valid' key' he hg hs => h2 order' valid' key' (by omega) (by simpa using hg) ?_⟩
      obtain ⟨k0, hs⟩ := hs
      refine ⟨k0, fun i hi => hs i ?_⟩
      obtain ⟨hi1, hi2⟩ := List.mem_filter.1 hi
      obtain ⟨u, hu, rfl⟩ := List.mem_map.1 hi1
      have hu' := List.mem_filter.1 hu
      refine List.mem_filter.2 ⟨List.mem_map.2 ⟨u, hu'.1, rfl⟩, ?_⟩
      rw [hr1 _ (by simpa using hu'.2)]
      simpa using hi2
    · intro v hv w hw
      rw [hr0 _ (hm0 v hv), hr1 _ (hm1 w hw)]
      exact ⟨Nat.zero_le _, fun _ _ _ h => absurd h (by omega)⟩

end Tombi
