import Verif.Proofs.KeysOrder4

/-! The order of the groups of a table, and of the first keys of the result. -/
namespace Tombi
open Spec

variable {σ S T α : Type}

theorem kindOrder_named {gs : List (GroupKind × KeysOrder)} {kind : GroupKind} (h : gs.any (fun g => g.1 == kind) = true) :
    kindOrder gs kind = orderOf gs kind := by
  unfold kindOrder orderOf
  cases hf : gs.find? (fun g => g.1 == kind) with
  | some g => rfl
  | none =>
    rw [List.find?_eq_none] at hf
    obtain ⟨g, hg, hk⟩ := List.any_eq_true.1 h
    exact absurd hk (hf g hg)

theorem kindOrder_unnamed {gs : List (GroupKind × KeysOrder)} {kind : GroupKind} (h : gs.any (fun g => g.1 == kind) = false) :
    kindOrder gs kind = if kind = .additionalKeys then fallbackOrder gs else none := by
  unfold kindOrder
  have hf : gs.find? (fun g => g.1 == kind) = none := by
    rw [List.find?_eq_none]
    intro g hg hk
    rw [List.any_eq_false] at h
    exact h g hg hk
  rw [hf]
  cases kind with
  | additionalKeys =>
    unfold fallbackOrder
    rw [if_pos rfl, if_neg (by rw [h]; simp)]
    cases gs with
    | nil => rfl
    | cons g gs => obtain ⟨a, o⟩ := g; cases o <;> rfl
  | keys => rfl
  | patternKeys => rfl

theorem isSpecified_iff (gs : List (GroupKind × KeysOrder)) (kind : GroupKind) :
    isSpecified gs kind = (kindOrder gs kind).isSome := by
  unfold isSpecified
  by_cases h : gs.any (fun g => g.1 == kind) = true
  · rw [h, kindOrder_named h]
    unfold orderOf
    obtain ⟨g, hg, hk⟩ := List.any_eq_true.1 h
    have := List.find?_isSome (p := fun g => g.1 == kind) (xs := gs) |>.2 ⟨g, hg, hk⟩
    simp only [Bool.true_or, Option.isSome_map]
    exact this.symm
  · have h : gs.any (fun g => g.1 == kind) = false := Bool.eq_false_iff.2 h
    rw [h, kindOrder_unnamed h]
    cases kind <;> simp

theorem sortTargets_mem {l : List (Accessor × α)} {o : KeysOrder} {ps : Option (List Accessor)} {x : Accessor × α} :
    x ∈ sortTargets l o ps ↔ x ∈ l := (sortTargets_perm l o ps).mem_iff

/-- The keys that are moved are in order. -/
theorem sortSpecified_pairwise (table : TableView S) (gs : List (GroupKind × KeysOrder)) (l : List (Accessor × α))
    (hl : ∀ x ∈ l, x.1.isKey = true) :
    (sortSpecified table gs l).Pairwise fun x y =>
      (keyKind table x.1 = keyKind table y.1 ∧
        ∃ o, kindOrder gs (keyKind table x.1) = some o ∧ OrderLe table.properties o x.1 y.1) ∨
      kindRank gs (keyKind table x.1) < kindRank gs (keyKind table y.1) := by
  have hnamed : ∀ x ∈ sortGroups table.properties (keyKind table) gs l, gs.any (fun g => g.1 == keyKind table x.1) = true := by
    intro x hx
    exact (List.mem_filter.1 ((sortGroups_perm _ _ _ _).mem_iff.1 hx)).2
  have hgroups : (sortGroups table.properties (keyKind table) gs l).Pairwise fun x y =>
      (keyKind table x.1 = keyKind table y.1 ∧
        ∃ o, kindOrder gs (keyKind table x.1) = some o ∧ OrderLe table.properties o x.1 y.1) ∨
      kindRank gs (keyKind table x.1) < kindRank gs (keyKind table y.1) := by
    refine (sortGroups_pairwise table.properties (keyKind table) gs l hl).imp_of_mem fun {x y} hx hy h => ?_
    rcases h with ⟨h1, o, h2, h3⟩ | h
    · exact Or.inl ⟨h1, o, by rw [kindOrder_named (hnamed x hx)]; exact h2, h3⟩
    · right
      unfold kindRank
      rw [if_pos (hnamed x hx), if_pos (hnamed y hy)]
      omega
  unfold sortSpecified
  cases hf : fallbackOrder gs with
  | none => exact hgroups
  | some o =>
    simp only []
    have hno : gs.any (fun g => g.1 == GroupKind.additionalKeys) = false := by
      cases hc : gs.any (fun g => g.1 == GroupKind.additionalKeys) with
      | false => rfl
      | true => unfold fallbackOrder at hf; rw [if_pos hc] at hf; cases hf
    have hko : kindOrder gs .additionalKeys = some o := by rw [kindOrder_unnamed hno, if_pos rfl, hf]
    have hkind : ∀ x ∈ sortTargets (l.filter fun t => keyKind table t.1 == .additionalKeys) o (some table.properties),
        keyKind table x.1 = .additionalKeys := by
      intro x hx
      have := (List.mem_filter.1 (sortTargets_mem.1 hx)).2
      rwa [beq_iff_eq] at this
    have hadd : (sortTargets (l.filter fun t => keyKind table t.1 == .additionalKeys) o (some table.properties)).Pairwise fun x y =>
        (keyKind table x.1 = keyKind table y.1 ∧
          ∃ o, kindOrder gs (keyKind table x.1) = some o ∧ OrderLe table.properties o x.1 y.1) ∨
        kindRank gs (keyKind table x.1) < kindRank gs (keyKind table y.1) := by
      refine (sortTargets_pairwise _ o table.properties _ (Or.inl rfl)
        (fun x hx => hl x (List.mem_filter.1 hx).1)).imp_of_mem fun {x y} hx hy h => ?_
      rw [hkind x hx, hkind y hy]
      exact Or.inl ⟨rfl, o, hko, h⟩
    have hrank : ∀ x ∈ sortGroups table.properties (keyKind table) gs l,
        1 ≤ kindRank gs (keyKind table x.1) ∧ kindRank gs (keyKind table x.1) ≤ gs.length := by
      intro x hx
      have hn := hnamed x hx
      unfold kindRank
      rw [if_pos hn]
      have hlt : gs.findIdx (fun g => g.1 == keyKind table x.1) < gs.length := by
        rw [List.findIdx_lt_length]
        obtain ⟨g, hg, hk⟩ := List.any_eq_true.1 hn
        exact ⟨g, hg, hk⟩
      omega
    have hrankAdd : kindRank gs .additionalKeys = if o = .descending then gs.length + 1 else 0 := by
      unfold kindRank
      rw [if_neg (by rw [hno]; simp), hko]
      simp only [Option.some.injEq]
    split
    · refine List.pairwise_append.2 ⟨hgroups, hadd, fun x hx y hy => Or.inr ?_⟩
      rw [hkind y hy, hrankAdd, if_pos rfl]
      have := hrank x hx
      omega
    · rename_i hnd
      refine List.pairwise_append.2 ⟨hadd, hgroups, fun x hx y hy => Or.inr ?_⟩
      rw [hkind x hx, hrankAdd, if_neg (by intro h; exact hnd h)]
      have := hrank y hy
      omega

/-- The first keys of the result are in the order of the groups. -/
theorem getSorted_first (w : SchemaWorld S σ) (path : T → List Accessor) {fuel : Nat} {kind : TableKind} {entries : DEntries σ}
    {acc : List Accessor} {targets : List (Target T)} {schema : Option S} {order : Option KeysOrder} {rs : List T}
    (hv : ∀ schemas o, schema.map (w.view · acc) ≠ some (.combined schemas o))
    (h : getSorted w (fuel + 1) (.table kind entries) acc targets schema order = some rs)
    (hp : ∀ t ∈ targets, path t.2 = t.1) (hk : ∀ t ∈ targets, ∀ a ∈ t.1, a.isKey = true) (R : Accessor → Accessor → Prop)
    (hR : (orderedGroups w acc schema ((schema.map (w.view · acc)).bind SchemaView.asTable) order
      (groupTargets [] targets)).Pairwise fun x y => R x.1 y.1) :
    rs.Pairwise fun x y => path x = [] ∨ ∃ a p b q, path x = a :: p ∧ path y = b :: q ∧ (a = b ∨ R a b) := by
  have hgp : ∀ g ∈ groupTargets [] targets, ∀ t ∈ g.2, path t.2 = g.1 :: t.1 := by
    intro g hg t ht
    rw [group_items targets hg] at ht
    obtain ⟨as, t⟩ := t
    exact hp _ (mem_tailsOf.1 ht)
  have hkeys : (groupTargets [] targets).all (·.1.isKey) = true := by
    rw [List.all_eq_true]
    intro g hg
    obtain ⟨as, t, hm⟩ := (group_keys targets g.1).1 (List.mem_map.2 ⟨g, hg, rfl⟩)
    exact hk _ hm g.1 List.mem_cons_self
  have hempty : ∀ x ∈ emptyTargets targets, path x = [] := by
    intro x hx
    unfold emptyTargets at hx
    obtain ⟨⟨p, t⟩, ht, he⟩ := List.mem_filterMap.1 hx
    simp only at he
    split at he
    · rename_i hemp
      injection he with he; subst he
      rw [hp _ ht]
      exact List.isEmpty_iff.1 hemp
    · cases he
  rw [getSorted] at h
  split at h
  · rename_i schemas ko hview
    exact absurd hview (hv schemas ko)
  · simp only [] at h
    rw [if_pos hkeys] at h
    generalize (schema.map (w.view · acc)).bind SchemaView.asTable = table at h hR
    obtain ⟨xs, hxs, hrs⟩ := Option.map_eq_some_iff.1 h
    subst hrs
    obtain ⟨h1, h2⟩ := collect_map _ _ _ hxs
    have hperm := orderedGroups_perm w acc schema table order (groupTargets [] targets)
    have hpath : ∀ g ∈ orderedGroups w acc schema table order (groupTargets [] targets), ∀ y ∈ (getSorted w fuel
        (groupContext (.table kind entries) entries table g.1).1 (acc ++ [g.1]) g.2
        (groupContext (.table kind entries) entries table g.1).2 order).getD [], ∃ p, path y = g.1 :: p := by
      intro g hg y hy
      obtain ⟨ys, hys⟩ := h2 g hg
      rw [hys] at hy
      obtain ⟨p, hpm⟩ := getSorted_mem w hys hy
      exact ⟨p, hgp g (hperm.mem_iff.1 hg) _ hpm⟩
    refine List.pairwise_append.2 ⟨?_, ?_, fun x hx y hy => Or.inl (hempty x hx)⟩
    · exact List.pairwise_of_forall_mem_list fun x hx y hy => Or.inl (hempty x hx)
    · rw [h1, List.pairwise_flatMap]
      refine ⟨fun g hg => ?_, hR.imp_of_mem fun {g g'} hg hg' hr x hx y hy => ?_⟩
      · refine List.pairwise_of_forall_mem_list fun x hx y hy => Or.inr ?_
        obtain ⟨p, hp1⟩ := hpath g hg x hx
        obtain ⟨q, hq1⟩ := hpath g hg y hy
        exact ⟨_, _, _, _, hp1, hq1, Or.inl rfl⟩
      · obtain ⟨p, hp1⟩ := hpath g hg x hx
        obtain ⟨q, hq1⟩ := hpath g' hg' y hy
        exact Or.inr ⟨_, _, _, _, hp1, hq1, Or.inr hr⟩

end Tombi
