import Verif.Proofs.KeysSections
import Verif.Proofs.KeysOrder4

/-! Sorting keeps the order of the elements of arrays of tables. -/
namespace Tombi
open Spec

variable {σ S T : Type}

/-- `p` may come before `q`: not an element of an array before an earlier one, nor anything in an element before the
element itself. -/
def Before (p q : List Accessor) : Prop :=
  (∀ c i j, c ++ [.index j] <+: p → c ++ [.index i] <+: q → j ≤ i) ∧ (∀ c i, q = c ++ [.index i] → q <+: p → p = q)

theorem before_nil (q : List Accessor) : Before [] q := by
  refine ⟨fun c i j h _ => ?_, fun c i hq h => ?_⟩
  · exact absurd (List.prefix_nil.1 h) (by simp)
  · rw [List.prefix_nil.1 h] at hq; exact absurd hq.symm (by simp)

theorem before_cons {a : Accessor} {p q : List Accessor} (h : Before p q) (he : q = [] → p = []) : Before (a :: p) (a :: q) := by
  refine ⟨fun c i j h1 h2 => ?_, fun c i hq hp => ?_⟩
  · cases c with
    | nil =>
      rw [List.nil_append, List.cons_prefix_cons] at h1 h2
      have := h1.1.trans h2.1.symm
      injection this with this
      omega
    | cons b c =>
      rw [List.cons_append, List.cons_prefix_cons] at h1 h2
      exact h.1 c i j h1.2 h2.2
  · rw [List.cons_prefix_cons] at hp
    cases c with
    | nil =>
      rw [List.nil_append] at hq
      injection hq with _ hq
      rw [he hq, hq]
    | cons b c =>
      injection hq with _ hq
      rw [h.2 c i hq hp.2]

theorem before_tails {a : Accessor} {p q : List Accessor} (h : Before (a :: p) (a :: q)) : Before p q := by
  refine ⟨fun c i j h1 h2 => h.1 (a :: c) i j (List.cons_prefix_cons.2 ⟨rfl, h1⟩) (List.cons_prefix_cons.2 ⟨rfl, h2⟩),
    fun c i hq hp => ?_⟩
  have := h.2 (a :: c) i (by rw [hq]; rfl) (List.cons_prefix_cons.2 ⟨rfl, hp⟩)
  injection this

/-- The order of the first accessors. -/
def FirstLe (a b : Accessor) : Prop := ∀ i j, a = .index j → b = .index i → j ≤ i

theorem before_diff {a b : Accessor} {p q : List Accessor} (hne : a ≠ b) (h : FirstLe a b) : Before (a :: p) (b :: q) := by
  refine ⟨fun c i j h1 h2 => ?_, fun c i hq hp => ?_⟩
  · cases c with
    | nil =>
      rw [List.nil_append, List.cons_prefix_cons] at h1 h2
      exact h i j h1.1.symm h2.1.symm
    | cons x c =>
      rw [List.cons_append, List.cons_prefix_cons] at h1 h2
      exact absurd (h1.1.symm.trans h2.1) hne
  · exact absurd (List.cons_prefix_cons.1 hp).1.symm hne

theorem before_firstLe {a b : Accessor} {p q : List Accessor} (h : Before (a :: p) (b :: q)) : FirstLe a b := by
  rintro i j rfl rfl
  exact h.1 [] i j (List.cons_prefix_cons.2 ⟨rfl, List.nil_prefix⟩) (List.cons_prefix_cons.2 ⟨rfl, List.nil_prefix⟩)

theorem groups_order (R : Accessor → Accessor → Prop) (ts : List (Target T)) : ∀ (gs : List (Accessor × List (Target T))),
    (gs.map (·.1)).Pairwise R → (∀ a ∈ gs.map (·.1), ∀ t ∈ ts, ∀ b bs, t.1 = b :: bs → R a b) →
    ts.Pairwise (fun x y => ∀ a as b bs, x.1 = a :: as → y.1 = b :: bs → R a b) →
    ((groupTargets gs ts).map (·.1)).Pairwise R := by
  induction ts with
  | nil => intro gs h _ _; exact h
  | cons t ts ih =>
    intro gs h1 h2 h3
    obtain ⟨h4, h5⟩ := List.pairwise_cons.1 h3
    obtain ⟨as, t⟩ := t
    cases as with
    | nil => exact ih gs h1 (fun a ha t ht => h2 a ha t (List.mem_cons_of_mem _ ht)) h5
    | cons a as =>
      refine ih _ ?_ ?_ h5
      · rw [pushGroup_keys]
        split
        · exact h1
        · refine List.pairwise_append.2 ⟨h1, List.pairwise_singleton _ _, fun x hx y hy => ?_⟩
          rw [List.mem_singleton.1 hy]
          exact h2 x hx _ List.mem_cons_self a as rfl
      · intro x hx t' ht' b bs hb
        rw [pushGroup_keys] at hx
        have hx' : x ∈ gs.map (·.1) ∨ x = a := by
          split at hx
          · exact Or.inl hx
          · rcases List.mem_append.1 hx with h | h
            · exact Or.inl h
            · exact Or.inr (List.mem_singleton.1 h)
        rcases hx' with hx' | rfl
        · exact h2 x hx' t' (List.mem_cons_of_mem _ ht') b bs hb
        · exact h4 t' ht' x as b bs rfl hb

theorem tails_pairwise {R : List Accessor → List Accessor → Prop} {a : Accessor} {ts : List (Target T)}
    (h : ts.Pairwise fun x y => Before x.1 y.1) (hR : ∀ p q, Before (a :: p) (a :: q) → R p q) :
    (tailsOf a ts).Pairwise fun x y => R x.1 y.1 := by
  unfold tailsOf
  rw [List.pairwise_filterMap]
  refine h.imp fun {x y} hb x' hx y' hy => ?_
  obtain ⟨p, t⟩ := x
  obtain ⟨q, t'⟩ := y
  cases p with
  | nil => cases hx
  | cons b p =>
    cases q with
    | nil => cases hy
    | cons c q =>
      simp only at hx hy hb
      split at hx
      · split at hy
        · rename_i h1 h2
          subst h1 h2
          cases hx; cases hy
          exact hR _ _ hb
        · cases hy
      · cases hx

/-- Sorting keeps the elements of arrays of tables in order. -/
theorem getSorted_before (w : SchemaWorld S σ) (path : T → List Accessor) :
    ∀ (fuel : Nat) (value : DValue σ) (acc : List Accessor) (targets : List (Target T)) (schema : Option S)
      (order : Option KeysOrder) (rs : List T) (pre : List Accessor),
      getSorted w fuel value acc targets schema order = some rs → (∀ t ∈ targets, path t.2 = pre ++ t.1) →
      (targets.Pairwise fun x y => Before x.1 y.1) →
      rs.Pairwise fun x y => ∃ p q, path x = pre ++ p ∧ path y = pre ++ q ∧ Before p q ∧ (q = [] → p = []) := by
  intro fuel
  induction fuel with
  | zero => intro value acc targets schema order rs pre h; cases h
  | succ fuel ih =>
    intro value acc targets schema order rs pre h hp hb
    have hgp : ∀ g ∈ groupTargets [] targets, ∀ t ∈ g.2, path t.2 = (pre ++ [g.1]) ++ t.1 := by
      intro g hg t ht
      rw [group_items targets hg] at ht
      obtain ⟨as, t⟩ := t
      rw [hp _ (mem_tailsOf.1 ht)]; simp
    have hempty : ∀ x ∈ emptyTargets targets, path x = pre := by
      intro x hx
      unfold emptyTargets at hx
      obtain ⟨⟨p, t⟩, ht, he⟩ := List.mem_filterMap.1 hx
      simp only at he
      split at he
      · rename_i hemp
        injection he with he; subst he
        rw [hp _ ht, List.isEmpty_iff.1 hemp, List.append_nil]
      · cases he
    have hgb : ∀ g ∈ groupTargets [] targets, g.2.Pairwise fun x y => Before x.1 y.1 := by
      intro g hg
      rw [group_items targets hg]
      exact tails_pairwise hb fun p q => before_tails
    have hfirst : (groupTargets [] targets).Pairwise fun g g' => FirstLe g.1 g'.1 := by
      have := groups_order FirstLe targets [] List.Pairwise.nil (fun a h => (by cases h))
        (hb.imp fun {x y} h a as b bs ha hb' => by rw [ha, hb'] at h; exact before_firstLe h)
      rwa [List.pairwise_map] at this
    have hdiff : (groupTargets [] targets).Pairwise fun g g' => g.1 ≠ g'.1 := by
      have := group_nodup targets
      rwa [List.nodup_iff_pairwise_ne, List.pairwise_map] at this
    -- the empty items, then blocks that are in order
    have hcomb : ∀ (blocks : List T), (∀ y ∈ blocks, ∃ q, q ≠ [] ∧ path y = pre ++ q) →
        (blocks.Pairwise fun x y => ∃ p q, path x = pre ++ p ∧ path y = pre ++ q ∧ Before p q ∧ (q = [] → p = [])) →
        (emptyTargets targets ++ blocks).Pairwise
          fun x y => ∃ p q, path x = pre ++ p ∧ path y = pre ++ q ∧ Before p q ∧ (q = [] → p = []) := by
      intro blocks h1 h2
      refine List.pairwise_append.2 ⟨?_, h2, fun x hx y hy => ?_⟩
      · exact List.pairwise_of_forall_mem_list fun x hx y hy =>
          ⟨[], [], by rw [hempty x hx]; simp, by rw [hempty y hy]; simp, before_nil _, fun _ => rfl⟩
      · obtain ⟨q, hq, hy⟩ := h1 y hy
        exact ⟨[], q, by rw [hempty x hx]; simp, hy, before_nil _, fun _ => rfl⟩
    -- items that are not moved any further
    have hrest : (emptyTargets targets ++ (groupTargets [] targets).flatMap fun g => g.2.map (·.2)).Pairwise
        fun x y => ∃ p q, path x = pre ++ p ∧ path y = pre ++ q ∧ Before p q ∧ (q = [] → p = []) := by
      refine hcomb _ ?_ ?_
      · intro y hy
        obtain ⟨g, hg, hy⟩ := List.mem_flatMap.1 hy
        obtain ⟨t, ht, rfl⟩ := List.mem_map.1 hy
        exact ⟨g.1 :: t.1, by simp, by rw [hgp g hg t ht]; simp⟩
      · rw [List.pairwise_flatMap]
        refine ⟨fun g hg => ?_, (hfirst.and hdiff).imp_of_mem fun {g g'} hg hg' hf x hx y hy => ?_⟩
        · rw [List.pairwise_map]
          have := tails_pairwise (R := fun p q => Before (g.1 :: p) (g.1 :: q)) hb (fun p q h => h)
          rw [← group_items targets hg] at this
          refine this.imp_of_mem fun {x y} hx hy hxy => ?_
          exact ⟨g.1 :: x.1, g.1 :: y.1, by rw [hgp g hg x hx]; simp, by rw [hgp g hg y hy]; simp, hxy, fun h => (by cases h)⟩
        · obtain ⟨t, ht, rfl⟩ := List.mem_map.1 hx
          obtain ⟨t', ht', rfl⟩ := List.mem_map.1 hy
          exact ⟨g.1 :: t.1, g'.1 :: t'.1, by rw [hgp g hg t ht]; simp, by rw [hgp g' hg' t' ht']; simp,
            before_diff hf.2 hf.1, fun h => (by cases h)⟩
    -- groups that are sorted in themselves
    have hgroups : ∀ (l : List ((Accessor × List (Target T)) × Option (List T))),
        (∀ x ∈ l, x.1 ∈ groupTargets [] targets) →
        (l.Pairwise fun x y => FirstLe x.1.1 y.1.1 ∧ x.1.1 ≠ y.1.1) →
        (∀ x ∈ l, ∃ v s o a, x.2 = getSorted w fuel v a x.1.2 s o ∧ ∃ ys, x.2 = some ys) →
        (emptyTargets targets ++ l.flatMap fun x => x.2.getD []).Pairwise
          fun x y => ∃ p q, path x = pre ++ p ∧ path y = pre ++ q ∧ Before p q ∧ (q = [] → p = []) := by
      intro l hl1 hl2 hl3
      have hpath : ∀ x ∈ l, ∀ y ∈ x.2.getD [], ∃ p, path y = pre ++ x.1.1 :: p := by
        intro x hx y hy
        obtain ⟨v, s, o, a, h1, ys, h2⟩ := hl3 x hx
        rw [h2] at hy
        obtain ⟨p, hpm⟩ := getSorted_mem w (h1.symm.trans h2) hy
        exact ⟨p, by rw [hgp _ (hl1 x hx) _ hpm]; simp⟩
      refine hcomb _ ?_ ?_
      · intro y hy
        obtain ⟨x, hx, hy⟩ := List.mem_flatMap.1 hy
        obtain ⟨p, hp⟩ := hpath x hx y hy
        exact ⟨_, by simp, hp⟩
      · rw [List.pairwise_flatMap]
        refine ⟨fun x hx => ?_, hl2.imp_of_mem fun {x x'} hx hx' hf y hy y' hy' => ?_⟩
        · obtain ⟨v, s, o, a, h1, ys, h2⟩ := hl3 x hx
          rw [h2]
          refine (ih v a x.1.2 s o ys (pre ++ [x.1.1]) (h1.symm.trans h2) (hgp _ (hl1 x hx)) (hgb _ (hl1 x hx))).imp ?_
          rintro y y' ⟨p, q, e1, e2, e3, e4⟩
          exact ⟨x.1.1 :: p, x.1.1 :: q, by rw [e1]; simp, by rw [e2]; simp, before_cons e3 e4, fun h => (by cases h)⟩
        · obtain ⟨p, hp1⟩ := hpath x hx y hy
          obtain ⟨q, hq1⟩ := hpath x' hx' y' hy'
          exact ⟨_, _, hp1, hq1, before_diff hf.2 hf.1, fun h => (by cases h)⟩
    rw [getSorted] at h
    split at h
    · split at h
      · cases h
      · exact ih value acc targets _ _ rs pre h hp hb
    · simp only [] at h
      split at h
      · rename_i kind entries
        split at h
        · rename_i hkeys
          generalize (schema.map (w.view · acc)).bind SchemaView.asTable = table at h
          obtain ⟨xs, hxs, hrs⟩ := Option.map_eq_some_iff.1 h
          subst hrs
          obtain ⟨h1, h2⟩ := collect_map _ _ _ hxs
          have hperm := orderedGroups_perm w acc schema table order (groupTargets [] targets)
          rw [h1]
          have := hgroups ((orderedGroups w acc schema table order (groupTargets [] targets)).map fun g =>
            (g, getSorted w fuel (groupContext (.table kind entries) entries table g.1).1 (acc ++ [g.1]) g.2
              (groupContext (.table kind entries) entries table g.1).2 order)) ?_ ?_ ?_
          · rw [List.flatMap_map] at this
            exact this
          · intro x hx
            obtain ⟨g, hg, rfl⟩ := List.mem_map.1 hx
            exact hperm.mem_iff.1 hg
          · rw [List.pairwise_map]
            have hnd : ((orderedGroups w acc schema table order (groupTargets [] targets)).map (·.1)).Nodup :=
              (hperm.map _).nodup_iff.2 (group_nodup targets)
            rw [List.nodup_iff_pairwise_ne, List.pairwise_map] at hnd
            refine hnd.imp_of_mem fun {g g'} hg hg' hne => ⟨?_, hne⟩
            have hk := List.all_eq_true.1 hkeys g (hperm.mem_iff.1 hg)
            intro i j hj
            simp only at hj
            rw [hj] at hk; cases hk
          · intro x hx
            obtain ⟨g, hg, rfl⟩ := List.mem_map.1 hx
            exact ⟨_, _, _, _, rfl, h2 g hg⟩
        · injection h with h
          subst h
          exact hrest
      · rename_i kind values
        split at h
        · generalize (schema.map (w.view · acc)).bind SchemaView.asItems = items at h
          obtain ⟨xs, hxs, hrs⟩ := Option.map_eq_some_iff.1 h
          subst hrs
          obtain ⟨h1, h2⟩ := collect_map _ _ _ hxs
          rw [h1]
          have hsub : ((values.zip (groupTargets [] targets)).zipIdx.map (·.1.2)).Sublist (groupTargets [] targets) := by
            rw [zip_groups]; exact List.take_sublist _ _
          have := hgroups ((values.zip (groupTargets [] targets)).zipIdx.map fun p =>
            (p.1.2, getSorted w fuel p.1.1 (acc ++ [.index p.2]) p.1.2.2 items order)) ?_ ?_ ?_
          · rw [List.flatMap_map] at this
            exact this
          · intro x hx
            obtain ⟨p, hpm, rfl⟩ := List.mem_map.1 hx
            exact hsub.subset (List.mem_map.2 ⟨p, hpm, rfl⟩)
          · rw [List.pairwise_map]
            have := (hfirst.and hdiff).sublist hsub
            rw [List.pairwise_map] at this
            exact this
          · intro x hx
            obtain ⟨p, hpm, rfl⟩ := List.mem_map.1 hx
            exact ⟨_, _, _, _, rfl, h2 p hpm⟩
        · injection h with h
          subst h
          exact hrest
      · injection h with h
        subst h
        exact hrest

end Tombi
