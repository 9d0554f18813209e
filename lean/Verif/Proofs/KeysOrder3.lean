import Verif.Proofs.KeysOrder2
import Verif.Proofs.DocMerge

/-! `getSorted` keeps the items of every path, where the accessors address the tree. -/
namespace Tombi
open Spec

variable {T S σ : Type}

theorem atPath_flatMap {α : Type} (path : T → List Accessor) (q : List Accessor) (f : α → List T) (l : List α) :
    atPath path q (l.flatMap f) = l.flatMap fun x => atPath path q (f x) := by
  unfold atPath
  rw [List.filter_flatMap]

theorem tailsOf_split {a : Accessor} {ts : List (Target T)} {l r : List (Target T)} {p : List Accessor} {t : T}
    (h : tailsOf a ts = l ++ (p, t) :: r) : ∃ l' r', ts = l' ++ (a :: p, t) :: r' ∧ l = tailsOf a l' := by
  unfold tailsOf at h
  obtain ⟨l1, l2, h1, h2, h3⟩ := List.filterMap_eq_append_iff.1 h
  obtain ⟨m1, x, m2, h4, h5, h6, h7⟩ := List.filterMap_eq_cons_iff.1 h3
  obtain ⟨xs, x⟩ := x
  cases xs with
  | nil => cases h6
  | cons b bs =>
    by_cases hb : b = a
    · simp only [if_pos hb] at h6
      injection h6 with h6
      injection h6 with h8 h9
      refine ⟨l1 ++ m1, m2, ?_, ?_⟩
      · rw [h1, h4, ← h8, ← h9, hb]; simp
      · unfold tailsOf
        rw [List.filterMap_append, h2, List.filterMap_eq_nil_iff.2 h5, List.append_nil]
    · simp only [if_neg hb] at h6; cases h6

/-- Accessors that address a tree address the value one step down, if that step is right. -/
theorem Aligned_step {v w : DValue σ} {a : Accessor} {ts : List (Target T)} (h : Aligned v (ts.map (·.1)))
    (hc : child v (stepOf a) = some w) : Aligned w ((tailsOf a ts).map (·.1)) := by
  have hmem : ∀ p ∈ (tailsOf a ts).map (·.1), a :: p ∈ ts.map (·.1) := by
    intro p hp
    obtain ⟨⟨as, t⟩, ht, rfl⟩ := List.mem_map.1 hp
    exact List.mem_map.2 ⟨_, mem_tailsOf.1 ht, rfl⟩
  have hlook : ∀ q : Path, lookup v (stepOf a :: q) = lookup w q := fun q => by
    rw [lookup, hc]; rfl
  have hpre : ∀ {q p : List Accessor}, q <+: p → a :: q <+: a :: p := fun h => List.cons_prefix_cons.2 ⟨rfl, h⟩
  refine ⟨fun p hp q i hq kind values hl => ?_, fun l p r hs q i hq => ?_, fun p hp q k hq hk => ?_⟩
  · refine h.exist (a :: p) (hmem p hp) (a :: q) i (hpre hq) kind values ?_
    rw [List.map_cons, hlook]; exact hl
  · obtain ⟨L, R, h1, h2, h3⟩ := List.map_eq_append_iff.1 hs
    obtain ⟨x, R', h4, h5, h6⟩ := List.map_eq_cons_iff.1 h3
    obtain ⟨x, t⟩ := x
    simp only at h5; subst h5
    rw [h4] at h1
    obtain ⟨l', r', h7, h8⟩ := tailsOf_split h1
    obtain ⟨p', hp', hq'⟩ := h.ordered (l'.map (·.1)) (a :: x) (r'.map (·.1)) (by rw [h7]; simp) (a :: q) i (hpre hq)
    cases p' with
    | nil => exact absurd (List.prefix_nil.1 hq') (by simp)
    | cons b p'' =>
      obtain ⟨rfl, hq''⟩ := List.cons_prefix_cons.1 hq'
      refine ⟨p'', ?_, hq''⟩
      rw [← h2, h8]
      obtain ⟨⟨as, t'⟩, ht', he⟩ := List.mem_map.1 hp'
      simp only at he; subst he
      exact List.mem_map.2 ⟨(p'', t'), mem_tailsOf.2 ht', rfl⟩
  · have := h.unquoted (a :: p) (hmem p hp) (a :: q) k (hpre hq) hk
    rw [List.map_cons, List.cons_append, hlook] at this
    exact this

/-- The indices of the groups are 0, 1, 2, …. -/
theorem Aligned_groups (ts : List (Target T)) {paths : List (List Accessor)}
    (hp : ∀ l p r, paths = l ++ p :: r → ∀ q i, q ++ [.index (i + 1)] <+: p → ∃ p' ∈ l, q ++ [.index i] <+: p')
    (hpaths : paths = ts.map (·.1)) (hi : ∀ g ∈ groupTargets [] ts, g.1.isIndex = true) :
    (groupTargets [] ts).map (·.1) = (List.range (groupTargets [] ts).length).map Accessor.index := by
  subst hpaths
  have key : ∀ (rest done : List (Target T)) (gs : List (Accessor × List (Target T))), ts = done ++ rest →
      gs = groupTargets [] done → gs.map (·.1) = (List.range gs.length).map Accessor.index →
      (groupTargets gs rest).map (·.1) = (List.range (groupTargets gs rest).length).map Accessor.index := by
    intro rest
    induction rest with
    | nil => intro done gs _ _ h; exact h
    | cons t rest ih =>
      intro done gs hts hgs h
      obtain ⟨as, t⟩ := t
      have happ : ∀ (xs ys : List (Target T)) (g0 : List (Accessor × List (Target T))),
          groupTargets g0 (xs ++ ys) = groupTargets (groupTargets g0 xs) ys := by
        intro xs
        induction xs with
        | nil => intro ys g0; rfl
        | cons x xs ihx =>
          intro ys g0
          obtain ⟨ax, x⟩ := x
          cases ax with
          | nil => exact ihx ys g0
          | cons a ax => exact ihx ys _
      cases as with
      | nil =>
        refine ih (done ++ [([], t)]) gs (by rw [hts]; simp) ?_ h
        rw [happ, ← hgs]; rfl
      | cons a as =>
        refine ih (done ++ [(a :: as, t)]) (pushGroup a (as, t) gs) (by rw [hts]; simp) ?_ ?_
        · rw [happ, ← hgs]; rfl
        · -- the accessor is an index
          have hidx : a.isIndex = true := by
            have : a ∈ (groupTargets [] ts).map (·.1) := (group_keys ts a).2 ⟨as, t, by rw [hts]; simp⟩
            obtain ⟨g, hg, rfl⟩ := List.mem_map.1 this
            exact hi g hg
          cases a with
          | key k => cases hidx
          | index j =>
            have hlen : (pushGroup (.index j) (as, t) gs).length = ((pushGroup (.index j) (as, t) gs).map (·.1)).length := by
              simp
            rw [hlen, pushGroup_keys]
            by_cases hm : Accessor.index j ∈ gs.map (·.1)
            · rw [if_pos hm, List.length_map]; exact h
            · rw [if_neg hm, List.length_append, List.length_map, List.length_singleton, List.range_succ, List.map_append, h]
              have hj : j = gs.length := by
                have hlow : ¬ j < gs.length := by
                  intro hlt
                  refine hm ?_
                  rw [h]
                  exact List.mem_map.2 ⟨j, List.mem_range.2 hlt, rfl⟩
                cases j with
                | zero => omega
                | succ i =>
                  obtain ⟨p', hp', hpre⟩ := hp (done.map (·.1)) (.index (i + 1) :: as) (rest.map (·.1))
                    (by rw [hts]; simp) [] i (List.cons_prefix_cons.2 ⟨rfl, List.nil_prefix⟩)
                  cases p' with
                  | nil => exact absurd (List.prefix_nil.1 hpre) (by simp)
                  | cons b p'' =>
                    obtain ⟨rfl, -⟩ := List.cons_prefix_cons.1 hpre
                    obtain ⟨⟨bs, t'⟩, hb, he⟩ := List.mem_map.1 hp'
                    simp only at he; subst he
                    have : Accessor.index i ∈ gs.map (·.1) := by
                      rw [hgs]; exact (group_keys done _).2 ⟨p'', t', hb⟩
                    rw [h] at this
                    obtain ⟨x, hx, he⟩ := List.mem_map.1 this
                    injection he with he
                    rw [List.mem_range] at hx
                    omega
              simp [hj]
  exact key ts [] [] rfl rfl rfl

theorem zip_groups {α β : Type} (l : List α) (g : List β) : (l.zip g).zipIdx.map (·.1.2) = g.take l.length := by
  have h1 : (l.zip g).zipIdx.map (·.1.2) = (l.zip g).map (·.2) := by
    rw [show (fun p : (α × β) × Nat => p.1.2) = (·.2) ∘ (·.1) from rfl, ← List.map_map, List.zipIdx_map_fst]
  rw [h1]
  clear h1
  induction l generalizing g with
  | nil => rfl
  | cons a l ih =>
    cases g with
    | nil => rfl
    | cons b g => simp [ih]

/-- Nothing is lost: a relation for which losses do not count, a table without a schema, only keys, or accessors that
address the tree. -/
def NoLoss (R : List T → List T → Prop) (value : DValue σ) (schema : Option S) (targets : List (Target T)) : Prop :=
  (∀ x, R [] x) ∨ ((∃ k e, value = .table k e) ∧ schema = none) ∨
  (∀ t ∈ targets, ∀ a ∈ t.1, a.isKey = true) ∨ Aligned value (targets.map (·.1))

theorem isKey_tails {a : Accessor} {ts : List (Target T)} (h : ∀ t ∈ ts, ∀ b ∈ t.1, b.isKey = true) :
    ∀ t ∈ tailsOf a ts, ∀ b ∈ t.1, b.isKey = true := by
  intro t ht b hb
  obtain ⟨as, t⟩ := t
  exact h _ (mem_tailsOf.1 ht) b (List.mem_cons_of_mem _ hb)

/-- The items of a table or an array that are not moved any further. -/
theorem rest_rel {R : List T → List T → Prop} (hR : ListRel R) (path : T → List Accessor) (pre q : List Accessor)
    (ts : List (Target T)) (hp : ∀ t ∈ ts, path t.2 = pre ++ t.1) :
    R (atPath path q (emptyTargets ts ++ (groupTargets [] ts).flatMap fun g => g.2.map (·.2)))
      (atPath path q (ts.map (·.2))) := by
  rw [atPath_append, atPath_flatMap, regroup path pre q ts hp]
  exact hR.refl _

theorem getSorted_rel (w : SchemaWorld S σ) {R : List T → List T → Prop} (hR : ListRel R) (path : T → List Accessor) :
    ∀ (fuel : Nat) (value : DValue σ) (acc : List Accessor) (targets : List (Target T)) (schema : Option S)
      (order : Option KeysOrder) (rs : List T) (pre q : List Accessor),
      getSorted w fuel value acc targets schema order = some rs → (∀ t ∈ targets, path t.2 = pre ++ t.1) →
      NoLoss R value schema targets → R (atPath path q rs) (atPath path q (targets.map (·.2))) := by
  intro fuel
  induction fuel with
  | zero => intro value acc targets schema order rs pre q h; cases h
  | succ fuel ih =>
    intro value acc targets schema order rs pre q h hp hnl
    have hgp : ∀ g ∈ groupTargets [] targets, ∀ t ∈ g.2, path t.2 = (pre ++ [g.1]) ++ t.1 := by
      intro g hg t ht
      rw [group_items targets hg] at ht
      obtain ⟨as, t⟩ := t
      rw [hp _ (mem_tailsOf.1 ht)]; simp
    rw [getSorted] at h
    split at h
    · -- combined
      rename_i schemas ko hview
      split at h
      · cases h
      · rename_i s hs
        refine ih value acc targets (some s) _ rs pre q h hp ?_
        rcases hnl with h1 | ⟨-, h2⟩ | h3 | h4
        · exact Or.inl h1
        · rw [h2] at hview; cases hview
        · exact Or.inr (Or.inr (Or.inl h3))
        · exact Or.inr (Or.inr (Or.inr h4))
    · rename_i hview
      simp only [] at h
      split at h
      · -- a table
        rename_i kind entries
        split at h
        · rename_i hkeys
          generalize htable : (schema.map (w.view · acc)).bind SchemaView.asTable = table at h
          have htab : schema = none → table = none := by rintro rfl; exact htable.symm
          clear htable
          obtain ⟨xs, hxs, hrs⟩ := Option.map_eq_some_iff.1 h
          subst hrs
          obtain ⟨h1, h2⟩ := collect_map _ _ _ hxs
          rw [atPath_append, h1, atPath_flatMap, ← regroup path pre q targets hp]
          have hperm := orderedGroups_perm w acc schema table order (groupTargets [] targets)
          refine hR.append _ _ _ _ (hR.refl _) ?_
          rw [← flatMap_perm_of_one _ hperm]
          · refine hR.flatMap _ _ _ fun g hgo => ?_
            obtain ⟨ys, hys⟩ := h2 g hgo
            rw [hys]
            have hg := hperm.mem_iff.1 hgo
            clear hgo
            refine ih _ _ _ _ _ _ (pre ++ [g.1]) q hys (hgp g hg) ?_
            rcases hnl with h1 | ⟨-, h3⟩ | h4 | h5
            · exact Or.inl h1
            · rw [htab h3]
              refine Or.inr (Or.inl ?_)
              unfold groupContext
              split
              · rename_i hnone; cases hnone
              · exact ⟨⟨_, _, rfl⟩, rfl⟩
            · rw [group_items targets hg]
              exact Or.inr (Or.inr (Or.inl (isKey_tails h4)))
            · have hk : g.1.isKey = true := List.all_eq_true.1 hkeys g hg
              obtain ⟨a, gts⟩ := g
              cases a with
              | index i => cases hk
              | key k =>
                cases hd : dget entries (Accessor.key k).display with
                | none =>
                  refine Or.inr (Or.inl ?_)
                  unfold groupContext
                  rw [hd]
                  exact ⟨⟨_, _, rfl⟩, rfl⟩
                | some v =>
                  cases table with
                  | none =>
                    refine Or.inr (Or.inl ?_)
                    unfold groupContext
                    rw [hd]
                    exact ⟨⟨_, _, rfl⟩, rfl⟩
                  | some t =>
                    have hq : TomlText.toKeyString k = k := by
                      apply Classical.byContradiction
                      intro hne
                      obtain ⟨as, t', hm⟩ := (group_keys targets (.key k)).1 (List.mem_map.2 ⟨_, hg, rfl⟩)
                      have := h5.unquoted _ (List.mem_map.2 ⟨_, hm, rfl⟩) [] k
                        (List.cons_prefix_cons.2 ⟨rfl, List.nil_prefix⟩) hne
                      rw [List.map_nil, List.nil_append, lookup, child_table] at this
                      rw [show (Accessor.key k).display = TomlText.toKeyString k from rfl] at hd
                      rw [hd] at this
                      cases this
                    have hd' : child (.table kind entries) (stepOf (.key k)) = some v := by
                      show child (.table kind entries) (.key k) = some v
                      rw [child_table]
                      rw [show (Accessor.key k).display = TomlText.toKeyString k from rfl, hq] at hd
                      exact hd
                    have hal : Aligned v (gts.map (·.1)) := by
                      have := Aligned_step h5 hd'
                      rw [← group_items targets hg] at this
                      exact this
                    unfold groupContext
                    rw [hd]
                    simp only []
                    split
                    · exact Or.inr (Or.inr (Or.inr hal))
                    · exact Or.inr (Or.inr (Or.inr hal))
                    · exact Or.inr (Or.inl ⟨⟨_, _, rfl⟩, rfl⟩)
          · -- different groups have different paths
            have hnd : ((orderedGroups w acc schema table order (groupTargets [] targets)).map (·.1)).Nodup :=
              (hperm.map _).nodup_iff.2 (group_nodup targets)
            rw [List.nodup_iff_pairwise_ne, List.pairwise_map] at hnd
            refine hnd.imp_of_mem fun {g g'} hg hg' hne => ?_
            have hg := hperm.mem_iff.1 hg
            have hg' := hperm.mem_iff.1 hg'
            by_cases hq : ∃ q', q = pre ++ g.1 :: q'
            · right
              obtain ⟨q', rfl⟩ := hq
              refine atPath_nil_of _ _ _ fun x hx => ?_
              obtain ⟨t, ht, rfl⟩ := List.mem_map.1 hx
              rw [hgp g' hg' t ht, List.append_assoc]
              intro hc
              have := List.append_cancel_left hc
              injection this with h1 _
              exact hne h1.symm
            · left
              refine atPath_nil_of _ _ _ fun x hx => ?_
              obtain ⟨t, ht, rfl⟩ := List.mem_map.1 hx
              rw [hgp g hg t ht, List.append_assoc]
              exact fun hc => hq ⟨t.1, hc.symm⟩
        · injection h with h
          subst h
          exact rest_rel hR path pre q targets hp
      · -- an array
        rename_i kind values
        split at h
        · rename_i hidx
          generalize (schema.map (w.view · acc)).bind SchemaView.asItems = items at h
          obtain ⟨xs, hxs, hrs⟩ := Option.map_eq_some_iff.1 h
          subst hrs
          obtain ⟨h1, h2⟩ := collect_map _ _ _ hxs
          rw [atPath_append, h1, atPath_flatMap, ← regroup path pre q targets hp]
          refine hR.append _ _ _ _ (hR.refl _) ?_
          have hindex : ∀ g ∈ groupTargets [] targets, g.1.isIndex = true := List.all_eq_true.1 hidx
          -- the elements that are paired with groups
          have hpair : ∀ p ∈ (values.zip (groupTargets [] targets)).zipIdx, values[p.2]? = some p.1.1 ∧
              (groupTargets [] targets)[p.2]? = some p.1.2 := by
            intro p hpm
            obtain ⟨⟨v, g⟩, n⟩ := p
            have := List.mem_zipIdx_iff_getElem?.1 hpm
            simp only at this
            rw [List.getElem?_zip_eq_some] at this
            exact this
          have hstep : R ((values.zip (groupTargets [] targets)).zipIdx.flatMap fun p =>
              atPath path q ((getSorted w fuel p.1.1 (acc ++ [.index p.2]) p.1.2.2 items order).getD []))
              ((values.zip (groupTargets [] targets)).zipIdx.flatMap fun p => atPath path q (p.1.2.2.map (·.2))) := by
            refine hR.flatMap _ _ _ fun p hpm => ?_
            obtain ⟨ys, hys⟩ := h2 p hpm
            rw [hys]
            obtain ⟨hv, hg⟩ := hpair p hpm
            have hgm := List.mem_of_getElem? hg
            refine ih _ _ _ _ _ _ (pre ++ [p.1.2.1]) q hys (hgp _ hgm) ?_
            rcases hnl with h1 | ⟨⟨k, e, h3⟩, -⟩ | h4 | h5
            · exact Or.inl h1
            · cases h3
            · rw [group_items targets hgm]
              exact Or.inr (Or.inr (Or.inl (isKey_tails h4)))
            · have hkeys := Aligned_groups targets h5.ordered rfl hindex
              have hkey : p.1.2.1 = .index p.2 := by
                have h6 : ((groupTargets [] targets).map (·.1))[p.2]? = some p.1.2.1 := by
                  rw [List.getElem?_map, hg]; rfl
                rw [hkeys, List.getElem?_map] at h6
                obtain ⟨i, hi, he⟩ := Option.map_eq_some_iff.1 h6
                rw [List.getElem?_range (List.getElem?_eq_some_iff.1 hg).1] at hi
                injection hi with hi
                rw [← he, ← hi]
              have hc : child (.array kind values) (stepOf p.1.2.1) = some p.1.1 := by
                rw [hkey]; exact hv
              have := Aligned_step h5 hc
              rw [← group_items targets hgm] at this
              exact Or.inr (Or.inr (Or.inr this))
          have htake : ((values.zip (groupTargets [] targets)).zipIdx.flatMap fun p => atPath path q (p.1.2.2.map (·.2))) =
              ((groupTargets [] targets).take values.length).flatMap fun g => atPath path q (g.2.map (·.2)) := by
            rw [← zip_groups, List.flatMap_map]
          rw [htake] at hstep
          by_cases hlen : (groupTargets [] targets).length ≤ values.length
          · rw [List.take_of_length_le hlen] at hstep
            exact hstep
          · rcases hnl with h1 | ⟨⟨k, e, h3⟩, -⟩ | h4 | h5
            · have := hR.append _ _ _ _ hstep
                (h1 (((groupTargets [] targets).drop values.length).flatMap fun g => atPath path q (g.2.map (·.2))))
              rw [List.append_nil, ← List.flatMap_append, List.take_append_drop] at this
              exact this
            · cases h3
            · -- only keys: there are no groups
              exfalso
              cases hgs : groupTargets [] targets with
              | nil => rw [hgs] at hlen; exact hlen (Nat.zero_le _)
              | cons g rest =>
                have hgm : g ∈ groupTargets [] targets := by rw [hgs]; exact List.mem_cons_self
                obtain ⟨as, t, hm⟩ := (group_keys targets g.1).1 (List.mem_map.2 ⟨g, hgm, rfl⟩)
                have h6 := h4 _ hm g.1 List.mem_cons_self
                have h7 := hindex g hgm
                cases hg1 : g.1 with
                | key k => rw [hg1] at h7; cases h7
                | index i => rw [hg1] at h6; cases h6
            · exfalso
              have hkeys := Aligned_groups targets h5.ordered rfl hindex
              generalize hn : (groupTargets [] targets).length = n at hlen hkeys
              have hmem : Accessor.index (n - 1) ∈ (groupTargets [] targets).map (·.1) := by
                rw [hkeys]
                exact List.mem_map.2 ⟨n - 1, List.mem_range.2 (by omega), rfl⟩
              obtain ⟨as, t, hm⟩ := (group_keys targets _).1 hmem
              have := h5.exist _ (List.mem_map.2 ⟨_, hm, rfl⟩) [] (n - 1)
                (List.cons_prefix_cons.2 ⟨rfl, List.nil_prefix⟩) kind values rfl
              omega
        · injection h with h
          subst h
          exact rest_rel hR path pre q targets hp
      · injection h with h
        subst h
        exact rest_rel hR path pre q targets hp

end Tombi
