import Verif.Spec.Gathered
import Verif.Proofs.KeysOrder3
/-! Where items stand together, `getSorted` without a schema changes nothing. -/
namespace Tombi
open Spec

variable {S σ T : Type}

theorem Spec.Gathered.infix {a b c : List (List Accessor)} (h : Gathered (a ++ b ++ c)) : Gathered b := by
  intro l p m q r e
  exact h (a ++ l) p m q (r ++ c) (by rw [e]; simp)

theorem Spec.Gathered.tails {paths : List (List Accessor)} (h : Gathered paths) (a : Accessor) :
    Gathered (paths.filterMap fun p => match p with
      | [] => none
      | b :: as => if b = a then some as else none) := by
  have key : ∀ {p x : List Accessor}, (match p with
      | [] => none
      | b :: as => if b = a then some as else none) = some x → p = a :: x := by
    intro p x hx
    cases p with
    | nil => cases hx
    | cons b as =>
      simp only at hx
      split at hx
      · rename_i hb; cases hx; rw [hb]
      · cases hx
  intro l p m q r e
  obtain ⟨l0, x0, e0, -, e1⟩ := List.filterMap_eq_append_iff.mp e
  obtain ⟨l1, p0, x1, e2, -, e3, e4⟩ := List.filterMap_eq_cons_iff.mp e1
  obtain ⟨m0, x2, e5, e6, e7⟩ := List.filterMap_eq_append_iff.mp e4
  obtain ⟨l2, q0, r0, e8, h8, e9, -⟩ := List.filterMap_eq_cons_iff.mp e7
  have hp := key e3
  have hq := key e9
  subst hp hq
  obtain ⟨h1, h2⟩ := h (l0 ++ l1) (a :: p) (m0 ++ l2) (a :: q) r0 (by rw [e0, e2, e5, e8]; simp)
  refine ⟨fun hqp => ?_, fun c hcp hcq x hx => ?_⟩
  · have := h1 (List.cons_prefix_cons.mpr ⟨rfl, hqp⟩)
    exact (List.cons.inj this).2
  · rw [← e6] at hx
    obtain ⟨y, hy, hyx⟩ := List.mem_filterMap.mp hx
    have hy2 := key hyx
    subst hy2
    have := h2 (a :: c) (List.cons_prefix_cons.mpr ⟨rfl, hcp⟩) (List.cons_prefix_cons.mpr ⟨rfl, hcq⟩) _ (List.mem_append_left _ hy)
    exact (List.cons_prefix_cons.mp this).2

theorem tailsOf_paths (a : Accessor) (ts : List (Target T)) :
    (tailsOf a ts).map (·.1) = (ts.map (·.1)).filterMap fun p => match p with
      | [] => none
      | b :: as => if b = a then some as else none := by
  unfold tailsOf
  rw [List.filterMap_map, List.map_filterMap]
  congr 1
  funext t
  obtain ⟨p, t⟩ := t
  cases p with
  | nil => rfl
  | cons b as =>
    by_cases hb : b = a
    · simp [hb]
    · simp [hb]

theorem pushGroup_new (a : Accessor) (t : Target T) (gs : List (Accessor × List (Target T))) (h : a ∉ gs.map (·.1)) :
    pushGroup a t gs = gs ++ [(a, [t])] := by
  induction gs with
  | nil => rfl
  | cons g gs ih =>
    obtain ⟨b, ts⟩ := g
    rw [List.map_cons, List.mem_cons, not_or] at h
    rw [pushGroup, if_neg (fun e => h.1 e.symm), ih h.2]; rfl

theorem pushGroup_last (a : Accessor) (t : Target T) (gs : List (Accessor × List (Target T))) (us : List (Target T))
    (h : a ∉ gs.map (·.1)) : pushGroup a t (gs ++ [(a, us)]) = gs ++ [(a, us ++ [t])] := by
  induction gs with
  | nil => simp [pushGroup]
  | cons g gs ih =>
    obtain ⟨b, ts⟩ := g
    rw [List.map_cons, List.mem_cons, not_or] at h
    rw [List.cons_append, pushGroup, if_neg (fun e => h.1 e.symm), ih h.2]; rfl

/-- The items of groups. -/
def groupItems (gs : List (Accessor × List (Target T))) : List T := gs.flatMap fun g => g.2.map (·.2)

theorem groups_together (ts : List (Target T)) : ∀ gs : List (Accessor × List (Target T)), (∀ t ∈ ts, t.1 ≠ []) →
    Gathered (ts.map (·.1)) →
    (∀ pre t post, ts = pre ++ t :: post → ∀ gs0 g gs1, gs = gs0 ++ g :: gs1 → t.1.head? = some g.1 →
      gs1 = [] ∧ ∀ x ∈ pre, x.1.head? = some g.1) →
    groupItems (groupTargets gs ts) = groupItems gs ++ ts.map (·.2) := by
  induction ts with
  | nil => intro gs _ _ _; simp [groupTargets]
  | cons t rest ih =>
    intro gs hne hg H
    obtain ⟨p, t⟩ := t
    cases p with
    | nil => exact absurd rfl (hne _ List.mem_cons_self)
    | cons a as =>
      have hg' : Gathered (rest.map (·.1)) := by
        refine Spec.Gathered.infix (a := [a :: as]) (c := []) ?_
        rw [List.append_nil]
        exact hg
      have hne' : ∀ t ∈ rest, t.1 ≠ [] := fun x hx => hne x (List.mem_cons_of_mem _ hx)
      rw [groupTargets]
      by_cases ha : a ∈ gs.map (·.1)
      · obtain ⟨g, hgm, rfl⟩ := List.mem_map.mp ha
        obtain ⟨gs0, gs1, rfl⟩ := List.append_of_mem hgm
        obtain ⟨h1, -⟩ := H [] _ rest rfl gs0 g gs1 rfl rfl
        subst h1
        have h0 : g.1 ∉ gs0.map (·.1) := by
          intro hm
          obtain ⟨g', hgm', e⟩ := List.mem_map.mp hm
          obtain ⟨x, y, rfl⟩ := List.append_of_mem hgm'
          have := (H [] _ rest rfl x g' (y ++ [g]) (by simp) (by rw [e]; rfl)).1
          simp at this
        obtain ⟨a, us⟩ := g
        rw [pushGroup_last _ _ _ _ h0, ih _ hne' hg' ?_]
        · simp [groupItems]
        · intro pre t' post e gs0' g' gs1' e' ht'
          rcases List.append_eq_append_iff.mp e' with ⟨z, h1, h2⟩ | ⟨z, h1, h2⟩
          · cases z with
            | nil =>
              obtain ⟨rfl, rfl⟩ : (a, us ++ [(as, t)]) = g' ∧ [] = gs1' := by simpa using h2
              refine ⟨rfl, ?_⟩
              have := (H ((a :: as, t) :: pre) t' post (by rw [e]; rfl) gs0 (a, us) [] rfl ht').2
              exact fun x hx => this x (List.mem_cons_of_mem _ hx)
            | cons y z => simp at h2
          · cases z with
            | nil =>
              obtain ⟨rfl, rfl⟩ : g' = (a, us ++ [(as, t)]) ∧ gs1' = [] := by simpa using h2
              refine ⟨rfl, ?_⟩
              have := (H ((a :: as, t) :: pre) t' post (by rw [e]; rfl) gs0 (a, us) [] rfl ht').2
              exact fun x hx => this x (List.mem_cons_of_mem _ hx)
            | cons y z =>
              rw [List.cons_append] at h2
              obtain ⟨rfl, h2⟩ := List.cons.inj h2
              have := (H ((a :: as, t) :: pre) t' post (by rw [e]; rfl) gs0' g' (z ++ [(a, us)]) (by rw [h1]; simp) ht').1
              simp at this
      · rw [pushGroup_new _ _ _ ha, ih _ hne' hg' ?_]
        · simp [groupItems]
        · intro pre t' post e gs0' g' gs1' e' ht'
          have old : ∀ x y, gs = x ++ g' :: y → False := by
            intro x y hxy
            have := (H ((a :: as, t) :: pre) t' post (by rw [e]; rfl) x g' y hxy ht').2 _ List.mem_cons_self
            simp only [List.head?_cons, Option.some.injEq] at this
            apply ha
            rw [this, hxy]
            simp
          have new : g'.1 = a → ∀ x ∈ pre, x.1.head? = some a := by
            intro hga x hx
            rw [hga] at ht'
            obtain ⟨q, t'⟩ := t'
            cases q with
            | nil => cases ht'
            | cons b q =>
              simp only [List.head?_cons, Option.some.injEq] at ht'
              subst ht'
              have := (hg [] (b :: as) (pre.map (·.1)) (b :: q) (post.map (·.1)) (by rw [e]; simp)).2 [b] ⟨as, rfl⟩ ⟨q, rfl⟩ x.1
                (List.mem_map_of_mem hx)
              obtain ⟨y, hy⟩ := this
              rw [← hy]; rfl
          rcases List.append_eq_append_iff.mp e' with ⟨z, h1, h2⟩ | ⟨z, h1, h2⟩
          · cases z with
            | nil =>
              obtain ⟨rfl, rfl⟩ : (a, [(as, t)]) = g' ∧ [] = gs1' := by simpa using h2
              exact ⟨rfl, new rfl⟩
            | cons y z => simp at h2
          · cases z with
            | nil =>
              obtain ⟨rfl, rfl⟩ : g' = (a, [(as, t)]) ∧ gs1' = [] := by simpa using h2
              exact ⟨rfl, new rfl⟩
            | cons y z =>
              rw [List.cons_append] at h2
              obtain ⟨rfl, h2⟩ := List.cons.inj h2
              exact (old _ _ h1).elim

/-- Items that stand together are not moved when they are grouped. -/
theorem gathered_flat (ts : List (Target T)) (hg : Gathered (ts.map (·.1))) :
    emptyTargets ts ++ groupItems (groupTargets [] ts) = ts.map (·.2) := by
  induction ts with
  | nil => rfl
  | cons t rest ih =>
    have hg' : Gathered (rest.map (·.1)) := by
      refine Spec.Gathered.infix (a := [t.1]) (c := []) ?_
      rw [List.append_nil]
      exact hg
    by_cases ht : t.1 = []
    · obtain ⟨p, t⟩ := t
      simp only at ht
      subst ht
      have := ih hg'
      simp only [emptyTargets, List.filterMap_cons, List.isEmpty_nil, if_true, groupTargets, List.map_cons, List.cons_append] at this ⊢
      rw [this]
    · have hall : ∀ x ∈ t :: rest, x.1 ≠ [] := by
        intro x hx hx0
        rcases List.mem_cons.mp hx with rfl | hx
        · exact ht hx0
        · obtain ⟨l, r, rfl⟩ := List.append_of_mem hx
          have := (hg [] t.1 (l.map (·.1)) x.1 (r.map (·.1)) (by simp)).1 (by rw [hx0]; exact List.nil_prefix)
          rw [hx0] at this
          exact ht this.symm
      have he : emptyTargets (t :: rest) = [] := by
        refine List.filterMap_eq_nil_iff.mpr fun x hx => ?_
        rw [if_neg]
        rw [List.isEmpty_iff]
        exact hall x hx
      rw [he, groups_together _ [] hall hg (fun _ _ _ _ gs0 g gs1 e => by simp at e)]
      rfl

theorem collect_some {α β : Type} (f : α → Option (List β)) (g : α → List β) (l : List α) (h : ∀ x ∈ l, f x = some (g x)) :
    collect (l.map f) = some (l.flatMap g) := by
  induction l with
  | nil => rfl
  | cons a l ih =>
    rw [List.map_cons, h a List.mem_cons_self, collect, ih fun x hx => h x (List.mem_cons_of_mem _ hx)]
    rfl

/-- No schema, no order: items that stand together stay as they are. -/
theorem getSorted_gathered (w : SchemaWorld S σ) (hd : ∀ acc, w.directiveOverride acc = none) (hs : ∀ acc, w.schemaOverride none acc = none) :
    ∀ (fuel : Nat) (value : DValue σ) (acc : List Accessor) (targets : List (Target T)),
      (∀ t ∈ targets, t.1.length < fuel) → 0 < fuel → Gathered (targets.map (·.1)) →
      ((∃ kind es, value = .table kind es) ∨ ∀ t ∈ targets, ∀ a ∈ t.1, a.isKey = true) →
      getSorted w fuel value acc targets none none = some (targets.map (·.2)) := by
  intro fuel
  induction fuel with
  | zero => intro _ _ _ _ h; omega
  | succ fuel ih =>
    intro value acc targets hlen _ hg hv
    have hflat := gathered_flat targets hg
    have hord : orderedGroups w acc none (none : Option (TableView S)) none (groupTargets [] targets) = groupTargets [] targets := by
      unfold orderedGroups
      rw [hd, hs]
      rfl
    rw [getSorted]
    simp only [Option.map_none]
    split
    · rename_i kind entries
      split
      · simp only [Option.bind_none]
        rw [hord, collect_some _ (fun g : Accessor × List (Target T) => g.2.map (·.2)) (groupTargets [] targets) ?_]
        · rw [Option.map_some]; exact congrArg some hflat
        · intro g hgm
          have hi := group_items targets hgm
          have hc : (groupContext (.table kind entries) entries (none : Option (TableView S)) g.1) = (.table kind entries, none) := by
            unfold groupContext
            cases dget entries g.1.display <;> rfl
          rw [hc]
          refine ih _ _ _ (fun t ht => ?_) ?_ ?_ (.inl ⟨_, _, rfl⟩)
          · rw [hi] at ht
            obtain ⟨as, t⟩ := t
            have := hlen _ (mem_tailsOf.1 ht)
            simp only [List.length_cons] at this ⊢
            omega
          · obtain ⟨as, t, hm⟩ := (group_keys targets g.1).1 (List.mem_map.2 ⟨g, hgm, rfl⟩)
            have := hlen _ hm
            simp only [List.length_cons] at this
            omega
          · rw [hi, tailsOf_paths]
            exact hg.tails g.1
      · exact congrArg some hflat
    · rename_i kind values
      have hk : ∀ t ∈ targets, ∀ a ∈ t.1, a.isKey = true := by
        rcases hv with ⟨k, es, h⟩ | h
        · cases h
        · exact h
      split
      · rename_i hall
        have hgs : groupTargets [] targets = [] := by
          refine List.eq_nil_iff_forall_not_mem.mpr fun g hgm => ?_
          obtain ⟨as, t, hm⟩ := (group_keys targets g.1).1 (List.mem_map.2 ⟨g, hgm, rfl⟩)
          have h1 := hk _ hm g.1 List.mem_cons_self
          have h2 := List.all_eq_true.mp hall g hgm
          cases hga : g.1 with
          | key k => rw [hga] at h2; cases h2
          | index i => rw [hga] at h1; cases h1
        rw [hgs] at hflat ⊢
        simp only [List.zip_nil_right, List.zipIdx_nil, List.map_nil, collect, Option.map_some]
        exact congrArg some hflat
      · exact congrArg some hflat
    · exact congrArg some hflat

end Tombi
