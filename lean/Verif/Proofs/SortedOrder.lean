import Verif.Proofs.KeysMeaning2
/-! Sorting keeps sections with the same first key together, and puts no section before one it lies in. -/
namespace Tombi
open Spec

variable {σ S T : Type}

/-- What a step of the sorting gives: the items without accessors, then groups, each as it was or sorted itself. -/
theorem getSorted_shape (w : SchemaWorld S σ) {fuel : Nat} {value : DValue σ} {acc : List Accessor} {targets : List (Target T)}
    {schema : Option S} {order : Option KeysOrder} {rs : List T} (h : getSorted w (fuel + 1) value acc targets schema order = some rs) :
    (∃ s o, getSorted w fuel value acc targets s o = some rs) ∨
    ∃ l : List ((Accessor × List (Target T)) × List T), rs = emptyTargets targets ++ l.flatMap (·.2) ∧
      (∀ x ∈ l, x.1 ∈ groupTargets [] targets) ∧ (l.Pairwise fun x y => x.1.1 ≠ y.1.1) ∧
      ∀ x ∈ l, x.2 = x.1.2.map (·.2) ∨ ∃ v a s o, getSorted w fuel v a x.1.2 s o = some x.2 := by
  have hdiff : (groupTargets [] targets).Pairwise fun g g' => g.1 ≠ g'.1 := by
    have := group_nodup targets
    rwa [List.nodup_iff_pairwise_ne, List.pairwise_map] at this
  have hrest : ∃ l : List ((Accessor × List (Target T)) × List T),
      (emptyTargets targets ++ (groupTargets [] targets).flatMap fun g => g.2.map (·.2)) = emptyTargets targets ++ l.flatMap (·.2) ∧
      (∀ x ∈ l, x.1 ∈ groupTargets [] targets) ∧ (l.Pairwise fun x y => x.1.1 ≠ y.1.1) ∧
      ∀ x ∈ l, x.2 = x.1.2.map (·.2) ∨ ∃ v a s o, getSorted w fuel v a x.1.2 s o = some x.2 := by
    refine ⟨(groupTargets [] targets).map fun g => (g, g.2.map (·.2)), by rw [List.flatMap_map], ?_, ?_, ?_⟩
    · intro x hx
      obtain ⟨g, hg, rfl⟩ := List.mem_map.1 hx
      exact hg
    · rw [List.pairwise_map]; exact hdiff
    · intro x hx
      obtain ⟨g, hg, rfl⟩ := List.mem_map.1 hx
      exact .inl rfl
  rw [getSorted] at h
  split at h
  · split at h
    · cases h
    · exact .inl ⟨_, _, h⟩
  · right
    simp only [] at h
    split at h
    · rename_i kind entries
      split at h
      · generalize (schema.map (w.view · acc)).bind SchemaView.asTable = table at h
        obtain ⟨xs, hxs, hrs⟩ := Option.map_eq_some_iff.1 h
        subst hrs
        obtain ⟨h1, h2⟩ := collect_map _ _ _ hxs
        have hperm := orderedGroups_perm w acc schema table order (groupTargets [] targets)
        rw [h1]
        refine ⟨(orderedGroups w acc schema table order (groupTargets [] targets)).map fun g =>
          (g, (getSorted w fuel (groupContext (.table kind entries) entries table g.1).1 (acc ++ [g.1]) g.2
            (groupContext (.table kind entries) entries table g.1).2 order).getD []), by rw [List.flatMap_map], ?_, ?_, ?_⟩
        · intro x hx
          obtain ⟨g, hg, rfl⟩ := List.mem_map.1 hx
          exact hperm.mem_iff.1 hg
        · rw [List.pairwise_map]
          have hnd : ((orderedGroups w acc schema table order (groupTargets [] targets)).map (·.1)).Nodup :=
            (hperm.map _).nodup_iff.2 (group_nodup targets)
          rw [List.nodup_iff_pairwise_ne, List.pairwise_map] at hnd
          exact hnd
        · intro x hx
          obtain ⟨g, hg, rfl⟩ := List.mem_map.1 hx
          obtain ⟨ys, hys⟩ := h2 g hg
          exact .inr ⟨_, _, _, _, by simp only; rw [hys, Option.getD_some]⟩
      · injection h with h
        subst h
        exact hrest
    · rename_i kind values
      split at h
      · generalize (schema.map (w.view · acc)).bind SchemaView.asItems = items at h
        obtain ⟨xs, hxs, hrs⟩ := Option.map_eq_some_iff.1 h
        subst hrs
        obtain ⟨h1, h2⟩ := collect_map _ _ _ hxs
        rw [h1]
        have hsub : ((values.zip (groupTargets [] targets)).zipIdx.map (·.1.2)).Sublist (groupTargets [] targets) := by
          rw [zip_groups]; exact List.take_sublist _ _
        refine ⟨(values.zip (groupTargets [] targets)).zipIdx.map fun p =>
          (p.1.2, (getSorted w fuel p.1.1 (acc ++ [.index p.2]) p.1.2.2 items order).getD []), by rw [List.flatMap_map], ?_, ?_, ?_⟩
        · intro x hx
          obtain ⟨p, hpm, rfl⟩ := List.mem_map.1 hx
          exact hsub.subset (List.mem_map.2 ⟨p, hpm, rfl⟩)
        · rw [List.pairwise_map]
          have := hdiff.sublist hsub
          rw [List.pairwise_map] at this
          exact this
        · intro x hx
          obtain ⟨p, hpm, rfl⟩ := List.mem_map.1 hx
          obtain ⟨ys, hys⟩ := h2 p hpm
          exact .inr ⟨_, _, _, _, by simp only; rw [hys, Option.getD_some]⟩
      · injection h with h
        subst h
        exact hrest
    · injection h with h
      subst h
      exact hrest

/-- The items of a group. -/
theorem group_path {path : T → List Accessor} {pre : List Accessor} {targets : List (Target T)} (hp : ∀ t ∈ targets, path t.2 = pre ++ t.1)
    {g : Accessor × List (Target T)} (hg : g ∈ groupTargets [] targets) : ∀ t ∈ g.2, path t.2 = (pre ++ [g.1]) ++ t.1 := by
  intro t ht
  rw [group_items targets hg] at ht
  obtain ⟨as, t⟩ := t
  rw [hp _ (mem_tailsOf.1 ht)]; simp

theorem empty_path {path : T → List Accessor} {pre : List Accessor} {targets : List (Target T)} (hp : ∀ t ∈ targets, path t.2 = pre ++ t.1) :
    ∀ x ∈ emptyTargets targets, path x = pre := by
  intro x hx
  unfold emptyTargets at hx
  obtain ⟨⟨p, t⟩, ht, he⟩ := List.mem_filterMap.1 hx
  simp only at he
  split at he
  · rename_i hemp
    injection he with he; subst he
    rw [hp _ ht, List.isEmpty_iff.1 hemp, List.append_nil]
  · cases he

/-- The block of a group has items of the group only. -/
theorem block_path (w : SchemaWorld S σ) {fuel : Nat} {path : T → List Accessor} {pre : List Accessor} {targets : List (Target T)}
    (hp : ∀ t ∈ targets, path t.2 = pre ++ t.1) {x : (Accessor × List (Target T)) × List T} (hg : x.1 ∈ groupTargets [] targets)
    (hx : x.2 = x.1.2.map (·.2) ∨ ∃ v a s o, getSorted w fuel v a x.1.2 s o = some x.2) :
    ∀ y ∈ x.2, ∃ p, path y = pre ++ x.1.1 :: p := by
  intro y hy
  rcases hx with hx | ⟨v, a, s, o, hx⟩
  · rw [hx] at hy
    obtain ⟨t, ht, rfl⟩ := List.mem_map.1 hy
    exact ⟨t.1, by rw [group_path hp hg t ht]; simp⟩
  · obtain ⟨p, hpm⟩ := getSorted_mem w hx hy
    exact ⟨p, by rw [group_path hp hg _ hpm]; simp⟩

theorem tails_rel {R : T → T → Prop} {a : Accessor} {ts : List (Target T)} (h : ts.Pairwise fun x y => R x.2 y.2) :
    (tailsOf a ts).Pairwise fun x y => R x.2 y.2 := by
  unfold tailsOf
  rw [List.pairwise_filterMap]
  refine h.imp fun {x y} hb x' hx y' hy => ?_
  obtain ⟨p, t⟩ := x
  obtain ⟨q, t'⟩ := y
  cases p with
  | nil => cases hx
  | cons b p =>
    cases q with
    | nil => cases hy
    | cons c q =>
      simp only at hx hy hb
      split at hx
      · split at hy
        · cases hx; cases hy; exact hb
        · cases hy
      · cases hx

/-- An item comes before one it lies in only if it did so before sorting. -/
theorem getSorted_prefix (w : SchemaWorld S σ) (path : T → List Accessor) (R : T → T → Prop) :
    ∀ (fuel : Nat) (value : DValue σ) (acc : List Accessor) (targets : List (Target T)) (schema : Option S)
      (order : Option KeysOrder) (rs : List T) (pre : List Accessor),
      getSorted w fuel value acc targets schema order = some rs → (∀ t ∈ targets, path t.2 = pre ++ t.1) →
      (targets.Pairwise fun x y => R x.2 y.2) →
      rs.Pairwise fun x y => path y <+: path x → path x = path y ∨ R x y := by
  intro fuel
  induction fuel with
  | zero => intro value acc targets schema order rs pre h; cases h
  | succ fuel ih =>
    intro value acc targets schema order rs pre h hp hb
    rcases getSorted_shape w h with ⟨s, o, h⟩ | ⟨l, rfl, h1, h2, h3⟩
    · exact ih value acc targets s o rs pre h hp hb
    · have hpath := fun x hx => block_path w hp (h1 x hx) (h3 x hx)
      refine List.pairwise_append.2 ⟨?_, ?_, fun x hx y hy hxy => ?_⟩
      · exact List.pairwise_of_forall_mem_list fun x hx y hy _ => .inl (by rw [empty_path hp x hx, empty_path hp y hy])
      · rw [List.pairwise_flatMap]
        refine ⟨fun x hx => ?_, h2.imp_of_mem fun {x x'} hx hx' hne y hy y' hy' hle => ?_⟩
        · have hr := tails_rel (a := x.1.1) hb
          rw [← group_items targets (h1 x hx)] at hr
          rcases h3 x hx with e | ⟨v, a, s, o, e⟩
          · rw [e, List.pairwise_map]
            exact hr.imp fun h _ => .inr h
          · exact ih v a x.1.2 s o x.2 (pre ++ [x.1.1]) e (group_path hp (h1 x hx)) hr
        · obtain ⟨p, e⟩ := hpath x hx y hy
          obtain ⟨p', e'⟩ := hpath x' hx' y' hy'
          rw [e, e', List.prefix_append_right_inj, List.cons_prefix_cons] at hle
          exact absurd hle.1.symm hne
      · obtain ⟨z, hz, hy⟩ := List.mem_flatMap.1 hy
        obtain ⟨p, e⟩ := hpath z hz y hy
        rw [e, empty_path hp x hx] at hxy
        have := hxy.length_le
        simp only [List.length_append, List.length_cons] at this
        omega

/-- Items with the same value stand together. -/
def Together {α β : Type} (f : α → β) (l : List α) : Prop :=
  ∀ a x m y r, l = a ++ x :: (m ++ y :: r) → f x = f y → ∀ z ∈ m, f z = f y

theorem together_const {α β : Type} {f : α → β} {l : List α} {c : β} (h : ∀ x ∈ l, f x = c) : Together f l := by
  rintro a x m y r rfl - z hz
  rw [h z (by simp [hz]), h y (by simp)]

/-- Two lists without a common value. -/
theorem together_append {α β : Type} {f : α → β} {l l' : List α} (h : Together f l) (h' : Together f l')
    (hd : ∀ x ∈ l, ∀ y ∈ l', f x ≠ f y) : Together f (l ++ l') := by
  intro a x m y r e hxy z hz
  rcases List.append_eq_append_iff.1 e with ⟨t, rfl, e2⟩ | ⟨t, rfl, e2⟩
  · exact h' t x m y r e2 hxy z hz
  · cases t with
    | nil => exact h' [] x m y r (by simpa using e2.symm) hxy z hz
    | cons x' t =>
      simp only [List.cons_append, List.cons.injEq] at e2
      obtain ⟨rfl, e3⟩ := e2
      rcases List.append_eq_append_iff.1 e3 with ⟨u, rfl, e4⟩ | ⟨u, rfl, e4⟩
      · cases u with
        | nil =>
          simp only [List.nil_append] at e4
          exact absurd hxy (hd x (by simp) y (by rw [← e4]; simp))
        | cons y' u =>
          simp only [List.cons_append, List.cons.injEq] at e4
          obtain ⟨rfl, rfl⟩ := e4
          exact h a x m y u (by simp) hxy z hz
      · exact absurd hxy (hd x (by simp) y (by rw [e4]; simp))

theorem together_flatMap {α β γ : Type} {f : α → β} {g : γ → List α} {l : List γ} (c : γ → β) (h : ∀ b ∈ l, ∀ x ∈ g b, f x = c b)
    (hd : l.Pairwise fun b b' => c b ≠ c b') : Together f (l.flatMap g) := by
  induction l with
  | nil => rintro a x m y r e; simp at e
  | cons b l ih =>
    obtain ⟨h1, h2⟩ := List.pairwise_cons.1 hd
    rw [List.flatMap_cons]
    refine together_append (together_const (h b List.mem_cons_self)) (ih (fun b hb => h b (List.mem_cons_of_mem _ hb)) h2) ?_
    intro x hx y hy e
    obtain ⟨b', hb', hy⟩ := List.mem_flatMap.1 hy
    rw [h b List.mem_cons_self x hx, h b' (List.mem_cons_of_mem _ hb') y hy] at e
    exact h1 b' hb' e

/-- Items with the same first accessor stand together. -/
theorem getSorted_together (w : SchemaWorld S σ) (path : T → List Accessor) :
    ∀ (fuel : Nat) (value : DValue σ) (acc : List Accessor) (targets : List (Target T)) (schema : Option S)
      (order : Option KeysOrder) (rs : List T),
      getSorted w fuel value acc targets schema order = some rs → (∀ t ∈ targets, path t.2 = t.1) →
      Together (fun x => (path x).head?) rs := by
  intro fuel
  induction fuel with
  | zero => intro value acc targets schema order rs h; cases h
  | succ fuel ih =>
    intro value acc targets schema order rs h hp
    rcases getSorted_shape w h with ⟨s, o, h⟩ | ⟨l, rfl, h1, h2, h3⟩
    · exact ih value acc targets s o rs h hp
    · have hp' : ∀ t ∈ targets, path t.2 = [] ++ t.1 := hp
      have hpath := fun x hx => block_path w hp' (h1 x hx) (h3 x hx)
      refine together_append (together_const (c := none) fun x hx => by rw [empty_path hp' x hx]; rfl)
        (together_flatMap (fun x => some x.1.1) (fun x hx y hy => ?_) (h2.imp fun h e => h (Option.some.inj e))) ?_
      · obtain ⟨p, e⟩ := hpath x hx y hy
        rw [e]; rfl
      · intro x hx y hy e
        obtain ⟨z, hz, hy⟩ := List.mem_flatMap.1 hy
        obtain ⟨p, ep⟩ := hpath z hz y hy
        simp only [empty_path hp' x hx, ep] at e
        simp at e

end Tombi
