import Verif.Model.KeysOrder
import Verif.Proofs.VersionSort2

/-! Lemmas about sorting keys: permutations, order, slots. -/
namespace Tombi

/-! ### The stable sort -/

theorem insertSorted_perm {α : Type} (le : α → α → Bool) (a : α) (l : List α) : (insertSorted le a l).Perm (a :: l) := by
  induction l with
  | nil => exact List.Perm.refl _
  | cons b rest ih =>
    unfold insertSorted
    by_cases h : le a b = true
    · rw [if_pos h]
    · rw [if_neg h]
      exact (ih.cons b).trans (List.Perm.swap a b rest)

theorem stableSort_perm {α : Type} (le : α → α → Bool) (l : List α) : (stableSort le l).Perm l := by
  induction l with
  | nil => exact List.Perm.refl _
  | cons a rest ih => exact (insertSorted_perm le a _).trans (ih.cons a)

/-- A comparison that is total and transitive on some elements. -/
structure LeOn {α : Type} (P : α → Prop) (le : α → α → Bool) : Prop where
  total : ∀ a b, P a → P b → le a b = true ∨ le b a = true
  trans : ∀ a b c, P a → P b → P c → le a b = true → le b c = true → le a c = true

theorem insertSorted_pairwise {α : Type} {P : α → Prop} {le : α → α → Bool} (hle : LeOn P le) {a : α} {l : List α}
    (ha : P a) (hl : ∀ x ∈ l, P x) (h : l.Pairwise fun x y => le x y = true) :
    (insertSorted le a l).Pairwise fun x y => le x y = true := by
  induction l with
  | nil => exact List.pairwise_singleton _ _
  | cons b rest ih =>
    unfold insertSorted
    obtain ⟨h1, h2⟩ := List.pairwise_cons.1 h
    have hb := hl b List.mem_cons_self
    have hrest : ∀ x ∈ rest, P x := fun x hx => hl x (List.mem_cons_of_mem _ hx)
    by_cases hab : le a b = true
    · rw [if_pos hab]
      refine List.pairwise_cons.2 ⟨fun x hx => ?_, h⟩
      rcases List.mem_cons.1 hx with rfl | hx
      · exact hab
      · exact hle.trans a b x ha hb (hrest x hx) hab (h1 x hx)
    · rw [if_neg hab]
      refine List.pairwise_cons.2 ⟨fun x hx => ?_, ih hrest h2⟩
      rcases List.mem_cons.1 ((insertSorted_perm le a rest).mem_iff.1 hx) with rfl | hx
      · rcases hle.total x b ha hb with h | h
        · exact absurd h hab
        · exact h
      · exact h1 x hx

theorem stableSort_pairwise {α : Type} {P : α → Prop} {le : α → α → Bool} (hle : LeOn P le) {l : List α}
    (hl : ∀ x ∈ l, P x) : (stableSort le l).Pairwise fun x y => le x y = true := by
  induction l with
  | nil => exact List.Pairwise.nil
  | cons a rest ih =>
    have hrest : ∀ x ∈ rest, P x := fun x hx => hl x (List.mem_cons_of_mem _ hx)
    exact insertSorted_pairwise hle (hl a List.mem_cons_self)
      (fun x hx => hrest x ((stableSort_perm le rest).mem_iff.1 hx)) (ih hrest)

/-- Elements that are equal for the comparison keep their order. -/
theorem insertSorted_filter {α : Type} {P : α → Prop} {le : α → α → Bool} (p : α → Bool)
    (hp : ∀ x y, P x → P y → p x = true → p y = true → le x y = true) {a : α} {l : List α} (ha : P a) (hl : ∀ x ∈ l, P x) :
    (insertSorted le a l).filter p = (a :: l).filter p := by
  induction l with
  | nil => rfl
  | cons b rest ih =>
    unfold insertSorted
    have hb := hl b List.mem_cons_self
    by_cases hab : le a b = true
    · rw [if_pos hab]
    · rw [if_neg hab, List.filter_cons, ih (fun x hx => hl x (List.mem_cons_of_mem _ hx))]
      by_cases h1 : p a = true <;> by_cases h2 : p b = true
      · exact absurd (hp a b ha hb h1 h2) hab
      all_goals simp [h1, h2]

theorem stableSort_filter {α : Type} {P : α → Prop} {le : α → α → Bool} (p : α → Bool)
    (hp : ∀ x y, P x → P y → p x = true → p y = true → le x y = true) {l : List α} (hl : ∀ x ∈ l, P x) :
    (stableSort le l).filter p = l.filter p := by
  induction l with
  | nil => rfl
  | cons a rest ih =>
    have hrest : ∀ x ∈ rest, P x := fun x hx => hl x (List.mem_cons_of_mem _ hx)
    rw [stableSort, insertSorted_filter p hp (hl a List.mem_cons_self)
      (fun x hx => hrest x ((stableSort_perm le rest).mem_iff.1 hx)), List.filter_cons, List.filter_cons, ih hrest]

/-! ### The orders of keys -/

theorem filter_split_perm {α : Type} (p : α → Bool) (l : List α) :
    (l.filter p ++ l.filter fun x => !p x).Perm l := List.filter_append_perm p l

theorem schemaSort_perm {α : Type} (ps : List Accessor) (l : List (Accessor × α)) : (schemaSort ps l).Perm l := by
  induction ps generalizing l with
  | nil => exact List.Perm.refl _
  | cons a rest ih =>
    exact ((ih _).append_left _).trans (filter_split_perm (fun t => t.1 == a) l)

theorem sortTargets_perm {α : Type} (l : List (Accessor × α)) (o : KeysOrder) (ps : Option (List Accessor)) :
    (sortTargets l o ps).Perm l := by
  cases o <;> cases ps <;> unfold sortTargets <;> first
    | exact List.Perm.refl _
    | exact schemaSort_perm _ _
    | exact stableSort_perm _ _

theorem sortGroups_perm {α : Type} (ps : List Accessor) (kindOf : Accessor → GroupKind)
    (gs : List (GroupKind × KeysOrder)) (l : List (Accessor × α)) :
    (sortGroups ps kindOf gs l).Perm (l.filter fun t => gs.any fun g => g.1 == kindOf t.1) := by
  induction gs generalizing l with
  | nil => rw [sortGroups]; simp
  | cons g rest ih =>
    obtain ⟨kind, order⟩ := g
    rw [sortGroups]
    refine ((sortTargets_perm _ _ _).append (ih _)).trans ?_
    refine List.Perm.trans ?_ (filter_split_perm (fun t => kindOf t.1 == kind) _)
    rw [List.filter_filter, List.filter_filter, List.filter_filter]
    refine List.Perm.append (List.Perm.of_eq (List.filter_congr fun x _ => ?_))
      (List.Perm.of_eq (List.filter_congr fun x _ => ?_))
    · by_cases h : kindOf x.1 = kind
      · simp [h]
      · simp [h]
    · by_cases h : kindOf x.1 = kind
      · simp [h]
      · have : (kind == kindOf x.1) = false := by simp; exact fun h' => h h'.symm
        simp [this, bne, Bool.and_comm]

theorem sortSpecified_perm {S α : Type} (t : TableView S) (gs : List (GroupKind × KeysOrder)) (l : List (Accessor × α))
    (h : ∀ x ∈ l, isSpecified gs (keyKind t x.1) = true) : (sortSpecified t gs l).Perm l := by
  have hg := sortGroups_perm t.properties (keyKind t) gs l
  unfold sortSpecified
  cases hf : fallbackOrder gs with
  | none =>
    refine hg.trans (List.Perm.of_eq (List.filter_eq_self.2 fun x hx => ?_))
    have := h x hx
    unfold isSpecified at this
    rw [hf] at this
    simpa using this
  | some o =>
    have hno : gs.any (fun g => g.1 == GroupKind.additionalKeys) = false := by
      cases hc : gs.any (fun g => g.1 == GroupKind.additionalKeys) with
      | false => rfl
      | true => unfold fallbackOrder at hf; rw [if_pos hc] at hf; cases hf
    have key : (sortTargets (l.filter fun x => keyKind t x.1 == .additionalKeys) o (some t.properties) ++
        sortGroups t.properties (keyKind t) gs l).Perm l := by
      refine ((sortTargets_perm _ _ _).append hg).trans ?_
      refine List.Perm.trans ?_ (filter_split_perm (fun x => keyKind t x.1 == .additionalKeys) l)
      refine List.Perm.append (List.Perm.refl _) (List.Perm.of_eq (List.filter_congr fun x hx => ?_))
      have hx := h x hx
      unfold isSpecified at hx
      cases hk : keyKind t x.1 with
      | additionalKeys => rw [hno]; rfl
      | keys =>
        rw [hk] at hx
        have hg : (gs.any fun g => g.1 == GroupKind.keys) = true := by simpa using hx
        rw [hg]; rfl
      | patternKeys =>
        rw [hk] at hx
        have hg : (gs.any fun g => g.1 == GroupKind.patternKeys) = true := by simpa using hx
        rw [hg]; rfl
    cases o <;> first
      | exact key
      | exact (List.perm_append_comm).trans key

theorem fillSlots_perm {α : Type} (slots : List Bool) (s u : List α) : (fillSlots slots s u).Perm (s ++ u) := by
  induction slots generalizing s u with
  | nil => exact List.Perm.refl _
  | cons b slots ih =>
    cases b with
    | true =>
      cases s with
      | nil => exact ih [] u
      | cons x s => exact (ih s u).cons x
    | false =>
      cases u with
      | nil => exact ih s []
      | cons x u => exact ((ih s u).cons x).trans (List.perm_middle.symm)

theorem sortTableTargets_perm {S α : Type} (l : List (Accessor × α)) (t : Option (TableView S)) (o : XKeysOrder) :
    (sortTableTargets l t o).Perm l := by
  cases o with
  | all o => exact sortTargets_perm _ _ _
  | groups gs =>
    cases t with
    | none => exact List.Perm.refl _
    | some t =>
      unfold sortTableTargets
      refine (fillSlots_perm _ _ _).trans (List.Perm.trans (List.Perm.append ?_ (List.Perm.refl _))
        (filter_split_perm (fun (x : Accessor × α) => isSpecified gs (keyKind t x.1)) l))
      exact sortSpecified_perm t gs _ fun x hx => (List.mem_filter.1 hx).2

theorem orderedGroups_perm {S σ T : Type} (w : SchemaWorld S σ) (acc : List Accessor) (schema : Option S)
    (table : Option (TableView S)) (order : Option KeysOrder) (groups : List (Accessor × List (Target T))) :
    (orderedGroups w acc schema table order groups).Perm groups := by
  unfold orderedGroups
  simp only []
  split
  · exact List.Perm.refl _
  · split
    · exact List.Perm.refl _
    · exact sortTableTargets_perm _ _ _

end Tombi
