import Verif.Proofs.KeysOrder3

/-! Sorting sorts: the order of the keys after `sortTargets`, `sortTableTargets` and `getSorted`. -/
namespace Tombi
open Spec VersionSort

variable {T S σ α : Type}

theorem cmpText_cmp : Cmp cmpText := by
  have : cmpText = fun a b => lexList (fun x y : Nat => compare x y) (a.map Char.toNat) (b.map Char.toNat) := by
    funext a b; exact cmpText_eq a b
  rw [this]
  exact (cmp_nat.lex).comap _

theorem textLe_iff (a b : List Char) : textLe a b ↔ cmpText a b ≠ .gt := by
  unfold textLe
  refine not_congr ?_
  induction a generalizing b with
  | nil =>
    cases b with
    | nil => exact ⟨fun h => (nomatch h), fun h => (by cases h)⟩
    | cons b bs => exact ⟨fun h => (nomatch h), fun h => (by cases h)⟩
  | cons a as ih =>
    cases b with
    | nil => exact ⟨fun _ => rfl, fun _ => .nil⟩
    | cons b bs =>
      rw [cmpText]
      constructor
      · intro h
        cases h with
        | rel h => rw [Nat.compare_eq_gt.2 h]; rfl
        | cons h => rw [Nat.compare_eq_eq.2 rfl]; exact (ih bs).1 h
      · intro h
        rcases Nat.lt_trichotomy a.toNat b.toNat with hl | he | hg
        · rw [Nat.compare_eq_lt.2 hl] at h; cases h
        · rw [Nat.compare_eq_eq.2 he] at h
          have : a = b := Char.toNat_inj.1 he
          subst this
          exact .cons ((ih bs).2 h)
        · exact .rel hg

theorem leOn_cmp {c : List Char → List Char → Ordering} (h : Cmp c) (f : Accessor → Accessor → Option Ordering)
    (hf : ∀ a b, f (.key a) (.key b) = some (c a b)) :
    LeOn (fun x : Accessor × α => x.1.isKey = true) (fun a b => isLe (f a.1 b.1)) := by
  have ht := h.total
  have hle : ∀ a b, isLe (f (.key a) (.key b)) = true ↔ c a b ≠ .gt := by
    intro a b; rw [hf]; unfold isLe; cases c a b <;> decide
  refine ⟨fun a b ha hb => ?_, fun a b d ha hb hd h1 h2 => ?_⟩
  · obtain ⟨a, x⟩ := a
    obtain ⟨b, y⟩ := b
    cases a with
    | index i => cases ha
    | key a =>
      cases b with
      | index i => cases hb
      | key b =>
        simp only [hle]
        rw [ht.swap a b]
        cases c a b <;> simp [Ordering.swap]
  · obtain ⟨a, x⟩ := a
    obtain ⟨b, y⟩ := b
    obtain ⟨d, z⟩ := d
    cases a with
    | index i => cases ha
    | key a =>
      cases b with
      | index i => cases hb
      | key b =>
        cases d with
        | index i => cases hd
        | key d =>
          simp only [hle] at h1 h2 ⊢
          exact ht.trans a b d h1 h2

theorem schemaSort_pairwise (done ps : List Accessor) (l : List (Accessor × α)) (h : ∀ x ∈ l, x.1 ∉ done) :
    (schemaSort ps l).Pairwise fun x y => (done ++ ps).idxOf x.1 ≤ (done ++ ps).idxOf y.1 := by
  induction ps generalizing done l with
  | nil =>
    rw [schemaSort, List.append_nil]
    refine List.pairwise_of_forall_mem_list fun x hx y hy => ?_
    rw [List.idxOf_eq_length (h x hx), List.idxOf_eq_length (h y hy)]
    exact Nat.le_refl _
  | cons a ps ih =>
    rw [schemaSort]
    refine List.pairwise_append.2 ⟨?_, ?_, fun x hx y hy => ?_⟩
    · refine List.pairwise_of_forall_mem_list fun x hx y hy => ?_
      have h1 := (List.mem_filter.1 hx).2
      have h2 := (List.mem_filter.1 hy).2
      rw [beq_iff_eq] at h1 h2
      rw [h1, h2]; exact Nat.le_refl _
    · have := ih (done ++ [a]) (l.filter fun t => t.1 != a) (fun x hx => ?_)
      · simpa using this
      · obtain ⟨h1, h2⟩ := List.mem_filter.1 hx
        rw [List.mem_append, List.mem_singleton]
        rintro (hc | hc)
        · exact h x h1 hc
        · simp [hc] at h2
    · have h1 := (List.mem_filter.1 hx).2
      rw [beq_iff_eq] at h1
      obtain ⟨h2, h3⟩ := List.mem_filter.1 ((schemaSort_perm _ _).mem_iff.1 hy)
      have hx' := h x (List.mem_filter.1 hx).1
      have hy' := h y h2
      rw [h1] at hx' ⊢
      rw [List.idxOf_append, List.idxOf_append, if_neg hx', if_neg hy', List.idxOf_cons_self]
      omega

theorem sortTargets_pairwise (l : List (Accessor × α)) (o : KeysOrder) (ps : List Accessor) (ops : Option (List Accessor))
    (hops : ops = some ps ∨ o ≠ .schema) (hl : ∀ x ∈ l, x.1.isKey = true) :
    (sortTargets l o ops).Pairwise fun x y => OrderLe ps o x.1 y.1 := by
  have hmem : ∀ x ∈ sortTargets l o ops, x.1.isKey = true := fun x hx =>
    hl x ((sortTargets_perm l o ops).mem_iff.1 hx)
  have conv : ∀ {c : List Char → List Char → Ordering} {f : Accessor → Accessor → Option Ordering} {s : List (Accessor × α)},
      (∀ a b, f (.key a) (.key b) = some (c a b)) → (∀ x ∈ s, x.1.isKey = true) →
      s.Pairwise (fun x y => isLe (f x.1 y.1) = true) →
      s.Pairwise fun x y => ∃ a b, x.1 = .key a ∧ y.1 = .key b ∧ c a b ≠ .gt := by
    intro c f s hf hs h
    refine h.imp_of_mem fun {x y} hx hy hle => ?_
    have hx := hs x hx
    have hy := hs y hy
    cases hx1 : x.1 with
    | index i => rw [hx1] at hx; cases hx
    | key a =>
      cases hy1 : y.1 with
      | index i => rw [hy1] at hy; cases hy
      | key b =>
        refine ⟨a, b, rfl, rfl, ?_⟩
        rw [hx1, hy1, hf] at hle
        intro hc
        rw [hc] at hle
        cases hle
  cases o with
  | ascending =>
    have hs : sortTargets l .ascending ops = stableSort (fun a b => isLe (KeysOrder.ascending.cmp a.1 b.1)) l := by
      cases ops <;> rfl
    rw [hs] at hmem ⊢
    refine (conv (c := cmpText) (fun _ _ => rfl) hmem
      (stableSort_pairwise (leOn_cmp cmpText_cmp _ (fun _ _ => rfl)) hl)).imp ?_
    rintro ⟨x, _⟩ ⟨y, _⟩ ⟨a, b, hx, hy, hc⟩
    simp only at hx hy; subst hx hy
    exact (textLe_iff a b).2 hc
  | descending =>
    have hs : sortTargets l .descending ops = stableSort (fun a b => isLe (KeysOrder.descending.cmp a.1 b.1)) l := by
      cases ops <;> rfl
    rw [hs] at hmem ⊢
    refine (conv (c := fun a b => cmpText b a) (fun _ _ => rfl) hmem
      (stableSort_pairwise (leOn_cmp cmpText_cmp.flip _ (fun _ _ => rfl)) hl)).imp ?_
    rintro ⟨x, _⟩ ⟨y, _⟩ ⟨a, b, hx, hy, hc⟩
    simp only at hx hy; subst hx hy
    exact (textLe_iff b a).2 hc
  | versionSort =>
    have hs : sortTargets l .versionSort ops = stableSort (fun a b => isLe (KeysOrder.versionSort.cmp a.1 b.1)) l := by
      cases ops <;> rfl
    rw [hs] at hmem ⊢
    refine (conv (c := versionSort) (fun _ _ => rfl) hmem
      (stableSort_pairwise (leOn_cmp versionSort_cmp _ (fun _ _ => rfl)) hl)).imp ?_
    rintro ⟨x, _⟩ ⟨y, _⟩ ⟨a, b, hx, hy, hc⟩
    simp only at hx hy; subst hx hy
    exact hc
  | schema =>
    rcases hops with rfl | h
    · have := schemaSort_pairwise [] ps l (fun _ _ => by simp)
      rw [List.nil_append] at this
      refine List.Pairwise.imp (fun {x y} h => ?_) this
      obtain ⟨x, x'⟩ := x
      obtain ⟨y, y'⟩ := y
      cases x <;> cases y <;> exact h
    · exact absurd rfl h

/-! ### Slots -/

theorem fillSlots_spec (p : α → Bool) (l s : List α) (hs : s.length = (l.filter p).length) :
    (fillSlots (l.map p) s (l.filter fun x => !p x)).length = l.length ∧
    (∀ (i : Nat) x, l[i]? = some x → p x = false → (fillSlots (l.map p) s (l.filter fun x => !p x))[i]? = some x) ∧
    ((∀ x ∈ s, p x = true) → (fillSlots (l.map p) s (l.filter fun x => !p x)).filter p = s) := by
  induction l generalizing s with
  | nil =>
    cases s with
    | nil => exact ⟨rfl, fun i x h => by simp at h, fun _ => rfl⟩
    | cons a s => simp at hs
  | cons a l ih =>
    by_cases ha : p a = true
    · rw [List.filter_cons, if_pos ha, List.length_cons] at hs
      cases s with
      | nil => simp at hs
      | cons b s =>
        have hs' : s.length = (l.filter p).length := by simpa using hs
        obtain ⟨h1, h2, h3⟩ := ih s hs'
        have heq : fillSlots ((a :: l).map p) (b :: s) ((a :: l).filter fun x => !p x) =
            b :: fillSlots (l.map p) s (l.filter fun x => !p x) := by
          rw [List.map_cons, ha, List.filter_cons, if_neg (by simp [ha])]; rfl
        rw [heq]
        refine ⟨by simp [h1], fun i x hx hpx => ?_, fun hall => ?_⟩
        · cases i with
          | zero =>
            simp only [List.getElem?_cons_zero, Option.some.injEq] at hx
            rw [hx, hpx] at ha; cases ha
          | succ i => exact h2 i x hx hpx
        · rw [List.filter_cons, if_pos (hall b List.mem_cons_self), h3 fun x hx => hall x (List.mem_cons_of_mem _ hx)]
    · have ha : p a = false := by simpa using ha
      rw [List.filter_cons, if_neg (by simp [ha])] at hs
      obtain ⟨h1, h2, h3⟩ := ih s hs
      have heq : fillSlots ((a :: l).map p) s ((a :: l).filter fun x => !p x) =
          a :: fillSlots (l.map p) s (l.filter fun x => !p x) := by
        rw [List.map_cons, ha, List.filter_cons, if_pos (by simp [ha])]
        cases s <;> rfl
      rw [heq]
      refine ⟨by simp [h1], fun i x hx hpx => ?_, fun hall => ?_⟩
      · cases i with
        | zero => exact hx
        | succ i => exact h2 i x hx hpx
      · rw [List.filter_cons, if_neg (by simp [ha]), h3 hall]

/-! ### Groups -/

/-- The order of the first group that names a kind. -/
def orderOf (gs : List (GroupKind × KeysOrder)) (kind : GroupKind) : Option KeysOrder :=
  (gs.find? fun g => g.1 == kind).map (·.2)

theorem sortGroups_pairwise (ps : List Accessor) (kindOf : Accessor → GroupKind) (gs : List (GroupKind × KeysOrder))
    (l : List (Accessor × α)) (hl : ∀ x ∈ l, x.1.isKey = true) :
    (sortGroups ps kindOf gs l).Pairwise fun x y =>
      (kindOf x.1 = kindOf y.1 ∧ ∃ o, orderOf gs (kindOf x.1) = some o ∧ OrderLe ps o x.1 y.1) ∨
      gs.findIdx (·.1 == kindOf x.1) < gs.findIdx (·.1 == kindOf y.1) := by
  induction gs generalizing l with
  | nil => exact List.Pairwise.nil
  | cons g gs ih =>
    obtain ⟨kind, o⟩ := g
    rw [sortGroups]
    refine List.pairwise_append.2 ⟨?_, ?_, fun x hx y hy => ?_⟩
    · refine (sortTargets_pairwise _ o ps _ (Or.inl rfl) (fun x hx => hl x (List.mem_filter.1 hx).1)).imp_of_mem ?_
      intro x y hx hy h
      have hx := (List.mem_filter.1 ((sortTargets_perm _ _ _).mem_iff.1 hx)).2
      have hy := (List.mem_filter.1 ((sortTargets_perm _ _ _).mem_iff.1 hy)).2
      rw [beq_iff_eq] at hx hy
      refine Or.inl ⟨by rw [hx, hy], o, ?_, h⟩
      unfold orderOf
      rw [List.find?_cons_of_pos (by simp [hx])]
      rfl
    · refine (ih _ (fun x hx => hl x (List.mem_filter.1 hx).1)).imp_of_mem ?_
      intro x y hx hy h
      have hx := (List.mem_filter.1 (List.mem_filter.1 ((sortGroups_perm _ _ _ _).mem_iff.1 hx)).1).2
      have hy := (List.mem_filter.1 (List.mem_filter.1 ((sortGroups_perm _ _ _ _).mem_iff.1 hy)).1).2
      simp only [bne_iff_ne, ne_eq] at hx hy
      have h1 : (kind == kindOf x.1) = false := by simpa using fun e : kind = _ => hx e.symm
      have h2 : (kind == kindOf y.1) = false := by simpa using fun e : kind = _ => hy e.symm
      rcases h with ⟨h3, o', h4, h5⟩ | h3
      · refine Or.inl ⟨h3, o', ?_, h5⟩
        unfold orderOf at h4 ⊢
        rw [List.find?_cons_of_neg (by simp [h1])]
        exact h4
      · right
        rw [List.findIdx_cons, List.findIdx_cons, h1, h2]
        simpa using h3
    · have hx := (List.mem_filter.1 ((sortTargets_perm _ _ _).mem_iff.1 hx)).2
      have hy := (List.mem_filter.1 (List.mem_filter.1 ((sortGroups_perm _ _ _ _).mem_iff.1 hy)).1).2
      rw [beq_iff_eq] at hx
      simp only [bne_iff_ne, ne_eq] at hy
      have h2 : (kind == kindOf y.1) = false := by simpa using fun e : kind = _ => hy e.symm
      right
      rw [List.findIdx_cons, List.findIdx_cons, hx, h2]
      simp

/-! ### `getSorted` -/

theorem getSorted_mem (w : SchemaWorld S σ) {fuel : Nat} {value : DValue σ} {acc : List Accessor}
    {targets : List (Target T)} {schema : Option S} {order : Option KeysOrder} {rs : List T}
    (h : getSorted w fuel value acc targets schema order = some rs) {x : T} (hx : x ∈ rs) : ∃ p, (p, x) ∈ targets := by
  induction fuel generalizing value acc targets schema order rs with
  | zero => cases h
  | succ fuel ih =>
    have hempty : ∀ y ∈ emptyTargets targets, ∃ p, (p, y) ∈ targets := by
      intro y hy
      unfold emptyTargets at hy
      obtain ⟨⟨p, t⟩, ht, he⟩ := List.mem_filterMap.1 hy
      simp only at he
      split at he
      · injection he with he; subst he; exact ⟨_, ht⟩
      · cases he
    have hgroup : ∀ g ∈ groupTargets [] targets, ∀ y p, (p, y) ∈ g.2 → ∃ p, (p, y) ∈ targets := by
      intro g hg y p hp
      rw [group_items targets hg] at hp
      exact ⟨_, mem_tailsOf.1 hp⟩
    have hrest : x ∈ emptyTargets targets ++ (groupTargets [] targets).flatMap (fun g => g.2.map (·.2)) →
        ∃ p, (p, x) ∈ targets := by
      intro hx
      rcases List.mem_append.1 hx with hx | hx
      · exact hempty x hx
      · obtain ⟨g, hg, hx⟩ := List.mem_flatMap.1 hx
        obtain ⟨⟨p, t⟩, ht, rfl⟩ := List.mem_map.1 hx
        exact hgroup g hg _ p ht
    rw [getSorted] at h
    split at h
    · split at h
      · cases h
      · exact ih h hx
    · simp only [] at h
      split at h
      · split at h
        · obtain ⟨xs, hxs, rfl⟩ := Option.map_eq_some_iff.1 h
          obtain ⟨h1, h2⟩ := collect_map _ _ _ hxs
          rcases List.mem_append.1 hx with hx | hx
          · exact hempty x hx
          · rw [h1] at hx
            obtain ⟨g, hg, hx⟩ := List.mem_flatMap.1 hx
            obtain ⟨ys, hys⟩ := h2 g hg
            rw [hys] at hx
            obtain ⟨p, hp⟩ := ih hys hx
            exact hgroup g ((orderedGroups_perm _ _ _ _ _ _).mem_iff.1 hg) x p hp
        · injection h with h; subst h; exact hrest hx
      · split at h
        · obtain ⟨xs, hxs, rfl⟩ := Option.map_eq_some_iff.1 h
          obtain ⟨h1, h2⟩ := collect_map _ _ _ hxs
          rcases List.mem_append.1 hx with hx | hx
          · exact hempty x hx
          · rw [h1] at hx
            obtain ⟨⟨⟨v, g⟩, n⟩, hg, hx⟩ := List.mem_flatMap.1 hx
            obtain ⟨ys, hys⟩ := h2 _ hg
            rw [hys] at hx
            obtain ⟨p, hp⟩ := ih hys hx
            have := List.mem_zipIdx_iff_getElem?.1 hg
            simp only at this
            exact hgroup g (List.of_mem_zip (List.mem_of_getElem? this)).2 x p hp
        · injection h with h; subst h; exact hrest hx
      · injection h with h; subst h; exact hrest hx

/-- Without a schema and without overrides, all keys are put in order, at all depths. -/
theorem getSorted_sorted (w : SchemaWorld S σ) (path : T → List Accessor) (o : KeysOrder) (ho : o ≠ .schema)
    (hw : ∀ acc, w.directiveOverride acc = none ∧ w.schemaOverride none acc = none) :
    ∀ (fuel : Nat) (kind : TableKind) (entries : DEntries σ) (acc : List Accessor) (targets : List (Target T)) (rs : List T)
      (pre : List Accessor), getSorted w fuel (.table kind entries) acc targets none (some o) = some rs →
      (∀ t ∈ targets, path t.2 = pre ++ t.1) → (∀ t ∈ targets, ∀ a ∈ t.1, a.isKey = true) →
      rs.Pairwise fun x y => NotAfter (OrderLe [] o) (path x) (path y) := by
  intro fuel
  induction fuel with
  | zero => intro kind entries acc targets rs pre h; cases h
  | succ fuel ih =>
    intro kind entries acc targets rs pre h hp hk
    rw [getSorted] at h
    simp only [Option.map_none] at h
    have hkeys : (groupTargets [] targets).all (·.1.isKey) = true := by
      rw [List.all_eq_true]
      intro g hg
      obtain ⟨as, t, hm⟩ := (group_keys targets g.1).1 (List.mem_map.2 ⟨g, hg, rfl⟩)
      exact hk _ hm g.1 List.mem_cons_self
    rw [if_pos hkeys] at h
    obtain ⟨xs, hxs, rfl⟩ := Option.map_eq_some_iff.1 h
    obtain ⟨h1, h2⟩ := collect_map _ _ _ hxs
    have hord : orderedGroups w acc none none (some o) (groupTargets [] targets) =
        sortTargets (groupTargets [] targets) o none := by
      unfold orderedGroups
      rw [(hw acc).1, (hw acc).2]
      rfl
    have hempty : ∀ x ∈ emptyTargets targets, path x = pre := by
      intro x hx
      unfold emptyTargets at hx
      obtain ⟨⟨p, t⟩, ht, he⟩ := List.mem_filterMap.1 hx
      simp only at he
      split at he
      · rename_i hemp
        injection he with he; subst he
        rw [hp _ ht, List.isEmpty_iff.1 hemp, List.append_nil]
      · cases he
    have hctx : ∀ a, groupContext (S := S) (.table kind entries) entries none a = (.table kind entries, none) := by
      intro a; unfold groupContext; cases dget entries a.display <;> rfl
    simp only [Option.bind_none, hctx] at h1 h2
    rw [hord] at h1 h2
    have hgp : ∀ g ∈ sortTargets (groupTargets [] targets) o none, ∀ t ∈ g.2, path t.2 = (pre ++ [g.1]) ++ t.1 ∧
        ∀ a ∈ t.1, a.isKey = true := by
      intro g hg t ht
      have hg := (sortTargets_perm _ _ _).mem_iff.1 hg
      rw [group_items targets hg] at ht
      obtain ⟨as, t⟩ := t
      have hm := mem_tailsOf.1 ht
      exact ⟨by rw [hp _ hm]; simp, fun a ha => hk _ hm a (List.mem_cons_of_mem _ ha)⟩
    have hres : ∀ g ∈ sortTargets (groupTargets [] targets) o none, ∀ x ∈ (getSorted w fuel (DValue.table kind entries)
        (acc ++ [g.1]) g.2 none (some o)).getD [], ∃ p, path x = pre ++ g.1 :: p := by
      intro g hg x hx
      obtain ⟨ys, hys⟩ := h2 g hg
      rw [hys] at hx
      obtain ⟨p, hpm⟩ := getSorted_mem w hys hx
      exact ⟨p, by rw [(hgp g hg _ hpm).1]; simp⟩
    refine List.pairwise_append.2 ⟨?_, ?_, fun x hx y hy => ?_⟩
    · refine List.pairwise_of_forall_mem_list fun x hx y hy => Or.inl ?_
      rw [hempty x hx, hempty y hy]
      exact List.prefix_refl _
    · rw [h1, List.pairwise_flatMap]
      refine ⟨fun g hg => ?_, ?_⟩
      · obtain ⟨ys, hys⟩ := h2 g hg
        rw [hys]
        exact ih kind entries _ g.2 ys (pre ++ [g.1]) hys (fun t ht => (hgp g hg t ht).1) (fun t ht => (hgp g hg t ht).2)
      · have hnd : ((sortTargets (groupTargets [] targets) o none).map (·.1)).Nodup :=
          ((sortTargets_perm _ _ _).map _).nodup_iff.2 (group_nodup targets)
        rw [List.nodup_iff_pairwise_ne, List.pairwise_map] at hnd
        have hso := sortTargets_pairwise (groupTargets [] targets) o [] none (Or.inr ho) (List.all_eq_true.1 hkeys)
        refine (hnd.and hso).imp_of_mem fun {g g'} hg hg' hne x hx y hy => Or.inr ?_
        obtain ⟨p, hpx⟩ := hres g hg x hx
        obtain ⟨p', hpy⟩ := hres g' hg' y hy
        exact ⟨pre, g.1, g'.1, p, p', hpx, hpy, hne.1, hne.2⟩
    · rw [h1] at hy
      obtain ⟨g, hg, hy⟩ := List.mem_flatMap.1 hy
      obtain ⟨p, hpy⟩ := hres g hg y hy
      rw [hempty x hx, hpy]
      exact Or.inl (List.prefix_append _ _)

/-- Enough fuel, and no combined schemas: there is a result. -/
theorem getSorted_some (w : SchemaWorld S σ) (hw : ∀ s acc schemas o, w.view s acc ≠ .combined schemas o) :
    ∀ (fuel : Nat) (value : DValue σ) (acc : List Accessor) (targets : List (Target T)) (schema : Option S)
      (order : Option KeysOrder), (∀ t ∈ targets, t.1.length < fuel) → 0 < fuel →
      ∃ rs, getSorted w fuel value acc targets schema order = some rs := by
  intro fuel
  have hcollect : ∀ {α β : Type} (f : α → Option (List β)) (l : List α), (∀ x ∈ l, ∃ ys, f x = some ys) →
      ∃ ys, collect (l.map f) = some ys := by
    intro α β f l h
    induction l with
    | nil => exact ⟨[], rfl⟩
    | cons a l ihl =>
      obtain ⟨ys, hys⟩ := h a List.mem_cons_self
      obtain ⟨zs, hzs⟩ := ihl fun x hx => h x (List.mem_cons_of_mem _ hx)
      exact ⟨ys ++ zs, by rw [List.map_cons, hys, collect, hzs]; rfl⟩
  induction fuel with
  | zero => intro value acc targets schema order _ h; omega
  | succ fuel ih =>
    intro value acc targets schema order hlen _
    have hsub : ∀ g ∈ groupTargets [] targets, (∀ t ∈ g.2, t.1.length < fuel) ∧ 0 < fuel := by
      intro g hg
      refine ⟨fun t ht => ?_, ?_⟩
      · rw [group_items targets hg] at ht
        obtain ⟨as, t⟩ := t
        have := hlen _ (mem_tailsOf.1 ht)
        simp only [List.length_cons] at this ⊢
        omega
      · obtain ⟨as, t, hm⟩ := (group_keys targets g.1).1 (List.mem_map.2 ⟨g, hg, rfl⟩)
        have := hlen _ hm
        simp only [List.length_cons] at this
        omega
    rw [getSorted]
    split
    · rename_i schemas ko hview
      cases schema with
      | none => cases hview
      | some s => injection hview with hview; exact absurd hview (hw s acc schemas ko)
    · simp only []
      split
      · split
        · obtain ⟨ys, hys⟩ := hcollect _ _ fun g (hg : g ∈ orderedGroups w acc schema _ order (groupTargets [] targets)) =>
            ih _ (acc ++ [g.1]) g.2 _ order (hsub g ((orderedGroups_perm _ _ _ _ _ _).mem_iff.1 hg)).1
              (hsub g ((orderedGroups_perm _ _ _ _ _ _).mem_iff.1 hg)).2
          exact ⟨_, by rw [hys]; rfl⟩
        · exact ⟨_, rfl⟩
      · rename_i kind values
        split
        · have hz : ∀ p ∈ (values.zip (groupTargets [] targets)).zipIdx, p.1.2 ∈ groupTargets [] targets := by
            intro p hp
            obtain ⟨⟨v, g⟩, n⟩ := p
            have := List.mem_zipIdx_iff_getElem?.1 hp
            exact (List.of_mem_zip (List.mem_of_getElem? this)).2
          obtain ⟨ys, hys⟩ := hcollect _ _ fun p (hp : p ∈ (values.zip (groupTargets [] targets)).zipIdx) =>
            ih p.1.1 (acc ++ [.index p.2]) p.1.2.2 ((schema.map (w.view · acc)).bind SchemaView.asItems) order
              (hsub _ (hz p hp)).1 (hsub _ (hz p hp)).2
          exact ⟨_, by rw [hys]; rfl⟩
        · exact ⟨_, rfl⟩
      · exact ⟨_, rfl⟩

end Tombi
