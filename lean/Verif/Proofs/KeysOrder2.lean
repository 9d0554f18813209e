import Verif.Proofs.KeysOrder
import Verif.Spec.KeysOrder

/-! `getSorted` loses nothing where the accessors address the tree, and invents nothing anywhere. -/
namespace Tombi
open Spec

variable {T : Type}

theorem collect_map {α β : Type} (f : α → Option (List β)) (l : List α) (rs : List β)
    (h : collect (l.map f) = some rs) :
    rs = l.flatMap (fun x => (f x).getD []) ∧ ∀ x ∈ l, ∃ ys, f x = some ys := by
  induction l generalizing rs with
  | nil => injection h with h; exact ⟨h.symm, fun _ h => (by cases h)⟩
  | cons a rest ih =>
    rw [List.map_cons] at h
    cases ha : f a with
    | none => rw [ha] at h; cases h
    | some xs =>
      rw [ha, collect] at h
      cases hr : collect (rest.map f) with
      | none => rw [hr] at h; cases h
      | some ys =>
        rw [hr] at h
        injection h with h
        obtain ⟨h1, h2⟩ := ih ys hr
        refine ⟨?_, fun x hx => ?_⟩
        · rw [List.flatMap_cons, ha, ← h1]; exact h.symm
        · rcases List.mem_cons.1 hx with rfl | hx
          · exact ⟨xs, ha⟩
          · exact h2 x hx

/-! ### Groups -/

/-- The items below `a`. -/
def tailsOf (a : Accessor) (ts : List (Target T)) : List (Target T) :=
  ts.filterMap fun t => match t.1 with
    | [] => none
    | b :: as => if b = a then some (as, t.2) else none

theorem pushGroup_keys (a : Accessor) (t : Target T) (gs : List (Accessor × List (Target T))) :
    (pushGroup a t gs).map (·.1) = if a ∈ gs.map (·.1) then gs.map (·.1) else gs.map (·.1) ++ [a] := by
  induction gs with
  | nil => rfl
  | cons g rest ih =>
    obtain ⟨b, ts⟩ := g
    unfold pushGroup
    by_cases h : b = a
    · rw [if_pos h, if_pos (by simp [h])]; rfl
    · rw [if_neg h, List.map_cons, ih]
      by_cases hm : a ∈ rest.map (·.1)
      · rw [if_pos hm, if_pos (by rw [List.map_cons]; exact List.mem_cons_of_mem _ hm)]; rfl
      · rw [if_neg hm, if_neg (by
          rw [List.map_cons]; intro hc
          rcases List.mem_cons.1 hc with hc | hc
          · exact h hc.symm
          · exact hm hc)]
        rfl

theorem groupTargets_nodup (gs : List (Accessor × List (Target T))) (ts : List (Target T)) (h : (gs.map (·.1)).Nodup) :
    ((groupTargets gs ts).map (·.1)).Nodup := by
  induction ts generalizing gs with
  | nil => exact h
  | cons t rest ih =>
    obtain ⟨as, t⟩ := t
    cases as with
    | nil => exact ih gs h
    | cons a as =>
      refine ih _ ?_
      rw [pushGroup_keys]
      by_cases hm : a ∈ gs.map (·.1)
      · rw [if_pos hm]; exact h
      · rw [if_neg hm]
        refine List.nodup_append.2 ⟨h, by simp, fun x hx y hy => ?_⟩
        rw [List.mem_singleton] at hy; subst hy
        rintro rfl; exact hm hx

theorem pushGroup_mem (a : Accessor) (t : Target T) (gs : List (Accessor × List (Target T))) (g : Accessor × List (Target T))
    (hn : (gs.map (·.1)).Nodup)
    (h : g ∈ pushGroup a t gs) : (g.1 ≠ a ∧ g ∈ gs) ∨ (g.1 = a ∧ ∃ ts, g.2 = ts ++ [t] ∧
      ((a, ts) ∈ gs ∨ ts = [] ∧ a ∉ gs.map (·.1))) := by
  induction gs with
  | nil =>
    simp only [pushGroup, List.mem_singleton] at h
    subst h
    exact Or.inr ⟨rfl, [], rfl, Or.inr ⟨rfl, by simp⟩⟩
  | cons b rest ih =>
    obtain ⟨b, ts⟩ := b
    unfold pushGroup at h
    have hn' := List.nodup_cons.1 hn
    by_cases hb : b = a
    · rw [if_pos hb] at h
      rcases List.mem_cons.1 h with rfl | h
      · exact Or.inr ⟨hb, ts, rfl, Or.inl (by rw [hb]; exact List.mem_cons_self)⟩
      · refine Or.inl ⟨?_, List.mem_cons_of_mem _ h⟩
        rintro rfl
        have hm : g.1 ∈ rest.map (·.1) := List.mem_map_of_mem h
        rw [← hb] at hm
        exact hn'.1 hm
    · rw [if_neg hb] at h
      rcases List.mem_cons.1 h with rfl | h
      · exact Or.inl ⟨hb, List.mem_cons_self⟩
      · rcases ih hn'.2 h with ⟨h1, h2⟩ | ⟨h1, us, h2, h3⟩
        · exact Or.inl ⟨h1, List.mem_cons_of_mem _ h2⟩
        · refine Or.inr ⟨h1, us, h2, ?_⟩
          rcases h3 with h3 | ⟨h3, h4⟩
          · exact Or.inl (List.mem_cons_of_mem _ h3)
          · refine Or.inr ⟨h3, ?_⟩
            rw [List.map_cons]; intro hc
            rcases List.mem_cons.1 hc with hc | hc
            · exact hb hc.symm
            · exact h4 hc

/-- The group of an accessor has the items below it. -/
theorem groupTargets_spec (done : List (Target T)) (gs : List (Accessor × List (Target T))) (ts : List (Target T))
    (hn : (gs.map (·.1)).Nodup) (hk : ∀ a, a ∈ gs.map (·.1) ↔ ∃ as t, (a :: as, t) ∈ done)
    (hg : ∀ g ∈ gs, g.2 = tailsOf g.1 done) :
    (∀ g ∈ groupTargets gs ts, g.2 = tailsOf g.1 (done ++ ts)) ∧
    (∀ a, a ∈ (groupTargets gs ts).map (·.1) ↔ ∃ as t, (a :: as, t) ∈ done ++ ts) := by
  induction ts generalizing gs done with
  | nil => rw [List.append_nil]; exact ⟨hg, hk⟩
  | cons t rest ih =>
    obtain ⟨as, t⟩ := t
    rw [show done ++ (as, t) :: rest = (done ++ [(as, t)]) ++ rest by simp]
    have htail : ∀ a, tailsOf a (done ++ [(as, t)]) = tailsOf a done ++ tailsOf a [(as, t)] :=
      fun a => List.filterMap_append ..
    cases as with
    | nil =>
      refine ih (done ++ [([], t)]) gs hn (fun a => ?_) (fun g hm => ?_)
      · rw [hk]
        constructor
        · rintro ⟨as, t', h⟩; exact ⟨as, t', List.mem_append_left _ h⟩
        · rintro ⟨as, t', h⟩
          rcases List.mem_append.1 h with h | h
          · exact ⟨as, t', h⟩
          · simp at h
      · rw [htail, hg g hm]; simp [tailsOf]
    | cons a as =>
      refine ih (done ++ [(a :: as, t)]) (pushGroup a (as, t) gs) ?_ (fun b => ?_) (fun g hm => ?_)
      · have := groupTargets_nodup gs [(a :: as, t)] hn
        simpa [groupTargets] using this
      · rw [pushGroup_keys]
        have hmem : (∃ bs t', (b :: bs, t') ∈ done ++ [(a :: as, t)]) ↔ (∃ bs t', (b :: bs, t') ∈ done) ∨ b = a := by
          constructor
          · rintro ⟨bs, t', h⟩
            rcases List.mem_append.1 h with h | h
            · exact Or.inl ⟨bs, t', h⟩
            · simp at h; exact Or.inr h.1.1
          · rintro (⟨bs, t', h⟩ | rfl)
            · exact ⟨bs, t', List.mem_append_left _ h⟩
            · exact ⟨as, t, by simp⟩
        rw [hmem, ← hk]
        by_cases hm : a ∈ gs.map (·.1)
        · rw [if_pos hm]
          exact ⟨Or.inl, fun h => h.elim id (fun e => e ▸ hm)⟩
        · rw [if_neg hm, List.mem_append, List.mem_singleton]
      · rcases pushGroup_mem a (as, t) gs g hn hm with ⟨h1, h2⟩ | ⟨h1, us, h2, h3⟩
        · rw [htail, ← hg g h2]
          simp only [tailsOf, List.filterMap_cons, List.filterMap_nil]
          rw [if_neg (fun e => h1 e.symm)]; simp
        · rw [htail, h2, h1]
          have : us = tailsOf a done := by
            rcases h3 with h3 | ⟨rfl, h4⟩
            · exact hg _ h3
            · rw [hk] at h4
              refine (List.filterMap_eq_nil_iff.2 fun x hx => ?_).symm
              obtain ⟨xs, x⟩ := x
              cases xs with
              | nil => rfl
              | cons b bs =>
                refine if_neg ?_
                rintro rfl
                exact h4 ⟨bs, x, hx⟩
          rw [this]
          simp [tailsOf]

theorem group_items (ts : List (Target T)) {g : Accessor × List (Target T)} (h : g ∈ groupTargets [] ts) :
    g.2 = tailsOf g.1 ts :=
  (groupTargets_spec [] [] ts (by simp) (by simp) (fun _ h => (by cases h))).1 g h

theorem group_keys (ts : List (Target T)) (a : Accessor) :
    a ∈ (groupTargets [] ts).map (·.1) ↔ ∃ as t, (a :: as, t) ∈ ts :=
  (groupTargets_spec [] [] ts (by simp) (by simp) (fun _ h => (by cases h))).2 a

theorem group_nodup (ts : List (Target T)) : ((groupTargets [] ts).map (·.1)).Nodup :=
  groupTargets_nodup [] ts (by simp)

theorem mem_tailsOf {a : Accessor} {ts : List (Target T)} {as : List Accessor} {t : T} :
    (as, t) ∈ tailsOf a ts ↔ (a :: as, t) ∈ ts := by
  unfold tailsOf
  rw [List.mem_filterMap]
  constructor
  · rintro ⟨⟨xs, x⟩, hx, h⟩
    cases xs with
    | nil => cases h
    | cons b bs =>
      by_cases hb : b = a
      · simp only [hb, if_pos] at h
        injection h with h
        injection h with h1 h2
        rw [← h1, ← h2, ← hb]; exact hx
      · simp only [if_neg hb] at h; cases h
  · intro h
    exact ⟨_, h, by simp⟩

/-! ### Items with a path -/

theorem atPath_append (path : T → List Accessor) (q : List Accessor) (a b : List T) :
    atPath path q (a ++ b) = atPath path q a ++ atPath path q b := List.filter_append ..

theorem atPath_nil_of (path : T → List Accessor) (q : List Accessor) (l : List T) (h : ∀ x ∈ l, path x ≠ q) :
    atPath path q l = [] := List.filter_eq_nil_iff.2 fun x hx => by simpa using h x hx

/-- The items with one path, from the items without accessors and from the groups. -/
theorem regroup (path : T → List Accessor) (pre q : List Accessor) (ts : List (Target T))
    (hp : ∀ t ∈ ts, path t.2 = pre ++ t.1) :
    atPath path q (emptyTargets ts) ++ (groupTargets [] ts).flatMap (fun g => atPath path q (g.2.map (·.2))) =
      atPath path q (ts.map (·.2)) := by
  have htails : ∀ (ts : List (Target T)), (∀ t ∈ ts, path t.2 = pre ++ t.1) →
      (∀ a q', q = pre ++ a :: q' → atPath path q ((tailsOf a ts).map (·.2)) = atPath path q (ts.map (·.2))) := by
    intro ts
    induction ts with
    | nil => intro _ a q' _; rfl
    | cons t rest ih =>
      intro hp a q' hq
      have hrest := ih (fun t ht => hp t (List.mem_cons_of_mem _ ht)) a q' hq
      have ht := hp t List.mem_cons_self
      obtain ⟨as, t⟩ := t
      cases as with
      | nil =>
        rw [List.append_nil] at ht
        simp only [tailsOf, List.filterMap_cons]
        unfold tailsOf at hrest
        rw [hrest]
        unfold atPath
        rw [List.map_cons, List.filter_cons, if_neg]
        simp only [beq_iff_eq, ht, hq]
        intro hc
        exact absurd (congrArg List.length hc) (by simp)
      | cons b bs =>
        simp only [tailsOf, List.filterMap_cons]
        unfold tailsOf at hrest
        by_cases hb : b = a
        · simp only [if_pos hb, List.map_cons]
          unfold atPath at hrest ⊢
          rw [List.filter_cons, List.filter_cons, hrest]
        · simp only [if_neg hb]
          rw [hrest]
          unfold atPath
          rw [List.map_cons, List.filter_cons, if_neg]
          simp only [beq_iff_eq, ht, hq]
          intro hc
          have := List.append_cancel_left hc
          injection this with h1 _
          exact hb h1
  by_cases hq : ∃ a q', q = pre ++ a :: q'
  · obtain ⟨a, q', hq⟩ := hq
    have hempty : atPath path q (emptyTargets ts) = [] := by
      refine atPath_nil_of _ _ _ fun x hx => ?_
      unfold emptyTargets at hx
      obtain ⟨t, ht, h⟩ := List.mem_filterMap.1 hx
      by_cases he : t.1.isEmpty = true
      · rw [if_pos he] at h
        injection h with h
        rw [← h, hp t ht, List.isEmpty_iff.1 he, hq]
        intro hc
        exact absurd (congrArg List.length hc) (by simp)
      · rw [if_neg he] at h; cases h
    rw [hempty, List.nil_append, ← htails ts hp a q' hq]
    -- only the group of `a` has items with this path
    have key : ∀ gs : List (Accessor × List (Target T)), (gs.map (·.1)).Nodup → (∀ g ∈ gs, g.2 = tailsOf g.1 ts) →
        gs.flatMap (fun g => atPath path q (g.2.map (·.2))) =
          if a ∈ gs.map (·.1) then atPath path q ((tailsOf a ts).map (·.2)) else [] := by
      intro gs
      induction gs with
      | nil => intro _ _; rfl
      | cons g rest ih =>
        intro hn hg
        have hn' := List.nodup_cons.1 hn
        rw [List.flatMap_cons, ih hn'.2 (fun g hm => hg g (List.mem_cons_of_mem _ hm)), hg g List.mem_cons_self]
        by_cases hga : g.1 = a
        · rw [if_neg (by rw [← hga]; exact hn'.1), if_pos (by rw [List.map_cons, hga]; exact List.mem_cons_self), hga,
            List.append_nil]
        · have hother : atPath path q ((tailsOf g.1 ts).map (·.2)) = [] := by
            refine atPath_nil_of _ _ _ fun x hx => ?_
            obtain ⟨⟨as, t⟩, ht, rfl⟩ := List.mem_map.1 hx
            rw [hp _ (mem_tailsOf.1 ht), hq]
            intro hc
            have := List.append_cancel_left hc
            injection this with h1 _
            exact hga h1
          rw [hother, List.nil_append]
          by_cases hm : a ∈ rest.map (·.1)
          · rw [if_pos hm]; exact (if_pos (List.mem_cons_of_mem _ hm)).symm
          · rw [if_neg hm, if_neg]
            intro hc
            rcases List.mem_cons.1 hc with hc | hc
            · exact hga hc.symm
            · exact hm hc
    rw [key _ (group_nodup ts) (fun g hg => group_items ts hg)]
    by_cases hm : a ∈ (groupTargets [] ts).map (·.1)
    · rw [if_pos hm]
    · rw [if_neg hm]
      rw [group_keys] at hm
      have : tailsOf a ts = [] := by
        refine List.eq_nil_iff_forall_not_mem.2 fun x hx => hm ?_
        obtain ⟨as, t⟩ := x
        exact ⟨as, t, mem_tailsOf.1 hx⟩
      rw [this]; rfl
  · -- the path is `pre`, or no path of an item
    have hgroups : (groupTargets [] ts).flatMap (fun g => atPath path q (g.2.map (·.2))) = [] := by
      rw [List.flatMap_eq_nil_iff]
      intro g hg
      refine atPath_nil_of _ _ _ fun x hx => ?_
      rw [group_items ts hg] at hx
      obtain ⟨⟨as, t⟩, ht, rfl⟩ := List.mem_map.1 hx
      rw [hp _ (mem_tailsOf.1 ht)]
      rintro rfl
      exact hq ⟨_, _, rfl⟩
    rw [hgroups, List.append_nil]
    clear hgroups htails
    induction ts with
    | nil => rfl
    | cons t rest ih =>
      have ih := ih fun t ht => hp t (List.mem_cons_of_mem _ ht)
      have ht := hp t List.mem_cons_self
      obtain ⟨as, t⟩ := t
      cases as with
      | nil =>
        unfold emptyTargets at ih ⊢
        simp only [List.filterMap_cons, List.isEmpty_nil, if_pos, List.map_cons]
        unfold atPath at ih ⊢
        rw [List.filter_cons, List.filter_cons, ih]
      | cons b bs =>
        have hne : ¬ (path t == q) = true := by
          simp only [beq_iff_eq, ht]
          rintro rfl
          exact hq ⟨_, _, rfl⟩
        have : atPath path q ((((b :: bs), t) :: rest).map (·.2)) = atPath path q (rest.map (·.2)) := by
          unfold atPath
          rw [List.map_cons, List.filter_cons]
          exact if_neg hne
        rw [this, ← ih]
        rfl

/-- Permuting lists of which at most one is not empty. -/
theorem flatMap_perm_of_one {α β : Type} (f : α → List β) {l l' : List α} (h : l.Perm l')
    (hp : l.Pairwise fun x y => f x = [] ∨ f y = []) : l.flatMap f = l'.flatMap f := by
  induction h with
  | nil => rfl
  | cons x _ ih => rw [List.flatMap_cons, List.flatMap_cons, ih (List.pairwise_cons.1 hp).2]
  | swap x y l =>
    simp only [List.flatMap_cons]
    have := (List.pairwise_cons.1 hp).1 x List.mem_cons_self
    rcases this with h | h <;> simp [h]
  | trans h1 _ ih1 ih2 =>
    rw [ih1 hp]
    exact ih2 (h1.pairwise hp fun h => h.symm)

/-- A relation between lists that `++` respects. -/
structure ListRel (R : List T → List T → Prop) : Prop where
  refl : ∀ l, R l l
  append : ∀ a b c d, R a b → R c d → R (a ++ c) (b ++ d)

theorem ListRel.flatMap {R : List T → List T → Prop} (hR : ListRel R) {α : Type} (f g : α → List T) (l : List α)
    (h : ∀ x ∈ l, R (f x) (g x)) : R (l.flatMap f) (l.flatMap g) := by
  induction l with
  | nil => exact hR.refl _
  | cons a rest ih =>
    rw [List.flatMap_cons, List.flatMap_cons]
    exact hR.append _ _ _ _ (h a List.mem_cons_self) (ih fun x hx => h x (List.mem_cons_of_mem _ hx))

theorem eq_listRel : ListRel (fun a b : List T => a = b) :=
  ⟨fun _ => rfl, fun _ _ _ _ h1 h2 => by rw [h1, h2]⟩

theorem sublist_listRel : ListRel (fun a b : List T => a.Sublist b) :=
  ⟨List.Sublist.refl, fun _ _ _ _ => List.Sublist.append⟩

end Tombi
