import Verif.Proofs.ArrayOrder

/-! The group after all changes: which values it has, in which order, and with which commas and comments. -/
namespace Tombi
open Spec

variable {C : Type}

/-- The blocks of the source. -/
def sourceBlocks (i : Nat) : List (ArrayItem C) → List (Block C)
  | [] => []
  | item :: rest => (i, (item.comma.map fun c => (some i, c)).toList) :: sourceBlocks (i + 1) rest

theorem sourceChildren_blocks (i : Nat) (items : List (ArrayItem C)) : sourceChildren i items = blocks (sourceBlocks i items) := by
  induction items generalizing i with
  | nil => rfl
  | cons item rest ih =>
    rw [sourceChildren, sourceBlocks, blocks_cons, ih]
    cases item.comma <;> rfl

theorem sourceBlocks_ids (i : Nat) (items : List (ArrayItem C)) : (sourceBlocks i items).map (·.1) = List.range' i items.length := by
  induction items generalizing i with
  | nil => rfl
  | cons item rest ih => rw [sourceBlocks, List.map_cons, ih, List.length_cons, List.range'_succ]

theorem sourceBlocks_mem (i : Nat) (items : List (ArrayItem C)) (b : Block C) (hb : b ∈ sourceBlocks i items) :
    ∃ item, items[b.1 - i]? = some item ∧ i ≤ b.1 ∧ b.2 = (item.comma.map fun c => (some b.1, c)).toList := by
  induction items generalizing i with
  | nil => cases hb
  | cons item rest ih =>
    rw [sourceBlocks] at hb
    rcases List.mem_cons.1 hb with rfl | hb
    · exact ⟨item, by simp, Nat.le_refl _, rfl⟩
    · obtain ⟨it, h1, h2, h3⟩ := ih (i + 1) hb
      refine ⟨it, ?_, by omega, h3⟩
      rw [show b.1 - i = (b.1 - (i + 1)) + 1 by omega, List.getElem?_cons_succ]
      exact h1

/-- The values of a group with their commas. -/
def sourceValues (items : List (ArrayItem C)) : List (Nat × Option (CommaRef C)) :=
  (sourceBlocks 0 items).map fun b => (b.1, b.2.head?)

theorem Spec.IsGroup.values {g : ValueGroup C} {items : List (ArrayItem C)} (h : IsGroup g items) :
    withComma none g.children = sourceValues items := by
  rw [withComma_strip, h.children, sourceChildren_blocks]
  exact (withComma_blocks _).2

theorem sourceValues_ids (items : List (ArrayItem C)) : (sourceValues items).map (·.1) = List.range items.length := by
  unfold sourceValues
  rw [List.map_map, List.range_eq_range', ← sourceBlocks_ids]; rfl

theorem sourceValues_mem (items : List (ArrayItem C)) (v : Nat × Option (CommaRef C)) (hv : v ∈ sourceValues items) :
    ∃ item, items[v.1]? = some item ∧ v.2 = item.comma.map fun c => (some v.1, c) := by
  obtain ⟨b, hb, rfl⟩ := List.mem_map.1 hv
  obtain ⟨item, h1, _, h3⟩ := sourceBlocks_mem 0 items b hb
  refine ⟨item, by simpa using h1, ?_⟩
  simp only []
  rw [h3]
  cases item.comma <;> rfl

theorem sourceValues_last (items : List (ArrayItem C)) (hne : items ≠ []) :
    (sourceValues items).getLast? = some (items.length - 1, (items.getLast hne).comma.map fun c => (some (items.length - 1), c)) := by
  have hlen : (sourceValues items).length = items.length := by
    have := congrArg List.length (sourceValues_ids items)
    simpa using this
  have hpos : 0 < items.length := by cases items with
    | nil => exact absurd rfl hne
    | cons _ _ => simp
  have hv : (sourceValues items) ≠ [] := by intro h; rw [h] at hlen; simp at hlen; omega
  rw [List.getLast?_eq_some_getLast hv]
  have hid : ((sourceValues items).getLast hv).1 = items.length - 1 := by
    have h1 := sourceValues_ids items
    have h2 : ((sourceValues items).map (·.1)).getLast (by simpa using hv) = items.length - 1 := by
      simp only [h1, List.getLast_range]
    rw [List.getLast_map] at h2
    exact h2
  obtain ⟨item, h1, h2⟩ := sourceValues_mem items _ (List.getLast_mem hv)
  rw [hid] at h1 h2
  have : item = items.getLast hne := by
    rw [List.getLast_eq_getElem]
    rw [List.getElem?_eq_getElem (by omega)] at h1
    exact (Option.some.inj h1).symm
  subst this
  congr 1
  exact Prod.ext hid h2

/-! ### The changes for the trailing comments -/

/-- The changes for the trailing comments; `f` tells, by being last or not, if a comma is appended. -/
def trailChanges (tr : Nat → Option C) (f : Bool → Bool) : List (Nat × Option (CommaRef C)) → List (GroupChange C)
  | [] => []
  | (i, comma) :: rest => commaTrailingComment i (tr i) (comma.map (·.2)) (f rest.isEmpty) ++ trailChanges tr f rest

theorem commaChanges_trail (tr : Nat → Option C) (a b : Bool) (vs : List (Nat × Option (CommaRef C))) :
    commaChanges tr a b vs = trailChanges tr (fun e => b || !(a && e)) vs := by
  induction vs with
  | nil => rfl
  | cons v vs ih => obtain ⟨i, c⟩ := v; rw [commaChanges, trailChanges, ih]

theorem sortedChanges_trail (tr : Nat → Option C) (b : Bool) (vs : List (Nat × Option (CommaRef C))) :
    sortedChanges tr b vs = trailChanges tr (fun e => b || !e) vs := by
  induction vs with
  | nil => rfl
  | cons v vs ih => obtain ⟨i, c⟩ := v; rw [sortedChanges, trailChanges, ih]

theorem trailChanges_eq (tr : Nat → Option C) (f : Bool → Bool) (comma : Nat → Option (CommaNode C)) (app : Nat → Bool)
    (vs : List (Nat × Option (CommaRef C))) (hnd : (vs.map (·.1)).Nodup)
    (hc : ∀ v ∈ vs, comma v.1 = v.2.map (·.2)) (l : Nat) (hl : vs.getLast?.map (·.1) = some l ∨ vs = [])
    (ha : ∀ v ∈ vs, app v.1 = f (v.1 == l)) :
    trailChanges tr f vs = (vs.map (·.1)).flatMap fun i => commaTrailingComment i (tr i) (comma i) (app i) := by
  induction vs with
  | nil => rfl
  | cons v vs ih =>
    obtain ⟨i, c⟩ := v
    rw [List.map_cons, List.nodup_cons] at hnd
    have hl' : ((i, c) :: vs).getLast?.map (·.1) = some l := by
      rcases hl with h | h
      · exact h
      · cases h
    rw [trailChanges, List.map_cons, List.flatMap_cons, hc _ List.mem_cons_self, ha _ List.mem_cons_self]
    rw [ih hnd.2 (fun v hv => hc v (List.mem_cons_of_mem _ hv)) ?_ (fun v hv => ha v (List.mem_cons_of_mem _ hv))]
    · congr 2
      cases vs with
      | nil => simp at hl'; simp [hl']
      | cons w vs =>
        have hm : l ∈ (w :: vs).map (·.1) := by
          rw [List.getLast?_cons_cons] at hl'
          obtain ⟨x, hx, rfl⟩ := Option.map_eq_some_iff.1 hl'
          exact List.mem_map.2 ⟨x, List.mem_of_getLast? hx, rfl⟩
        have : i ≠ l := fun h => hnd.1 (h ▸ hm)
        have hf : (i == l) = false := by simpa using this
        rw [hf]; rfl
    · cases vs with
      | nil => exact .inr rfl
      | cons w vs => left; rw [List.getLast?_cons_cons] at hl'; exact hl'

/-! ### Replacing the values -/

theorem filter_split {α : Type} (p : α → Bool) (l a b : List α) (x : α) (h : l.filter p = a ++ x :: b) :
    ∃ l1 l2, l = l1 ++ x :: l2 ∧ l1.filter p = a ∧ l2.filter p = b := by
  obtain ⟨l1, l2, rfl, h1, h2⟩ := List.filter_eq_append_iff.1 h
  obtain ⟨m1, m2, rfl, h3, _, h4⟩ := List.filter_eq_cons_iff.1 h2
  refine ⟨l1 ++ m1, m2, by simp, ?_, h4⟩
  rw [List.filter_append, h1, List.filter_eq_nil_iff.2, List.append_nil]
  intro a ha; exact h3 a ha

theorem findIdx_split (i : Nat) (l1 l2 : List (GroupChild C)) (h : ∀ c ∈ l1, c.isValue i = false) :
    (l1 ++ GroupChild.value i :: l2).findIdx (·.isValue i) = l1.length := by
  induction l1 with
  | nil => rw [List.nil_append, List.findIdx_cons]; simp [GroupChild.isValue]
  | cons c l1 ih =>
    rw [List.cons_append, List.findIdx_cons, h c List.mem_cons_self, ih fun c hc => h c (List.mem_cons_of_mem _ hc)]
    rfl

theorem isValue_mem_blocks {bs : List (Block C)} {c : GroupChild C} {i : Nat} (hc : c ∈ blocks bs) (hv : c.isValue i = true) :
    i ∈ bs.map (·.1) := by
  obtain ⟨b, hb, hc⟩ := List.mem_flatMap.1 hc
  rcases List.mem_cons.1 hc with rfl | hc
  · have : b.1 = i := by simpa [GroupChild.isValue] using hv
    exact List.mem_map.2 ⟨b, hb, this⟩
  · obtain ⟨r, _, rfl⟩ := List.mem_map.1 hc
    cases hv

theorem isValue_strip {l : List (GroupChild C)} {c : GroupChild C} {i : Nat} (hc : c ∈ l) (hv : c.isValue i = true) :
    c ∈ l.filter notOther := by
  refine List.mem_filter.2 ⟨hc, ?_⟩
  cases c with
  | value j => rfl
  | comma o c => cases hv
  | other => cases hv

/-- Attaching blocks of which each comma, if old, is that of the value before it. -/
theorem attachOk_blocks (bs : List (Block C)) (hnd : (bs.map (·.1)).Nodup)
    (h1 : ∀ b ∈ bs, b.2.length ≤ 1) (ho : ∀ b ∈ bs, ∀ r ∈ b.2, ∀ j, r.1 = some j → j = b.1) : AttachOk (blocks bs) := by
  induction bs with
  | nil => trivial
  | cons b bs ih =>
    rw [List.map_cons, List.nodup_cons] at hnd
    have ih' := ih hnd.2 (fun b hb => h1 b (List.mem_cons_of_mem _ hb)) (fun b hb => ho b (List.mem_cons_of_mem _ hb))
    have hval : ∀ (i : Nat), i ∉ bs.map (·.1) → (blocks bs).any (·.isValue i) = false := by
      intro i hi
      apply Bool.eq_false_iff.2
      intro h
      obtain ⟨c, hc, hv⟩ := List.any_eq_true.1 h
      exact hi (isValue_mem_blocks hc hv)
    have hcom : ∀ c', attachedNow (blocks bs) (.comma (some b.1) c') = false := by
      intro c'
      apply Bool.eq_false_iff.2
      intro h
      unfold attachedNow at h
      obtain ⟨c, hc, hv⟩ := List.any_eq_true.1 h
      obtain ⟨b', hb', hc⟩ := List.mem_flatMap.1 hc
      rcases List.mem_cons.1 hc with rfl | hc
      · cases hv
      · obtain ⟨r, hr, rfl⟩ := List.mem_map.1 hc
        cases hr1 : r.1 with
        | none => rw [hr1] at hv; cases hv
        | some j =>
          rw [hr1] at hv
          have hj := ho b' (List.mem_cons_of_mem _ hb') r hr j hr1
          have : b.1 = j := by simpa using hv
          exact hnd.1 (List.mem_map.2 ⟨b', hb', by rw [← hj, this]⟩)
    rw [blocks_cons]
    have hb1 := h1 b List.mem_cons_self
    have hbo := ho b List.mem_cons_self
    obtain ⟨i, rs⟩ := b
    cases rs with
    | nil => exact ⟨hval i hnd.1, rfl, ih'⟩
    | cons r rs =>
      cases rs with
      | cons r' rs => simp at hb1
      | nil =>
        refine ⟨?_, rfl, ?_, rfl, ih'⟩
        · show ((GroupChild.comma r.1 r.2 :: blocks bs).any (·.isValue i)) = false
          rw [List.any_cons, hval i hnd.1]; rfl
        · show attachedNow (blocks bs) (.comma r.1 r.2) = false
          cases hr : r.1 with
          | none => rfl
          | some j =>
            have := hbo r List.mem_cons_self j hr
            subst this
            exact hcom r.2

/-- The values between the first and the last one are replaced; the commas after the last one stay, if not attached. -/
theorem replace_children {g : ValueGroup C} {first : Nat} {bs0 : List (Block C)} {last : Block C} {rest : List (CommaRef C)}
    (hhead : (bs0 ++ [last]).head?.map (·.1) = some first)
    (h : g.children.filter notOther = blocks (bs0 ++ [last])) (hnd : ((bs0 ++ [last]).map (·.1)).Nodup)
    (new : List (Block C)) (hnew : AttachOk (blocks new))
    (hrest : ((last.2.map fun r => GroupChild.comma r.1 r.2).filter fun d => !attachedNow (blocks new) d) =
      rest.map fun r => GroupChild.comma r.1 r.2) :
    (g.apply (.replaceRange first last.1 (blocks new))).children.filter notOther =
      blocks new ++ rest.map fun r => GroupChild.comma r.1 r.2 := by
  -- the first value
  obtain ⟨B, hB⟩ : ∃ B, g.children.filter notOther = [] ++ GroupChild.value first :: B := by
    rw [h]
    cases hc : bs0 ++ [last] with
    | nil => simp at hc
    | cons b bs =>
      rw [hc] at hhead
      have : b.1 = first := by simpa using hhead
      exact ⟨_, by rw [blocks_cons, this]; rfl⟩
  obtain ⟨P, T, hP, hP1, -⟩ := filter_split _ _ _ _ _ hB
  -- the last value
  have hL : g.children.filter notOther = blocks bs0 ++ GroupChild.value last.1 :: (last.2.map fun r => GroupChild.comma r.1 r.2) := by
    rw [h, blocks_append, blocks_cons]
    simp [blocks]
  obtain ⟨L, S, hS, hS1, hS2⟩ := filter_split _ _ _ _ _ hL
  have hPno : ∀ c ∈ P, notOther c = false := by
    intro c hc
    apply Bool.eq_false_iff.2
    exact fun h => List.filter_eq_nil_iff.1 hP1 c hc h
  have hstart : g.children.findIdx (·.isValue first) = P.length := by
    rw [hP]
    apply findIdx_split
    intro c hc
    apply Bool.eq_false_iff.2
    intro hv
    have := isValue_strip hc hv
    rw [hP1] at this
    cases this
  have hstop : g.children.findIdx (·.isValue last.1) = L.length := by
    rw [hS]
    apply findIdx_split
    intro c hc
    apply Bool.eq_false_iff.2
    intro hv
    have := isValue_strip hc hv
    rw [hS1] at this
    have hm := isValue_mem_blocks this hv
    rw [List.map_append, List.nodup_append] at hnd
    exact hnd.2.2 last.1 hm last.1 (by simp) rfl
  have htake : g.children.take P.length = P := by rw [hP]; simp
  have hdrop : g.children.drop (L.length + 1) = S := by
    rw [hS, ← List.drop_drop]; simp
  show (attachAll _ (g.children.take _ ++ g.children.drop _) _).filter notOther = _
  rw [hstart, hstop, htake, hdrop, attachAll_eq _ _ _ hnew]
  · rw [List.filter_append, List.filter_append, hP1, strip_blocks, List.nil_append, List.filter_filter]
    congr 1
    rw [← hrest, ← hS2, List.filter_filter]
    apply List.filter_congr
    intro d _
    rw [Bool.and_comm]
  · intro d hd
    have := hPno d hd
    cases d with
    | value j => cases this
    | comma o c => cases this
    | other => rfl

end Tombi
