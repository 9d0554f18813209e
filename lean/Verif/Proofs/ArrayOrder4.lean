import Verif.Proofs.ArrayOrder3

/-! Comments and commas after the whole edit. -/
namespace Tombi
open Spec

variable {C : Type}

/-- Without sorting: the values, each with the first of its commas. -/
theorem edit_unsorted {g : ValueGroup C} {items : List (ArrayItem C)} (h : IsGroup g items) (lastGroup hasComma : Bool)
    {sort : List (Nat × Option (CommaRef C)) → Option (List (Nat × Option (CommaRef C)))} (hs : sort (sourceValues items) = none) :
    (withComma none (g.edit lastGroup hasComma sort).children =
      (List.range items.length).map fun i => (i, (extraA items lastGroup hasComma i ++
        ((commaOf items i).map fun c => (some i, c)).toList).head?)) ∧
    ∀ i, i < items.length → (g.edit lastGroup hasComma sort).trailing i =
      if movedA items lastGroup hasComma i = true then none else trailOf items i := by
  by_cases hne : items = []
  · subst hne
    refine ⟨?_, fun i hi => by simp at hi⟩
    have hv : withComma none g.children = [] := h.values
    have : g.edit lastGroup hasComma sort = g := by
      unfold ValueGroup.edit
      simp only []
      rw [hv]
      have hs' : sort [] = none := hs
      rw [hs']; rfl
    rw [this, hv]; rfl
  · have hA := h.phaseA hne lastGroup hasComma
    have hedit : g.edit lastGroup hasComma sort =
        (commaChanges g.trailing lastGroup hasComma (sourceValues items)).foldl ValueGroup.apply g := by
      unfold ValueGroup.edit
      simp only []
      rw [h.values, hs]
      simp only [List.append_nil]
    rw [← hedit] at hA
    refine ⟨?_, fun i hi => ?_⟩
    · rw [withComma_strip, hA.children, (withComma_blocks _).2, List.map_map]
      have : (List.range items.length) = (sourceBlocks 0 items).map (·.1) := by rw [sourceBlocks_ids, List.range_eq_range']
      rw [this, List.map_map]
      apply List.map_congr_left
      intro b hb
      obtain ⟨item, h1, _, h3⟩ := sourceBlocks_mem 0 items b hb
      simp only [Function.comp]
      rw [h3]
      unfold commaOf
      rw [Nat.sub_zero] at h1
      rw [h1]; rfl
    · rw [hA.trailing]
      by_cases hm : movedA items lastGroup hasComma i = true
      · rw [if_pos hm, if_pos ⟨hm, hi⟩]
      · rw [if_neg hm, if_neg fun h => hm h.1]

/-- A value with its own comma, or a made one if it had none. -/
theorem attached_extra (t : Option C) (c : Option (CommaNode C)) (o : Option Nat) (append : Bool) :
    attached (if moved t c append = true then none else t)
      (((extra t c append ++ (c.map fun c => (o, c)).toList).head?).map (·.2)) = attached t c ∧
    ((extra t c append ++ (c.map fun c => (o, c)).toList).head?).isSome = (c.isSome || append) := by
  cases c with
  | some c =>
    cases t with
    | none => exact ⟨rfl, rfl⟩
    | some t =>
      simp only [moved, extra, Option.isSome_some, Bool.true_and, Bool.true_or]
      cases hb : c.bare with
      | false => exact ⟨rfl, rfl⟩
      | true =>
        refine ⟨?_, rfl⟩
        unfold CommaNode.bare at hb
        rw [Bool.and_eq_true] at hb
        have h1 : c.leading = [] := List.isEmpty_iff.1 hb.1
        have h2 : c.trailing = none := Option.isNone_iff_eq_none.1 hb.2
        simp [attached, makeCommaWithTrailingComment, h1, h2]
  | none =>
    cases t with
    | none => cases append <;> exact ⟨rfl, rfl⟩
    | some t => cases append <;> exact ⟨rfl, rfl⟩

theorem final_values {items : List (ArrayItem C)} {lastGroup hasComma lastComma : Bool}
    {init : List (Nat × Option (CommaRef C))} {lv : Nat × Option (CommaRef C)} (hr : Reordered items (init ++ [lv]))
    (hlc : lastComma = (commaOf items (items.length - 1)).isSome) (hh : lastGroup = true → hasComma = lastComma)
    (v : Nat × Option (CommaRef C)) (hv : v ∈ init ++ [lv]) :
    ((finalCommas items lastGroup hasComma lastComma lv.1 v).head?.isSome =
      (lastComma || !(v.1 == lv.1) || !lastGroup || ((commaOf items v.1).map fun c => !c.bare).getD false)) ∧
    (v.1 ≠ lv.1 ∨ LastKept items lastGroup lv.1 →
      attached (if movedA items lastGroup hasComma v.1 = true ∨ movedB items lastComma lv.1 v = true then none else trailOf items v.1)
        ((finalCommas items lastGroup hasComma lastComma lv.1 v).head?.map (·.2)) = attached (trailOf items v.1) (commaOf items v.1)) := by
  have hlt : v.1 < items.length := List.mem_range.1 (hr.perm.mem_iff.1 (List.mem_map.2 ⟨v, hv, rfl⟩))
  have hcomma : commaOf items v.1 = items[v.1].comma := by unfold commaOf; rw [List.getElem?_eq_getElem hlt]; rfl
  have htrail : trailOf items v.1 = items[v.1].trailing := by unfold trailOf; rw [List.getElem?_eq_getElem hlt]; rfl
  have hcv := hr.commas v hv items[v.1] (List.getElem?_eq_getElem hlt)
  rw [← hcomma] at hcv
  have hpos : 0 < items.length := by omega
  have hglast : items.getLast? = some items[items.length - 1] := by
    rw [List.getLast?_eq_getElem?, List.getElem?_eq_getElem (by omega)]
  have hlc2 : lastComma = items[items.length - 1].comma.isSome := by
    rw [hlc]; unfold commaOf; rw [List.getElem?_eq_getElem (by omega)]; rfl
  have htlast : trailOf items (items.length - 1) = items[items.length - 1].trailing := by
    unfold trailOf; rw [List.getElem?_eq_getElem (by omega)]; rfl
  by_cases hcase : v.1 ≠ lv.1 ∨ lastComma = true
  · -- the comma stays, a missing one is made
    have hkept : keptComma lastComma lv.1 v = v.2 := by
      unfold keptComma
      rw [if_neg]
      rintro ⟨h1, h2⟩
      rcases hcase with h | h
      · exact h h2
      · rw [h1] at h; cases h
    have happ : (lastComma || !(v.1 == lv.1)) = true := by
      rcases hcase with h | h
      · have : (v.1 == lv.1) = false := by simpa using h
        rw [this]; simp
      · rw [h]; rfl
    have key : ∀ more : List (CommaRef C),
        (extra (trailOf items v.1) (v.2.map (·.2)) true ++ (v.2.toList ++ more)).head?.isSome = true ∧
        attached (if movedA items lastGroup hasComma v.1 = true ∨ moved (trailOf items v.1) (v.2.map (·.2)) true = true
          then none else trailOf items v.1)
          ((extra (trailOf items v.1) (v.2.map (·.2)) true ++ (v.2.toList ++ more)).head?.map (·.2)) =
            attached (trailOf items v.1) (commaOf items v.1) := by
      intro more
      unfold movedA
      generalize appendA items lastGroup hasComma v.1 = ap
      generalize trailOf items v.1 = t at *
      generalize commaOf items v.1 = c at *
      rcases hcv with hcv | ⟨hc, hcv⟩
      · rw [hcv]
        cases c with
        | some c =>
          cases t with
          | none => exact ⟨rfl, rfl⟩
          | some t =>
            simp only [moved, extra, Option.isSome_some, Bool.true_and, Option.map_some, or_self]
            cases hb : c.bare with
            | false => exact ⟨rfl, rfl⟩
            | true =>
              refine ⟨rfl, ?_⟩
              unfold CommaNode.bare at hb
              rw [Bool.and_eq_true] at hb
              have h1 : c.leading = [] := List.isEmpty_iff.1 hb.1
              have h2 : c.trailing = none := Option.isNone_iff_eq_none.1 hb.2
              simp [attached, makeCommaWithTrailingComment, h1, h2]
        | none =>
          cases t with
          | none => cases ap <;> exact ⟨rfl, rfl⟩
          | some t => cases ap <;> exact ⟨rfl, rfl⟩
      · rw [hcv, hc]
        cases t with
        | none => cases ap <;> exact ⟨rfl, rfl⟩
        | some t => cases ap <;> exact ⟨rfl, rfl⟩
    obtain ⟨k1, k2⟩ := key (if v.1 = lv.1 then extraA items lastGroup hasComma (items.length - 1) else [])
    unfold finalCommas movedB
    rw [hkept, happ]
    refine ⟨?_, fun _ => k2⟩
    rw [k1, Bool.true_or, Bool.true_or]
  · -- the last value, and no comma after the last value of the source
    have hvl : v.1 = lv.1 := Classical.byContradiction fun h => hcase (.inl h)
    have hl0 : lastComma = false := by
      cases lastComma with
      | true => exact absurd (.inr rfl) hcase
      | false => rfl
    have hkept : keptComma lastComma lv.1 v = v.2.bind fun r => if r.2.bare then none else some r := by
      unfold keptComma
      rw [if_pos ⟨hl0, hvl⟩]
    have happ : (lastComma || !(v.1 == lv.1)) = false := by rw [hl0, hvl]; simp
    have hbeq : (v.1 == lv.1) = true := by rw [hvl]; simp
    unfold finalCommas movedB
    rw [hkept, happ, if_pos hvl]
    have hlast0 : commaOf items (items.length - 1) = none := by
      cases hx : commaOf items (items.length - 1) with
      | none => rfl
      | some c => rw [hx] at hlc; rw [hl0] at hlc; cases hlc
    have hapA : appendA items lastGroup hasComma (items.length - 1) = !lastGroup := by
      unfold appendA
      cases lastGroup with
      | true => rw [hh rfl, hl0]; simp
      | false => simp
    rw [Bool.false_or]
    -- the comma of the value has comments, or it is dropped
    cases hcb : ((commaOf items v.1).map fun c => !c.bare).getD false with
    | true =>
      cases hc : commaOf items v.1 with
      | none => rw [hc] at hcb; cases hcb
      | some c =>
        rw [hc] at hcb hcv
        have hb : c.bare = false := by simpa using hcb
        have hv2 : v.2 = some (some v.1, c) := by
          rcases hcv with h | ⟨h, _⟩
          · exact h
          · cases h
        rw [hv2]
        simp only [Option.bind_some, hb, Bool.false_eq_true, if_false, Option.map_some, Option.toList_some]
        unfold movedA
        rw [hc]
        cases trailOf items v.1 with
        | none => simp [extra, moved, hb]
        | some t => simp [extra, moved, hb]
    | false =>
      have hk0 : (v.2.bind fun r => if r.2.bare then none else some r) = none := by
        rcases hcv with h | ⟨_, h⟩
        · rw [h]
          cases hc : commaOf items v.1 with
          | none => rfl
          | some c =>
            rw [hc] at hcb
            have hb : c.bare = true := by simpa using hcb
            simp [hb]
        · rw [h]; rfl
      rw [hk0, Bool.or_false]
      have hxA : extraA items lastGroup hasComma (items.length - 1) =
          if lastGroup then [] else [(none, ⟨[], trailOf items (items.length - 1)⟩)] := by
        unfold extraA
        rw [hlast0, hapA]
        cases trailOf items (items.length - 1) <;> cases lastGroup <;> rfl
      rw [hxA]
      refine ⟨?_, fun hkeep => ?_⟩
      · cases trailOf items v.1 <;> cases lastGroup <;> rfl
      · have hmB : moved (trailOf items v.1) (Option.map (·.2) (none : Option (CommaRef C))) false = false := by
          cases trailOf items v.1 <;> rfl
        have hex : extra (trailOf items v.1) (Option.map (·.2) (none : Option (CommaRef C))) false = [] := by
          cases trailOf items v.1 <;> rfl
        rw [hmB, hex]
        simp only [Bool.false_eq_true, or_false, List.nil_append, Option.toList_none]
        rcases hkeep with h | hkeep
        · exact absurd hvl h
        · rcases hkeep with ⟨item, h1, h2⟩ | h | ⟨item, c, h1, h2, h3⟩ | ⟨h1, h2⟩
          · rw [hglast] at h1
            have := Option.some.inj h1
            rw [← this, ← hlc2, hl0] at h2
            cases h2
          · -- the last value stays last
            have hvn : v.1 = items.length - 1 := by omega
            rw [hvn]
            unfold movedA
            rw [hlast0, hapA]
            cases trailOf items (items.length - 1) <;> cases lastGroup <;> rfl
          · rw [← hvl, List.getElem?_eq_getElem hlt] at h1
            have := Option.some.inj h1
            rw [← this, ← hcomma] at h2
            rw [h2] at hcb
            simp [h3] at hcb
          · have ht : trailOf items v.1 = none := by
              rw [htrail]; exact h1 _ (by rw [← hvl]; exact List.getElem?_eq_getElem hlt)
            rw [ht]
            have hatt : attached none (commaOf items v.1) = [] := by
              cases hc : commaOf items v.1 with
              | none => rfl
              | some c =>
                rw [hc] at hcb
                have hb : c.bare = true := by simpa using hcb
                unfold CommaNode.bare at hb
                rw [Bool.and_eq_true] at hb
                have h1 : c.leading = [] := List.isEmpty_iff.1 hb.1
                have h2 : c.trailing = none := Option.isNone_iff_eq_none.1 hb.2
                simp [attached, h1, h2]
            rw [hatt, ite_self]
            cases lastGroup with
            | true => rfl
            | false =>
              rcases h2 with h2 | h2
              · cases h2
              · have := h2 _ hglast
                rw [htlast, this]
                rfl

end Tombi
