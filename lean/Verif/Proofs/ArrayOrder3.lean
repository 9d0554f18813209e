import Verif.Proofs.ArrayOrder2

/-! The whole edit of a group. -/
namespace Tombi
open Spec

variable {C : Type}

/-- The trailing comment of a value in the source. -/
def trailOf (items : List (ArrayItem C)) (i : Nat) : Option C := (items[i]?).bind (·.trailing)

/-- The comma after a value in the source. -/
def commaOf (items : List (ArrayItem C)) (i : Nat) : Option (CommaNode C) := (items[i]?).bind (·.comma)

/-- Does the first step append a missing comma? -/
def appendA (items : List (ArrayItem C)) (lastGroup hasComma : Bool) (i : Nat) : Bool :=
  hasComma || !(lastGroup && i == items.length - 1)

def extraA (items : List (ArrayItem C)) (lastGroup hasComma : Bool) (i : Nat) : List (CommaRef C) :=
  extra (trailOf items i) (commaOf items i) (appendA items lastGroup hasComma i)

def movedA (items : List (ArrayItem C)) (lastGroup hasComma : Bool) (i : Nat) : Bool :=
  moved (trailOf items i) (commaOf items i) (appendA items lastGroup hasComma i)

theorem foldl_changes_append (g : ValueGroup C) (a b : List (GroupChange C)) :
    (a ++ b).foldl ValueGroup.apply g = b.foldl ValueGroup.apply (a.foldl ValueGroup.apply g) := List.foldl_append

theorem sourceValues_comma (items : List (ArrayItem C)) (v : Nat × Option (CommaRef C)) (hv : v ∈ sourceValues items) :
    commaOf items v.1 = v.2.map (·.2) ∧ v.2 = (commaOf items v.1).map (fun c => (some v.1, c)) := by
  obtain ⟨item, h1, h2⟩ := sourceValues_mem items v hv
  have : commaOf items v.1 = item.comma := by unfold commaOf; rw [h1]; rfl
  rw [this, h2]
  refine ⟨?_, rfl⟩
  cases item.comma <;> rfl

/-- After the changes for the trailing comments. -/
theorem Spec.IsGroup.phaseA {g : ValueGroup C} {items : List (ArrayItem C)} (h : IsGroup g items) (hne : items ≠ []) (lastGroup hasComma : Bool) :
    Has ((commaChanges g.trailing lastGroup hasComma (sourceValues items)).foldl ValueGroup.apply g)
      ((sourceBlocks 0 items).map fun b => (b.1, extraA items lastGroup hasComma b.1 ++ b.2))
      (fun j => if movedA items lastGroup hasComma j = true ∧ j < items.length then none else trailOf items j) := by
  have h0 : Has g (sourceBlocks 0 items) (trailOf items) := ⟨by rw [h.children, sourceChildren_blocks], h.trailing⟩
  have hids := sourceBlocks_ids 0 items
  have hnd : ((sourceBlocks 0 items).map (·.1)).Nodup := by rw [hids]; exact List.nodup_range'
  have hvs := sourceValues_ids items
  rw [commaChanges_trail, trailChanges_eq g.trailing _ (commaOf items) (appendA items lastGroup hasComma) (sourceValues items)
    (by rw [hvs]; exact List.nodup_range) (fun v hv => (sourceValues_comma items v hv).1) (items.length - 1)
    (.inl (by rw [sourceValues_last items hne]; rfl)) (fun v _ => rfl), hvs]
  have := h0.many hnd (List.range items.length) List.nodup_range g.trailing (commaOf items) (appendA items lastGroup hasComma)
  have htr : g.trailing = trailOf items := funext h.trailing
  rw [htr] at this ⊢
  refine ⟨?_, fun j => ?_⟩
  · rw [this.children]
    congr 1
    apply List.map_congr_left
    intro b hb
    have : b.1 ∈ List.range items.length := by
      rw [List.range_eq_range', ← hids]; exact List.mem_map.2 ⟨b, hb, rfl⟩
    rw [if_pos this]; rfl
  · rw [this.trailing]
    show (if j ∈ List.range items.length ∧ movedA items lastGroup hasComma j = true then none else trailOf items j) = _
    by_cases hj : movedA items lastGroup hasComma j = true ∧ j < items.length
    · rw [if_pos hj, if_pos ⟨List.mem_range.2 hj.2, hj.1⟩]
    · rw [if_neg hj, if_neg fun h => hj ⟨h.2, List.mem_range.1 h.1⟩]

/-- The comma of a value in the new order, where the last one is dropped if it has no comments. -/
def keptComma (lastComma : Bool) (l : Nat) (v : Nat × Option (CommaRef C)) : Option (CommaRef C) :=
  if lastComma = false ∧ v.1 = l then v.2.bind fun r => if r.2.bare then none else some r else v.2

theorem dropLastComma_eq (init : List (Nat × Option (CommaRef C))) (v : Nat × Option (CommaRef C)) :
    dropLastComma (init ++ [v]) = init ++ [(v.1, v.2.bind fun r => if r.2.bare then none else some r)] := by
  induction init with
  | nil =>
    obtain ⟨i, c⟩ := v
    cases c with
    | none => rfl
    | some r => rfl
  | cons w init ih =>
    cases init with
    | nil => simp only [List.cons_append, List.nil_append, dropLastComma] at ih ⊢; rw [ih]
    | cons w' init => simp only [List.cons_append, dropLastComma] at ih ⊢; rw [ih]

theorem sorted_kept (lastComma : Bool) (init : List (Nat × Option (CommaRef C))) (v : Nat × Option (CommaRef C))
    (hnd : ((init ++ [v]).map (·.1)).Nodup) :
    (if lastComma then init ++ [v] else dropLastComma (init ++ [v])) = (init ++ [v]).map fun w => (w.1, keptComma lastComma v.1 w) := by
  cases lastComma with
  | true =>
    rw [if_pos rfl]
    symm
    rw [List.map_congr_left (g := id), List.map_id]
    intro w _
    unfold keptComma
    rw [if_neg (by simp)]; rfl
  | false =>
    rw [if_neg (by simp), dropLastComma_eq, List.map_append]
    congr 1
    · symm
      rw [List.map_congr_left (g := id), List.map_id]
      intro w hw
      unfold keptComma
      rw [if_neg]
      · rfl
      · rintro ⟨-, hwv⟩
        rw [List.map_append, List.nodup_append] at hnd
        exact hnd.2.2 w.1 (List.mem_map.2 ⟨w, hw, rfl⟩) v.1 (by simp) hwv
    · unfold keptComma
      simp

theorem newChildren_blocks (vs : List (Nat × Option (CommaRef C))) :
    newChildren vs = blocks (vs.map fun v => (v.1, v.2.toList)) := by
  unfold newChildren blocks
  rw [List.flatMap_map]
  congr 1
  funext v
  obtain ⟨i, c⟩ := v
  cases c <;> rfl

theorem extra_new (t : Option C) (c : Option (CommaNode C)) (a : Bool) : ∀ r ∈ extra t c a, r.1 = none := by
  intro r hr
  unfold extra at hr
  split at hr
  · split at hr <;> simp at hr <;> rw [hr]
  · cases hr
  · split at hr <;> simp at hr <;> rw [hr]
  · split at hr <;> simp at hr <;> rw [hr]

theorem attachedNow_new (new : List (GroupChild C)) (c : CommaNode C) : attachedNow new (.comma none c) = false := rfl

theorem find_nodup (vs : List (Nat × Option (CommaRef C))) (hnd : (vs.map (·.1)).Nodup) (v : Nat × Option (CommaRef C)) (hv : v ∈ vs) :
    vs.find? (·.1 == v.1) = some v := by
  induction vs with
  | nil => cases hv
  | cons w ws ih =>
    rw [List.map_cons, List.nodup_cons] at hnd
    rcases List.mem_cons.1 hv with rfl | hv
    · rw [List.find?_cons_of_pos (by simp)]
    · rw [List.find?_cons_of_neg, ih hnd.2 hv]
      intro h
      have : w.1 = v.1 := by simpa using h
      exact hnd.1 (List.mem_map.2 ⟨v, hv, this.symm⟩)

/-- The comma a value of the sorted group ends up with. -/
def finalCommas (items : List (ArrayItem C)) (lastGroup hasComma lastComma : Bool) (l : Nat) (v : Nat × Option (CommaRef C)) :
    List (CommaRef C) :=
  extra (trailOf items v.1) ((keptComma lastComma l v).map (·.2)) (lastComma || !(v.1 == l)) ++
    ((keptComma lastComma l v).toList ++ if v.1 = l then extraA items lastGroup hasComma (items.length - 1) else [])

/-- Is the trailing comment of a value moved when the values are put in their new order? -/
def movedB (items : List (ArrayItem C)) (lastComma : Bool) (l : Nat) (v : Nat × Option (CommaRef C)) : Bool :=
  moved (trailOf items v.1) ((keptComma lastComma l v).map (·.2)) (lastComma || !(v.1 == l))

theorem edit_sorted {g : ValueGroup C} {items : List (ArrayItem C)} (h : IsGroup g items) (lastGroup hasComma : Bool)
    {init : List (Nat × Option (CommaRef C))} {lv : Nat × Option (CommaRef C)} (hr : Reordered items (init ++ [lv]))
    {sort : List (Nat × Option (CommaRef C)) → Option (List (Nat × Option (CommaRef C)))}
    (hs : sort (sourceValues items) = some (init ++ [lv])) (lastComma : Bool)
    (hlc : lastComma = (commaOf items (items.length - 1)).isSome) :
    (withComma none (g.edit lastGroup hasComma sort).children =
      (init ++ [lv]).map fun v => (v.1, (finalCommas items lastGroup hasComma lastComma lv.1 v).head?)) ∧
    ∀ v ∈ init ++ [lv], (g.edit lastGroup hasComma sort).trailing v.1 =
      if movedA items lastGroup hasComma v.1 = true ∨ movedB items lastComma lv.1 v = true then none else trailOf items v.1 := by
  have hne : items ≠ [] := by
    rintro rfl
    have := hr.perm.length_eq
    simp at this
  have hpos : 0 < items.length := List.length_pos_iff.2 hne
  have hnd : ((init ++ [lv]).map (·.1)).Nodup := hr.perm.nodup_iff.2 List.nodup_range
  have hmem : ∀ v ∈ init ++ [lv], v.1 < items.length := fun v hv =>
    List.mem_range.1 (hr.perm.mem_iff.1 (List.mem_map.2 ⟨v, hv, rfl⟩))
  -- the changes
  have hvals := h.values
  have hlast := sourceValues_last items hne
  have hlc' : isLastComma (sourceValues items) = lastComma := by
    unfold isLastComma
    rw [hlast, hlc]
    have : commaOf items (items.length - 1) = (items.getLast hne).comma := by
      unfold commaOf
      rw [List.getLast_eq_getElem, List.getElem?_eq_getElem (by omega)]; rfl
    rw [this]
    cases (items.getLast hne).comma <;> rfl
  have hfirst : ∃ c, (sourceValues items).head? = some (0, c) := by
    cases items with
    | nil => exact absurd rfl hne
    | cons item rest => exact ⟨_, rfl⟩
  obtain ⟨c0, hfirst⟩ := hfirst
  let sorted' := (init ++ [lv]).map fun w => (w.1, keptComma lastComma lv.1 w)
  have hids' : sorted'.map (·.1) = (init ++ [lv]).map (·.1) := by
    show ((init ++ [lv]).map _).map _ = _
    rw [List.map_map]; rfl
  have hedit : g.edit lastGroup hasComma sort =
      (sortedChanges g.trailing lastComma sorted').foldl ValueGroup.apply
        (((commaChanges g.trailing lastGroup hasComma (sourceValues items)).foldl ValueGroup.apply g).apply
          (.replaceRange 0 (items.length - 1) (newChildren sorted'))) := by
    unfold ValueGroup.edit
    simp only []
    rw [hvals, hs]
    simp only []
    unfold orderChanges
    rw [hfirst, hlast]
    simp only []
    rw [hlc', sorted_kept lastComma init lv hnd, foldl_changes_append]
    rfl
  -- the first step
  have hA := h.phaseA hne lastGroup hasComma
  generalize hg1 : (commaChanges g.trailing lastGroup hasComma (sourceValues items)).foldl ValueGroup.apply g = g1 at hA hedit
  -- the blocks before and at the last value
  obtain ⟨bs0, old, hbs⟩ : ∃ bs0 old, sourceBlocks 0 items = bs0 ++ [(items.length - 1, old)] ∧
      old = ((commaOf items (items.length - 1)).map fun c => (some (items.length - 1), c)).toList := by
    have hsb : sourceBlocks 0 items ≠ [] := by
      intro h0
      have := congrArg List.length (sourceBlocks_ids 0 items)
      rw [h0] at this; simp at this; omega
    have hgl := List.dropLast_concat_getLast hsb
    have hid : ((sourceBlocks 0 items).getLast hsb).1 = items.length - 1 := by
      have h2 : ((sourceBlocks 0 items).map (·.1)).getLast (by simpa using hsb) = items.length - 1 := by
        have := sourceBlocks_ids 0 items
        rw [← List.range_eq_range'] at this
        simp only [this, List.getLast_range]
      rw [List.getLast_map] at h2
      exact h2
    obtain ⟨item, h1, _, h3⟩ := sourceBlocks_mem 0 items _ (List.getLast_mem hsb)
    rw [hid] at h1 h3
    refine ⟨(sourceBlocks 0 items).dropLast, ((sourceBlocks 0 items).getLast hsb).2, ?_, ?_⟩
    · rw [← hid]; exact hgl.symm
    · rw [h3]
      unfold commaOf
      rw [Nat.sub_zero] at h1
      rw [h1]; rfl
  obtain ⟨hbs, hold⟩ := hbs
  let x := extraA items lastGroup hasComma
  have hA' : g1.children.filter notOther = blocks ((bs0.map fun b => (b.1, x b.1 ++ b.2)) ++ [(items.length - 1, x (items.length - 1) ++ old)]) := by
    rw [hA.children, hbs, List.map_append]; rfl
  have hndA : (((bs0.map fun b => (b.1, x b.1 ++ b.2)) ++ [((items.length - 1, x (items.length - 1) ++ old) : Block C)]).map (·.1)).Nodup := by
    have : ((bs0.map fun b => (b.1, x b.1 ++ b.2)) ++ [((items.length - 1, x (items.length - 1) ++ old) : Block C)]).map (·.1) =
        (sourceBlocks 0 items).map (·.1) := by
      rw [hbs, List.map_append, List.map_append, List.map_map]; rfl
    rw [this, sourceBlocks_ids]; exact List.nodup_range'
  have hheadA : ((bs0.map fun b => (b.1, x b.1 ++ b.2)) ++ [((items.length - 1, x (items.length - 1) ++ old) : Block C)]).head?.map (·.1) = some 0 := by
    have : ((bs0.map fun b => (b.1, x b.1 ++ b.2)) ++ [((items.length - 1, x (items.length - 1) ++ old) : Block C)]) =
        (sourceBlocks 0 items).map fun b => (b.1, x b.1 ++ b.2) := by
      rw [hbs, List.map_append]; rfl
    rw [this]
    cases items with
    | nil => exact absurd rfl hne
    | cons item rest => rfl
  -- the new children
  let nb : List (Block C) := sorted'.map fun v => (v.1, v.2.toList)
  have hnbids : nb.map (·.1) = (init ++ [lv]).map (·.1) := by
    show (sorted'.map _).map _ = _
    rw [List.map_map, ← hids']; rfl
  have hkept : ∀ v ∈ init ++ [lv], ∀ r, keptComma lastComma lv.1 v = some r → v.2 = some r := by
    intro v _ r hr
    unfold keptComma at hr
    split at hr
    · obtain ⟨r', h1, h2⟩ := Option.bind_eq_some_iff.1 hr
      split at h2
      · cases h2
      · rw [h1, h2]
    · exact hr
  have hok : AttachOk (blocks nb) := by
    apply attachOk_blocks
    · rw [hnbids]; exact hnd
    · intro b hb
      obtain ⟨v, _, rfl⟩ := List.mem_map.1 hb
      show v.2.toList.length ≤ 1
      cases v.2 <;> simp
    · intro b hb r hrb j hj
      obtain ⟨w, hw, rfl⟩ := List.mem_map.1 hb
      obtain ⟨v, hv, rfl⟩ := List.mem_map.1 hw
      have h1 := hkept v hv r (by simpa using hrb)
      have hlt := hmem v hv
      rcases hr.commas v hv items[v.1] (List.getElem?_eq_getElem hlt) with h2 | ⟨-, h2⟩
      · rw [h1] at h2
        cases hc : items[v.1].comma with
        | none => rw [hc] at h2; cases h2
        | some c =>
          rw [hc] at h2
          have := Option.some.inj h2
          rw [this] at hj
          exact (Option.some.inj hj).symm
      · rw [h1] at h2
        have := Option.some.inj h2
        rw [this] at hj
        cases hj
  -- what stays after the last value
  have hrest : (((x (items.length - 1) ++ old).map fun r => GroupChild.comma r.1 r.2).filter fun d => !attachedNow (blocks nb) d) =
      (x (items.length - 1)).map fun r => GroupChild.comma r.1 r.2 := by
    rw [List.map_append, List.filter_append]
    have h1 : ((x (items.length - 1)).map fun r => GroupChild.comma r.1 r.2).filter (fun d => !attachedNow (blocks nb) d) =
        (x (items.length - 1)).map fun r => GroupChild.comma r.1 r.2 := by
      rw [List.filter_eq_self]
      intro d hd
      obtain ⟨r, hr, rfl⟩ := List.mem_map.1 hd
      rw [extra_new _ _ _ r hr]; rfl
    rw [h1]
    have h2 : (old.map fun r => GroupChild.comma r.1 r.2).filter (fun d => !attachedNow (blocks nb) d) = [] := by
      rw [List.filter_eq_nil_iff]
      intro d hd
      obtain ⟨r, hrm, rfl⟩ := List.mem_map.1 hd
      rw [hold] at hrm
      cases hco : commaOf items (items.length - 1) with
      | none => rw [hco] at hrm; cases hrm
      | some c =>
        rw [hco] at hrm hlc
        have hrr : r = (some (items.length - 1), c) := by simpa using hrm
        subst hrr
        have hl1 : lastComma = true := hlc
        -- it is the comma of a value of the new order
        have hin : items.length - 1 ∈ (init ++ [lv]).map (·.1) := hr.perm.mem_iff.2 (List.mem_range.2 (by omega))
        obtain ⟨v, hv, hv1⟩ := List.mem_map.1 hin
        have hlt := hmem v hv
        have hitem : items[v.1].comma = some c := by
          unfold commaOf at hco
          rw [← hv1, List.getElem?_eq_getElem hlt] at hco
          exact hco
        have hv2 : v.2 = some (some v.1, c) := by
          rcases hr.commas v hv items[v.1] (List.getElem?_eq_getElem hlt) with h2 | ⟨h2, -⟩
          · rw [h2, hitem]; rfl
          · rw [hitem] at h2; cases h2
        have hk : keptComma lastComma lv.1 v = some (some v.1, c) := by
          unfold keptComma
          rw [if_neg (by rw [hl1]; simp), hv2]
        have hat : attachedNow (blocks nb) (.comma (some (items.length - 1)) c) = true := by
          unfold attachedNow
          refine List.any_eq_true.2 ⟨.comma (some v.1) c, ?_, by simp only [hv1, beq_self_eq_true]⟩
          refine List.mem_flatMap.2 ⟨(v.1, (keptComma lastComma lv.1 v).toList), ?_, ?_⟩
          · exact List.mem_map.2 ⟨(v.1, keptComma lastComma lv.1 v), List.mem_map.2 ⟨v, hv, rfl⟩, rfl⟩
          · rw [hk]; simp
        rw [hat]; simp
    rw [h2, List.append_nil]
  have hR := replace_children (rest := x (items.length - 1)) hheadA hA' hndA nb hok hrest
  rw [← newChildren_blocks sorted'] at hR
  -- as blocks
  let nb' : List (Block C) := (init ++ [lv]).map fun v =>
    (v.1, (keptComma lastComma lv.1 v).toList ++ if v.1 = lv.1 then x (items.length - 1) else [])
  have hnb' : newChildren sorted' ++ (x (items.length - 1)).map (fun r => GroupChild.comma r.1 r.2) = blocks nb' := by
    rw [newChildren_blocks]
    show blocks (((init ++ [lv]).map _).map _) ++ _ = blocks ((init ++ [lv]).map _)
    rw [List.map_map, List.map_append, List.map_append, blocks_append, blocks_append, List.append_assoc]
    congr 1
    · congr 1
      apply List.map_congr_left
      intro v hv
      have : v.1 ≠ lv.1 := by
        intro hvl
        rw [List.map_append, List.nodup_append] at hnd
        exact hnd.2.2 v.1 (List.mem_map.2 ⟨v, hv, rfl⟩) lv.1 (by simp) hvl
      simp only [Function.comp, if_neg this, List.append_nil]
    · simp [blocks]
  rw [hnb'] at hR
  have hB : Has (g1.apply (.replaceRange 0 (items.length - 1) (newChildren sorted'))) nb'
      (fun j => if movedA items lastGroup hasComma j = true ∧ j < items.length then none else trailOf items j) :=
    ⟨hR, hA.trailing⟩
  have hnb'ids : nb'.map (·.1) = (init ++ [lv]).map (·.1) := by
    show ((init ++ [lv]).map _).map _ = _
    rw [List.map_map]; rfl
  -- the last step
  let cm : Nat → Option (CommaNode C) := fun i => ((sorted'.find? (·.1 == i)).bind (·.2)).map (·.2)
  have hcm : ∀ v ∈ sorted', cm v.1 = v.2.map (·.2) := by
    intro v hv
    have hnd' : (sorted'.map (·.1)).Nodup := by rw [hids']; exact hnd
    show ((sorted'.find? (·.1 == v.1)).bind (·.2)).map (·.2) = _
    rw [find_nodup sorted' hnd' v hv]; rfl
  rw [sortedChanges_trail, trailChanges_eq g.trailing _ cm (fun i => lastComma || !(i == lv.1)) sorted' (by rw [hids']; exact hnd)
    hcm lv.1 (.inl (by
      show ((init ++ [lv]).map _).getLast?.map _ = _
      rw [List.map_append]; simp)) (fun v _ => rfl), hids'] at hedit
  have hC := hB.many (by rw [hnb'ids]; exact hnd) ((init ++ [lv]).map (·.1)) hnd g.trailing cm (fun i => lastComma || !(i == lv.1))
  rw [← hedit] at hC
  have hcm' : ∀ v ∈ init ++ [lv], cm v.1 = (keptComma lastComma lv.1 v).map (·.2) := fun v hv =>
    hcm (v.1, keptComma lastComma lv.1 v) (List.mem_map.2 ⟨v, hv, rfl⟩)
  have htr : ∀ i, g.trailing i = trailOf items i := h.trailing
  refine ⟨?_, fun v hv => ?_⟩
  · rw [withComma_strip, hC.children, (withComma_blocks _).2, List.map_map]
    show List.map _ ((init ++ [lv]).map _) = _
    rw [List.map_map]
    apply List.map_congr_left
    intro v hv
    simp only [Function.comp]
    rw [if_pos (List.mem_map.2 ⟨v, hv, rfl⟩)]
    rw [hcm' v hv, htr]; rfl
  · rw [hC.trailing]
    rw [hcm' v hv, htr]
    show (if _ ∧ movedB items lastComma lv.1 v = true then none else _) = _
    have h1 : v.1 ∈ (init ++ [lv]).map (·.1) := List.mem_map.2 ⟨v, hv, rfl⟩
    have h2 := hmem v hv
    by_cases ha : movedA items lastGroup hasComma v.1 = true <;> by_cases hb : movedB items lastComma lv.1 v = true <;>
      simp only [ha, hb, h1, h2, and_true, and_false, if_true, if_false, or_true, or_false,
        Bool.false_eq_true]

end Tombi
