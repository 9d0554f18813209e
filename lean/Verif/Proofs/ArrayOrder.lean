import Verif.Spec.ArrayOrder

/-! Groups as lists of blocks, a value with the commas after it; what the changes do to the blocks. -/
namespace Tombi
open Spec

variable {C : Type}

/-- A value with the commas after it. -/
abbrev Block (C : Type) := Nat × List (CommaRef C)

/-- The children of blocks. -/
def blocks (bs : List (Block C)) : List (GroupChild C) :=
  bs.flatMap fun b => .value b.1 :: b.2.map fun r => .comma r.1 r.2

theorem blocks_cons (b : Block C) (bs : List (Block C)) :
    blocks (b :: bs) = .value b.1 :: ((b.2.map fun r => .comma r.1 r.2) ++ blocks bs) := rfl

theorem blocks_append (a b : List (Block C)) : blocks (a ++ b) = blocks a ++ blocks b := by
  unfold blocks; rw [List.flatMap_append]

theorem withComma_strip (p : Option Nat) (l : List (GroupChild C)) : withComma p l = withComma p (l.filter notOther) := by
  induction l generalizing p with
  | nil => rfl
  | cons c l ih =>
    cases c with
    | value i =>
      rw [List.filter_cons_of_pos (by rfl)]
      cases p <;> simp only [withComma, ← ih]
    | comma o c =>
      rw [List.filter_cons_of_pos (by rfl)]
      cases p <;> simp only [withComma, ← ih]
    | other =>
      rw [List.filter_cons_of_neg (by simp [notOther]), withComma, ih]

theorem withComma_commas (rs : List (CommaRef C)) (l : List (GroupChild C)) :
    withComma none ((rs.map fun r => GroupChild.comma r.1 r.2) ++ l) = withComma none l := by
  induction rs with
  | nil => rfl
  | cons r rs ih => rw [List.map_cons, List.cons_append, withComma]; exact ih

theorem withComma_blocks (bs : List (Block C)) :
    (∀ p, withComma (some p) (blocks bs) = (p, none) :: bs.map fun b => (b.1, b.2.head?)) ∧
    withComma none (blocks bs) = bs.map fun b => (b.1, b.2.head?) := by
  induction bs with
  | nil => exact ⟨fun p => rfl, rfl⟩
  | cons b bs ih =>
    have key : withComma (some b.1) ((b.2.map fun r => GroupChild.comma r.1 r.2) ++ blocks bs) =
        (b.1, b.2.head?) :: bs.map fun b => (b.1, b.2.head?) := by
      obtain ⟨i, rs⟩ := b
      cases rs with
      | nil => exact ih.1 i
      | cons r rs =>
        simp only [List.map_cons, List.cons_append, withComma, List.head?_cons]
        rw [withComma_commas, ih.2]
    refine ⟨fun p => ?_, ?_⟩
    · rw [blocks_cons, withComma]
      rw [key]; rfl
    · rw [blocks_cons, withComma]
      rw [key]; rfl

theorem strip_blocks (bs : List (Block C)) : (blocks bs).filter notOther = blocks bs := by
  rw [List.filter_eq_self]
  intro c hc
  unfold blocks at hc
  obtain ⟨b, _, hb⟩ := List.mem_flatMap.1 hc
  rcases List.mem_cons.1 hb with rfl | hb
  · rfl
  · obtain ⟨r, _, rfl⟩ := List.mem_map.1 hb
    rfl

/-! ### Insertions -/

theorem insertAfter_strip (i : Nat) (r : CommaRef C) (l : List (GroupChild C)) :
    (insertAfter i (.comma r.1 r.2) l).filter notOther = insertAfter i (.comma r.1 r.2) (l.filter notOther) := by
  induction l with
  | nil => rfl
  | cons c l ih =>
    rw [insertAfter]
    cases c with
    | value j =>
      rw [List.filter_cons_of_pos (a := GroupChild.value j) (by rfl), insertAfter]
      split
      · rw [List.filter_cons_of_pos (by rfl), List.filter_cons_of_pos (by rfl)]
      · rw [List.filter_cons_of_pos (by rfl), ih]
    | comma o c =>
      rw [List.filter_cons_of_pos (a := GroupChild.comma o c) (by rfl), insertAfter]
      simp only [GroupChild.isValue, Bool.false_eq_true, if_false]
      rw [List.filter_cons_of_pos (by rfl), ih]
    | other =>
      rw [List.filter_cons_of_neg (by simp [notOther])]
      simp only [GroupChild.isValue, Bool.false_eq_true, if_false]
      rw [List.filter_cons_of_neg (by simp [notOther]), ih]

theorem insertAfter_commas (i : Nat) (new : GroupChild C) (rs : List (CommaRef C)) (l : List (GroupChild C)) :
    insertAfter i new ((rs.map fun r => GroupChild.comma r.1 r.2) ++ l) =
      (rs.map fun r => GroupChild.comma r.1 r.2) ++ insertAfter i new l := by
  induction rs with
  | nil => rfl
  | cons r rs ih =>
    rw [List.map_cons, List.cons_append, insertAfter]
    simp only [GroupChild.isValue, Bool.false_eq_true, if_false]
    rw [ih]; rfl

theorem insertAfter_blocks (i : Nat) (r : CommaRef C) (bs : List (Block C)) (hnd : (bs.map (·.1)).Nodup) :
    insertAfter i (.comma r.1 r.2) (blocks bs) = blocks (bs.map fun b => if b.1 = i then (b.1, r :: b.2) else b) := by
  induction bs with
  | nil => rfl
  | cons b bs ih =>
    rw [List.map_cons, List.nodup_cons] at hnd
    rw [blocks_cons, insertAfter, List.map_cons]
    by_cases h : b.1 = i
    · rw [if_pos (by simp [GroupChild.isValue, h]), if_pos h, blocks_cons]
      have : bs.map (fun b => if b.1 = i then (b.1, r :: b.2) else b) = bs := by
        rw [List.map_congr_left (g := id), List.map_id]
        intro b' hb'
        rw [if_neg]
        · rfl
        · intro h'; exact hnd.1 (List.mem_map.2 ⟨b', hb', by rw [h', h]⟩)
      rw [this]; rfl
    · rw [if_neg (by simp [GroupChild.isValue, h]), if_neg h, blocks_cons, insertAfter_commas, ih hnd.2]

/-- The commas that `commaTrailingComment` adds. -/
def extra (trailing : Option C) (comma : Option (CommaNode C)) (append : Bool) : List (CommaRef C) :=
  match comma, trailing with
  | some comma, some t => if comma.bare then [(none, makeCommaWithTrailingComment t)] else []
  | some _, none => []
  | none, some t => if append then [(none, makeCommaWithTrailingComment t)] else []
  | none, none => if append then [(none, makeComma)] else []

/-- Is the trailing comment moved? -/
def moved (trailing : Option C) (comma : Option (CommaNode C)) (append : Bool) : Bool :=
  trailing.isSome && match comma with
  | some comma => comma.bare
  | none => append

/-- A group, without what is neither a value nor a comma. -/
structure Has (g : ValueGroup C) (bs : List (Block C)) (tr : Nat → Option C) : Prop where
  children : g.children.filter notOther = blocks bs
  trailing : ∀ i, g.trailing i = tr i

theorem Has.one {g : ValueGroup C} {bs : List (Block C)} {tr : Nat → Option C} (h : Has g bs tr) (hnd : (bs.map (·.1)).Nodup)
    (i : Nat) (t : Option C) (comma : Option (CommaNode C)) (append : Bool) :
    Has ((commaTrailingComment i t comma append).foldl ValueGroup.apply g)
      (bs.map fun b => if b.1 = i then (b.1, extra t comma append ++ b.2) else b)
      (fun j => if j = i ∧ moved t comma append = true then none else tr j) := by
  have h0 : ∀ m, m = false → Has g (bs.map fun b => if b.1 = i then (b.1, [] ++ b.2) else b)
      (fun j => if j = i ∧ m = true then none else tr j) := by
    intro m hm
    subst hm
    refine ⟨?_, fun j => ?_⟩
    · rw [h.children]
      congr 1
      rw [List.map_congr_left (g := id), List.map_id]
      intro b _
      split <;> rfl
    · rw [if_neg (by simp)]; exact h.trailing j
  have happ : ∀ r : CommaRef C, (insertAfter i (.comma r.1 r.2) g.children).filter notOther =
      blocks (bs.map fun b => if b.1 = i then (b.1, [r] ++ b.2) else b) := by
    intro r
    rw [insertAfter_strip, h.children, insertAfter_blocks _ _ _ hnd]; rfl
  have h1 : ∀ t' : C, Has ([GroupChange.remove i, .append i (.comma none (makeCommaWithTrailingComment t'))].foldl ValueGroup.apply g)
      (bs.map fun b => if b.1 = i then (b.1, [(none, makeCommaWithTrailingComment t')] ++ b.2) else b)
      (fun j => if j = i ∧ true = true then none else tr j) := by
    intro t'
    refine ⟨happ (none, makeCommaWithTrailingComment t'), fun j => ?_⟩
    show (if j = i then none else g.trailing j) = _
    by_cases hj : j = i
    · rw [if_pos hj, if_pos ⟨hj, rfl⟩]
    · rw [if_neg hj, if_neg (fun h => hj h.1)]; exact h.trailing j
  have h2 : Has ([GroupChange.append i (.comma none makeComma)].foldl ValueGroup.apply g)
      (bs.map fun b => if b.1 = i then (b.1, [(none, makeComma)] ++ b.2) else b)
      (fun j => if j = i ∧ false = true then none else tr j) := by
    refine ⟨happ (none, makeComma), fun j => ?_⟩
    rw [if_neg (by simp)]; exact h.trailing j
  cases comma with
  | some c =>
    cases t with
    | some t =>
      unfold commaTrailingComment extra moved
      simp only [Option.isSome_some, Bool.true_and]
      cases c.bare with
      | true => exact h1 t
      | false => exact h0 false rfl
    | none => exact h0 _ rfl
  | none =>
    cases t with
    | some t =>
      unfold commaTrailingComment extra moved
      simp only [Option.isSome_some, Bool.true_and]
      cases append with
      | true => exact h1 t
      | false => exact h0 false rfl
    | none =>
      unfold commaTrailingComment extra moved
      cases append with
      | true => exact h2
      | false => exact h0 false rfl

theorem Has.many {g : ValueGroup C} {bs : List (Block C)} {tr : Nat → Option C} (h : Has g bs tr) (hnd : (bs.map (·.1)).Nodup)
    (ids : List Nat) (hids : ids.Nodup) (t : Nat → Option C) (comma : Nat → Option (CommaNode C)) (append : Nat → Bool) :
    Has ((ids.flatMap fun i => commaTrailingComment i (t i) (comma i) (append i)).foldl ValueGroup.apply g)
      (bs.map fun b => if b.1 ∈ ids then (b.1, extra (t b.1) (comma b.1) (append b.1) ++ b.2) else b)
      (fun j => if j ∈ ids ∧ moved (t j) (comma j) (append j) = true then none else tr j) := by
  induction ids generalizing g bs tr with
  | nil =>
    refine ⟨?_, fun j => ?_⟩
    · simp only [List.flatMap_nil, List.foldl_nil, List.not_mem_nil, if_false]
      rw [List.map_id']; exact h.children
    · simpa using h.trailing j
  | cons i ids ih =>
    rw [List.nodup_cons] at hids
    have h1 := h.one hnd i (t i) (comma i) (append i)
    have hmap : (bs.map fun b => if b.1 = i then (b.1, extra (t i) (comma i) (append i) ++ b.2) else b).map (·.1) = bs.map (·.1) := by
      rw [List.map_map]
      apply List.map_congr_left
      intro b _
      simp only [Function.comp]
      split <;> rfl
    have h2 := ih h1 (by rw [hmap]; exact hnd) hids.2
    rw [List.flatMap_cons, List.foldl_append]
    refine ⟨?_, fun j => ?_⟩
    · rw [h2.children]
      congr 1
      rw [List.map_map]
      apply List.map_congr_left
      intro b _
      simp only [Function.comp]
      by_cases hb : b.1 = i
      · rw [if_pos hb]
        simp only []
        rw [if_neg (by rw [hb]; exact hids.1), if_pos (by rw [hb]; exact List.mem_cons_self), hb]
      · rw [if_neg hb]
        by_cases hm : b.1 ∈ ids
        · rw [if_pos hm, if_pos (List.mem_cons_of_mem _ hm)]
        · rw [if_neg hm, if_neg (by intro h; rcases List.mem_cons.1 h with h | h; exact hb h; exact hm h)]
    · rw [h2.trailing j]
      simp only [List.mem_cons]
      by_cases hj : j = i
      · subst hj
        simp only [true_or, true_and]
        rw [if_neg (fun h => hids.1 h.1)]
      · simp only [hj, false_or, false_and, if_false]

/-! ### Replacing -/

/-- Is the child among those attached? -/
def attachedNow (new : List (GroupChild C)) : GroupChild C → Bool
  | .value i => new.any (·.isValue i)
  | .comma (some i) _ => new.any fun c => match c with
    | .comma (some j) _ => i == j
    | _ => false
  | _ => false

/-- No child is attached twice, and no blanks are. -/
def AttachOk : List (GroupChild C) → Prop
  | [] => True
  | c :: rest => attachedNow rest c = false ∧ notOther c = true ∧ AttachOk rest

theorem detachChild_eq (c : GroupChild C) (hc : notOther c = true) (l : List (GroupChild C)) :
    detachChild c l = l.filter fun d => !attachedNow [c] d := by
  have hid : ∀ p : GroupChild C → Bool, (∀ d, p d = true) → l = l.filter p := fun p hp => by
    rw [eq_comm, List.filter_eq_self]; intro d _; exact hp d
  cases c with
  | value i =>
    unfold detachChild
    apply List.filter_congr
    intro d _
    cases d with
    | value j => simp [attachedNow, GroupChild.isValue, BEq.comm]
    | comma o c => cases o <;> rfl
    | other => rfl
  | comma o c =>
    cases o with
    | none =>
      refine hid _ fun d => ?_
      cases d with
      | value j => rfl
      | comma o c => cases o <;> rfl
      | other => rfl
    | some i =>
      unfold detachChild
      apply List.filter_congr
      intro d _
      cases d with
      | value j => rfl
      | comma o c =>
        cases o with
        | none => rfl
        | some j =>
          simp only [attachedNow, List.any_cons, List.any_nil, Bool.or_false]
          rfl
      | other => rfl
  | other => cases hc

theorem attachedNow_cons (c : GroupChild C) (new : List (GroupChild C)) (d : GroupChild C) :
    attachedNow (c :: new) d = (attachedNow [c] d || attachedNow new d) := by
  cases d with
  | value i => simp [attachedNow]
  | comma o c' => cases o <;> simp [attachedNow]
  | other => rfl

theorem attachAll_eq (new pre suf : List (GroupChild C)) (hok : AttachOk new) (hpre : ∀ d ∈ pre, attachedNow new d = false) :
    attachAll pre.length (pre ++ suf) new = pre ++ new ++ suf.filter fun d => !attachedNow new d := by
  induction new generalizing pre suf with
  | nil =>
    rw [attachAll]
    have : suf.filter (fun d => !attachedNow [] d) = suf := by
      rw [List.filter_eq_self]; intro d _; cases d with
      | value i => rfl
      | comma o c => cases o <;> rfl
      | other => rfl
    rw [this, List.append_nil]
  | cons c new ih =>
    obtain ⟨h1, h2, h3⟩ := hok
    have hp : pre.filter (fun d => !attachedNow [c] d) = pre := by
      rw [List.filter_eq_self]
      intro d hd
      have := hpre d hd
      rw [attachedNow_cons, Bool.or_eq_false_iff] at this
      rw [this.1]; rfl
    rw [attachAll, detachChild_eq c h2, List.filter_append, hp]
    have hins : (pre ++ suf.filter fun d => !attachedNow [c] d).insertIdx pre.length c =
        (pre ++ [c]) ++ suf.filter fun d => !attachedNow [c] d := by
      generalize suf.filter (fun d => !attachedNow [c] d) = s
      clear hp hpre ih
      induction pre with
      | nil => rfl
      | cons d pre ih' => rw [List.length_cons, List.cons_append, List.insertIdx_succ_cons, ih']; rfl
    rw [hins]
    have := ih (pre ++ [c]) (suf.filter fun d => !attachedNow [c] d) h3 (by
      intro d hd
      rcases List.mem_append.1 hd with hd | hd
      · have := hpre d hd
        rw [attachedNow_cons, Bool.or_eq_false_iff] at this
        exact this.2
      · rw [List.mem_singleton] at hd
        subst hd; exact h1)
    rw [List.length_append, List.length_singleton] at this
    rw [this, List.filter_filter]
    have hf : (suf.filter fun d => !attachedNow new d && !attachedNow [c] d) = suf.filter fun d => !attachedNow (c :: new) d := by
      apply List.filter_congr
      intro d _
      rw [attachedNow_cons c new d, Bool.not_or, Bool.and_comm]
    rw [hf]
    simp

end Tombi
