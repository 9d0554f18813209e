import Verif.Proofs.DocMerge

/-! Merging without errors: what is at each place afterwards. -/
namespace Tombi
open Spec (Step Path child lookup nodeAt nodeOf)

variable {σ : Type}

/-- What a value is, in detail. -/
inductive DKind (σ : Type) where
  | scalar (s : σ)
  | incomplete
  | array (a : ArrayKind) (n : Nat)
  | table (k : TableKind)

def kindOf : DValue σ → DKind σ
  | .scalar s => .scalar s
  | .incomplete => .incomplete
  | .array a vs => .array a vs.length
  | .table k _ => .table k

def kindAt (v : DValue σ) (p : Path) : Option (DKind σ) := (lookup v p).map kindOf

def eraseKind : DKind σ → Option (Spec.Node σ)
  | .scalar s => some (.scalar s)
  | .incomplete => none
  | .array _ _ => some .array
  | .table _ => some .table

/-- The conflicts of kinds of tables (other than those among the entries). -/
def kindsClash : TableKind → TableKind → Bool
  | .keyValue, .keyValue => false
  | k1, k2 => tableConflict (σ := Unit) k1 [] k2 []

def mergedKind : DKind σ → DKind σ → Option (DKind σ)
  | .table k1, .table k2 => if kindsClash k1 k2 then none else some (.table (kindAfter k1 k2))
  | .array a1 n, .array a2 m =>
    if a1 ≠ .array ∧ a2 ≠ .array then some (.array a1 (if a2 = .parentArrayOfTable then n else n + m)) else none
  | _, _ => none

theorem kindsClash_of_not_conflict {k1 k2 : TableKind} {e1 e2 : DEntries σ} (h : tableConflict k1 e1 k2 e2 = false) :
    kindsClash k1 k2 = false := by
  cases k1 <;> cases k2 <;> first | rfl | exact h

theorem mergedKind_erase {k1 k2 k : DKind σ} (h : mergedKind k1 k2 = some k) :
    eraseKind k = eraseKind k1 ∧ eraseKind k = eraseKind k2 ∧ (eraseKind k).isSome := by
  cases k1 <;> cases k2 <;> rw [mergedKind] at h <;> try (cases h; done)
  · split at h
    · cases h; exact ⟨rfl, rfl, rfl⟩
    · cases h
  · split at h
    · cases h
    · cases h; exact ⟨rfl, rfl, rfl⟩

theorem nodeAt_eq (v : DValue σ) (p : Path) : nodeAt v p = (kindAt v p).bind eraseKind := by
  unfold nodeAt kindAt
  cases lookup v p with
  | none => rfl
  | some w => cases w <;> rfl

theorem lookup_cons (v : DValue σ) (s : Step) (p : Path) : lookup v (s :: p) = (child v s).bind (lookup · p) := rfl

theorem lookup_append (v : DValue σ) (p q : Path) : lookup v (p ++ q) = (lookup v p).bind (lookup · q) := by
  induction p generalizing v with
  | nil => rfl
  | cons s p ih =>
    rw [List.cons_append, lookup_cons, lookup_cons]
    cases child v s with
    | none => rfl
    | some w => exact ih w

theorem kindAt_cons {v w : DValue σ} {s : Step} (h : child v s = some w) (p : Path) :
    kindAt v (s :: p) = kindAt w p := by
  unfold kindAt; rw [lookup_cons, h]; rfl

theorem kindAt_cons_none {v : DValue σ} {s : Step} (h : child v s = none) (p : Path) : kindAt v (s :: p) = none := by
  unfold kindAt; rw [lookup_cons, h]; rfl

theorem kindAt_append {v w : DValue σ} {p : Path} (h : lookup v p = some w) (q : Path) :
    kindAt v (p ++ q) = kindAt w q := by
  unfold kindAt; rw [lookup_append, h]; rfl

/-- Where the places of the second tree are in the merged tree. -/
def embed : Option (DValue σ) → DValue σ → Path → Path
  | _, _, [] => []
  | v1, v2, .key k :: p =>
    .key k :: (match child v2 (.key k) with
      | some w2 => embed (v1.bind (child · (.key k))) w2 p
      | none => p)
  | some (.array _ vs1), .array a2 vs2, .index i :: p =>
    if a2 = .parentArrayOfTable then
      .index (vs1.length - 1 + i) :: (match vs2[i]? with
        | some w2 => embed vs1.getLast? w2 p
        | none => p)
    else if a2 = .arrayOfTable then .index (vs1.length + i) :: p
    else .index i :: p
  | _, _, .index i :: p => .index i :: p

theorem embed_none (v2 : DValue σ) (p : Path) : embed none v2 p = p := by
  induction p generalizing v2 with
  | nil => rw [embed]
  | cons s p ih =>
    cases s with
    | key k =>
      rw [embed]
      cases child v2 (.key k) with
      | none => rfl
      | some w2 => simp only [Option.bind_none, ih]
    | index i => rw [embed]; simp

/-- The second tree of a merge: arrays that stand for their last element have one element. -/
def SingleOk : DValue σ → Prop
  | .array .parentArrayOfTable vs => ∃ k e, vs = [.table k e]
  | _ => True

theorem mergeEntries_get (e1 e2 : DEntries σ) (h : (mergeEntries e1 e2).2 = []) (hn : (e2.map (·.1)).Nodup) (k : DKey) :
    (∀ v2, dget e1 k = none → dget e2 k = some v2 → dget (mergeEntries e1 e2).1 k = some v2) ∧
    (dget e2 k = none → dget (mergeEntries e1 e2).1 k = dget e1 k) ∧
    (∀ v1 v2, dget e1 k = some v1 → dget e2 k = some v2 →
      (mergeValue k v1 v2).2 = [] ∧ dget (mergeEntries e1 e2).1 k = some (mergeValue k v1 v2).1) := by
  induction e2 generalizing e1 with
  | nil =>
    rw [mergeEntries]
    exact ⟨fun v2 _ h => (by cases h), fun _ => rfl, fun v1 v2 _ h => (by cases h)⟩
  | cons kv e2 ih =>
    obtain ⟨k2, v2⟩ := kv
    rw [List.map_cons, List.nodup_cons] at hn
    have hk2 : dget e2 k2 = none := dget_none.2 hn.1
    cases hg : dget e1 k2 with
    | some v1 =>
      rw [mergeEntries, hg] at h ⊢
      simp only [List.append_eq_nil_iff] at h ⊢
      obtain ⟨i1, i2, i3⟩ := ih _ h.2 hn.2
      have hd := dget_dset e1 k2 k (mergeValue k2 v1 v2).1 (by rw [hg]; simp)
      rw [hd] at i1 i2 i3
      rw [dget]
      by_cases hk : k2 = k
      · subst hk
        rw [if_pos rfl] at *
        refine ⟨fun v2 h => (by rw [hg] at h; cases h), fun h => (by cases h), ?_⟩
        intro v1' v2' h1 h2
        rw [hg] at h1; cases h1; cases h2
        exact ⟨h.1, i2 hk2⟩
      · rw [if_neg hk] at *
        exact ⟨i1, i2, i3⟩
    | none =>
      rw [mergeEntries, hg] at h ⊢
      simp only at h ⊢
      obtain ⟨i1, i2, i3⟩ := ih _ h hn.2
      have hd := dget_append e1 k2 k v2 hg
      rw [hd] at i1 i2 i3
      rw [dget]
      by_cases hk : k2 = k
      · subst hk
        rw [if_pos rfl] at *
        refine ⟨?_, fun h => (by cases h), fun v1 v2 h => (by rw [hg] at h; cases h)⟩
        intro v2' _ h2
        cases h2
        exact i2 hk2
      · rw [if_neg hk] at *
        exact ⟨i1, i2, i3⟩

/-- The ways a merge of values succeeds. -/
theorem mergeValue_cases {key : DKey} {v1 v2 : DValue σ} (h : (mergeValue key v1 v2).2 = [])
    (h1 : Everywhere LocalOk v1) (h2 : Everywhere SingleOk v2) :
    (∃ k1 e1 k2 e2, v1 = .table k1 e1 ∧ v2 = .table k2 e2 ∧ tableConflict k1 e1 k2 e2 = false ∧
      (mergeEntries e1 e2).2 = [] ∧ (mergeValue key v1 v2).1 = .table (kindAfter k1 k2) (mergeEntries e1 e2).1) ∨
    (∃ a1 vs k1 e1 k2 e2, a1 ≠ .array ∧ v1 = .array a1 (vs ++ [.table k1 e1]) ∧
      v2 = .array .parentArrayOfTable [.table k2 e2] ∧
      (mergeValue [] (.table k1 e1) (.table k2 e2)).2 = [] ∧
      (mergeValue key v1 v2).1 = .array a1 (vs ++ [(mergeValue [] (.table k1 e1) (.table k2 e2)).1])) ∨
    (∃ a1 vs1 vs2, a1 ≠ .array ∧ v1 = .array a1 vs1 ∧ v2 = .array .arrayOfTable vs2 ∧
      (mergeValue key v1 v2).1 = .array a1 (vs1 ++ vs2)) := by
  cases v2 with
  | scalar s => simp [mergeValue] at h
  | incomplete => simp [mergeValue] at h
  | table k2 e2 =>
    cases v1 with
    | table k1 e1 =>
      left
      rw [mergeValue] at h
      rw [mergeValue]
      cases hc : tableConflict k1 e1 k2 e2 with
      | true => rw [hc, if_pos rfl] at h; cases h
      | false =>
        rw [hc, if_neg (by simp)] at h
        exact ⟨k1, e1, k2, e2, rfl, rfl, hc, h, by rw [if_neg (by simp)]⟩
    | _ => simp [mergeValue] at h
  | array a2 vs2 =>
    cases v1 with
    | array a1 vs1 =>
      right
      rw [mergeValue] at h
      rw [mergeValue]
      by_cases ha : a1 ≠ .array ∧ a2 ≠ .array
      · rw [if_pos ha] at h ⊢
        have t1 := (everywhere_ok_array ha.1).1 h1
        by_cases hp : a2 = .parentArrayOfTable
        · left
          rw [if_pos hp] at h ⊢
          subst hp
          obtain ⟨k2, e2, rfl⟩ := ((everywhere_iff_step _ _).1 h2).1
          cases hl : vs1.getLast? with
          | none => exact absurd (List.getLast?_eq_none_iff.1 hl) t1.1
          | some l =>
            obtain ⟨k1, e1, rfl⟩ := t1.2.1 l (List.mem_of_getLast? hl)
            rw [mergeLast_table hl] at h ⊢
            have hv : vs1 = vs1.dropLast ++ [.table k1 e1] := by
              obtain ⟨ys, rfl⟩ := List.getLast?_eq_some_iff.1 hl
              rw [List.dropLast_concat]
            exact ⟨a1, vs1.dropLast, k1, e1, k2, e2, ha.1, by rw [← hv], rfl, h, rfl⟩
        · right
          rw [if_neg hp]
          have : a2 = .arrayOfTable := by
            cases a2
            · rfl
            · exact absurd rfl hp
            · exact absurd rfl ha.2
          subst this
          exact ⟨a1, vs1, vs2, ha.1, rfl, rfl, rfl⟩
      · rw [if_neg ha] at h; cases h
    | _ => simp [mergeValue] at h

theorem everywhere_child {P : DValue σ → Prop} {v w : DValue σ} {s : Step} (h : Everywhere P v) (hc : child v s = some w) :
    Everywhere P w := ((everywhere_iff_step _ _).1 h).2 s w hc

theorem getElem?_concat_last {α : Type} (l : List α) (a : α) : (l ++ [a])[l.length]? = some a := by simp

/-- After a merge without errors: the places of the second tree. -/
theorem merge_second (p2 : Path) : ∀ (key : DKey) (v1 v2 : DValue σ) (k2 : DKind σ), (mergeValue key v1 v2).2 = [] →
    Everywhere LocalOk v1 → Everywhere LocalOk v2 → Everywhere SingleOk v2 → kindAt v2 p2 = some k2 →
    (kindAt v1 (embed (some v1) v2 p2) = none ∧ kindAt (mergeValue key v1 v2).1 (embed (some v1) v2 p2) = some k2) ∨
    (∃ k1 k, kindAt v1 (embed (some v1) v2 p2) = some k1 ∧ mergedKind k1 k2 = some k ∧
      kindAt (mergeValue key v1 v2).1 (embed (some v1) v2 p2) = some k) := by
  induction p2 with
  | nil =>
    intro key v1 v2 k2 h h1 h2 h3 hk
    right
    rw [embed]
    cases hk
    rcases mergeValue_cases h h1 h3 with ⟨k1, e1, k2, e2, rfl, rfl, hc, he, hv⟩ |
      ⟨a1, vs, k1, e1, k2, e2, ha, rfl, rfl, he, hv⟩ | ⟨a1, vs1, vs2, ha, rfl, rfl, hv⟩
    · refine ⟨_, _, rfl, ?_, by rw [hv]; rfl⟩
      show (if kindsClash k1 k2 then none else _) = _
      rw [kindsClash_of_not_conflict hc]; rfl
    · refine ⟨_, _, rfl, ?_, by rw [hv]; rfl⟩
      show (if _ then _ else _) = _
      rw [if_pos ⟨ha, by simp⟩]
      simp [kindOf]
    · refine ⟨_, _, rfl, ?_, by rw [hv]; rfl⟩
      show (if _ then _ else _) = _
      rw [if_pos ⟨ha, by simp⟩]
      simp [kindOf]
  | cons s p2 ih =>
    intro key v1 v2 k2' h h1 h2 h3 hk
    rcases mergeValue_cases h h1 h3 with ⟨k1, e1, k2, e2, rfl, rfl, hc, he, hv⟩ |
      ⟨a1, vs, k1, e1, k2, e2, ha, rfl, rfl, he, hv⟩ | ⟨a1, vs1, vs2, ha, rfl, rfl, hv⟩
    · rw [hv]
      cases s with
      | index i => cases hk
      | key k =>
        cases hc2 : child (.table k2 e2) (.key k) with
        | none => rw [kindAt_cons_none hc2] at hk; cases hk
        | some w2 =>
          rw [kindAt_cons hc2] at hk
          have hg2 : dget e2 k = some w2 := by rw [← child_table k2]; exact hc2
          obtain ⟨i1, i2, i3⟩ := mergeEntries_get e1 e2 he (everywhere_ok_table.1 h2).1 k
          rw [embed, hc2]
          simp only [Option.bind_some]
          cases hc1 : child (.table k1 e1) (.key k) with
          | none =>
            have hg1 : dget e1 k = none := by rw [← child_table k1]; exact hc1
            left
            rw [embed_none]
            refine ⟨kindAt_cons_none hc1 _, ?_⟩
            rw [kindAt_cons (w := w2) (by rw [child_table]; exact i1 w2 hg1 hg2)]
            exact hk
          | some w1 =>
            have hg1 : dget e1 k = some w1 := by rw [← child_table k1]; exact hc1
            obtain ⟨j1, j2⟩ := i3 w1 w2 hg1 hg2
            have := ih k w1 w2 k2' j1 (everywhere_child h1 hc1) (everywhere_child h2 hc2) (everywhere_child h3 hc2) hk
            rw [kindAt_cons hc1, kindAt_cons (w := (mergeValue k w1 w2).1) (by rw [child_table]; exact j2)]
            exact this
    · rw [hv]
      cases s with
      | key k => cases hk
      | index i =>
        cases i with
        | succ i => cases hk
        | zero =>
          have hk' : kindAt (.table k2 e2) p2 = some k2' := hk
          have hc1 : child (.array a1 (vs ++ [.table k1 e1])) (.index vs.length) = some (.table k1 e1) :=
            getElem?_concat_last _ _
          have := ih [] (.table k1 e1) (.table k2 e2) k2' he (everywhere_child h1 hc1)
            (everywhere_child (s := .index 0) h2 rfl) (everywhere_child (s := .index 0) h3 rfl) hk'
          have hl : (vs ++ [DValue.table k1 e1]).length - 1 + 0 = vs.length := by simp
          have he : embed (some (.array a1 (vs ++ [.table k1 e1]))) (.array .parentArrayOfTable [.table k2 e2])
              (.index 0 :: p2) = .index vs.length :: embed (some (.table k1 e1)) (.table k2 e2) p2 := by
            rw [embed, if_pos rfl, hl]
            simp
          rw [he, kindAt_cons hc1, kindAt_cons (w := (mergeValue [] (.table k1 e1) (.table k2 e2)).1)
            (getElem?_concat_last _ _)]
          exact this
    · rw [hv]
      cases s with
      | key k => cases hk
      | index i =>
        left
        rw [embed, if_neg (by simp), if_pos rfl]
        refine ⟨kindAt_cons_none ?_ _, ?_⟩
        · show vs1[vs1.length + i]? = none
          simp
        · cases hc2 : child (.array .arrayOfTable vs2) (.index i) with
          | none => rw [kindAt_cons_none hc2] at hk; cases hk
          | some w2 =>
            rw [kindAt_cons hc2] at hk
            rw [kindAt_cons (w := w2)]
            · exact hk
            · show (vs1 ++ vs2)[vs1.length + i]? = some w2
              rw [List.getElem?_append_right (by omega)]
              rw [show vs1.length + i - vs1.length = i from by omega]
              exact hc2

/-- After a merge without errors: every other place is as in the first tree. -/
theorem merge_other (p : Path) : ∀ (key : DKey) (v1 v2 : DValue σ), (mergeValue key v1 v2).2 = [] →
    Everywhere LocalOk v1 → Everywhere LocalOk v2 → Everywhere SingleOk v2 →
    (∃ p2 k2, kindAt v2 p2 = some k2 ∧ embed (some v1) v2 p2 = p) ∨
    kindAt (mergeValue key v1 v2).1 p = kindAt v1 p := by
  induction p with
  | nil =>
    intro key v1 v2 h h1 h2 h3
    left
    exact ⟨[], _, rfl, by rw [embed]⟩
  | cons s p ih =>
    intro key v1 v2 h h1 h2 h3
    rcases mergeValue_cases h h1 h3 with ⟨k1, e1, k2, e2, rfl, rfl, hc, he, hv⟩ |
      ⟨a1, vs, k1, e1, k2, e2, ha, rfl, rfl, he, hv⟩ | ⟨a1, vs1, vs2, ha, rfl, rfl, hv⟩
    · rw [hv]
      cases s with
      | index i => right; rfl
      | key k =>
        obtain ⟨i1, i2, i3⟩ := mergeEntries_get e1 e2 he (everywhere_ok_table.1 h2).1 k
        cases hc2 : child (.table k2 e2) (.key k) with
        | none =>
          right
          have hg2 : dget e2 k = none := by rw [← child_table k2]; exact hc2
          unfold kindAt
          rw [lookup_cons, lookup_cons, child_table, child_table, i2 hg2]
        | some w2 =>
          have hg2 : dget e2 k = some w2 := by rw [← child_table k2]; exact hc2
          cases hc1 : child (.table k1 e1) (.key k) with
          | none =>
            have hg1 : dget e1 k = none := by rw [← child_table k1]; exact hc1
            have hc : child (.table (kindAfter k1 k2) (mergeEntries e1 e2).1) (.key k) = some w2 := by
              rw [child_table]; exact i1 w2 hg1 hg2
            rw [kindAt_cons hc, kindAt_cons_none hc1]
            cases hw : kindAt w2 p with
            | none => right; rfl
            | some kw =>
              left
              refine ⟨.key k :: p, kw, by rw [kindAt_cons hc2]; exact hw, ?_⟩
              rw [embed, hc2]
              simp only [Option.bind_some, hc1, embed_none]
          | some w1 =>
            have hg1 : dget e1 k = some w1 := by rw [← child_table k1]; exact hc1
            obtain ⟨j1, j2⟩ := i3 w1 w2 hg1 hg2
            have hc : child (.table (kindAfter k1 k2) (mergeEntries e1 e2).1) (.key k) = some (mergeValue k w1 w2).1 := by
              rw [child_table]; exact j2
            rw [kindAt_cons hc, kindAt_cons hc1]
            rcases ih k w1 w2 j1 (everywhere_child h1 hc1) (everywhere_child h2 hc2) (everywhere_child h3 hc2) with
              ⟨p2, kw, hw, hp⟩ | h
            · left
              refine ⟨.key k :: p2, kw, by rw [kindAt_cons hc2]; exact hw, ?_⟩
              rw [embed, hc2]
              simp only [Option.bind_some, hc1, hp]
            · right; exact h
    · rw [hv]
      cases s with
      | key k => right; rfl
      | index i =>
        have hc1 : child (.array a1 (vs ++ [.table k1 e1])) (.index vs.length) = some (.table k1 e1) :=
          getElem?_concat_last _ _
        have hc : child (.array a1 (vs ++ [(mergeValue [] (.table k1 e1) (.table k2 e2)).1])) (.index vs.length) =
            some (mergeValue [] (.table k1 e1) (.table k2 e2)).1 := getElem?_concat_last _ _
        by_cases hi : i = vs.length
        · subst hi
          rw [kindAt_cons hc, kindAt_cons hc1]
          rcases ih [] (.table k1 e1) (.table k2 e2) he (everywhere_child h1 hc1)
            (everywhere_child (s := .index 0) h2 rfl) (everywhere_child (s := .index 0) h3 rfl) with ⟨p2, kw, hw, hp⟩ | h
          · left
            refine ⟨.index 0 :: p2, kw, hw, ?_⟩
            have hl : (vs ++ [DValue.table k1 e1]).length - 1 + 0 = vs.length := by simp
            rw [embed, if_pos rfl, hl]
            simp [hp]
          · right; exact h
        · right
          unfold kindAt
          rw [lookup_cons, lookup_cons]
          have : child (.array a1 (vs ++ [(mergeValue [] (.table k1 e1) (.table k2 e2)).1])) (.index i) =
              child (.array a1 (vs ++ [.table k1 e1])) (.index i) := by
            show (vs ++ [_])[i]? = (vs ++ [_])[i]?
            by_cases hl : i < vs.length
            · rw [List.getElem?_append_left hl, List.getElem?_append_left hl]
            · rw [List.getElem?_eq_none (by simp; omega), List.getElem?_eq_none (by simp; omega)]
          rw [this]
    · rw [hv]
      cases s with
      | key k => right; rfl
      | index i =>
        by_cases hl : i < vs1.length
        · right
          unfold kindAt
          rw [lookup_cons, lookup_cons]
          have : child (.array a1 (vs1 ++ vs2)) (.index i) = child (.array a1 vs1) (.index i) := by
            show (vs1 ++ vs2)[i]? = vs1[i]?
            rw [List.getElem?_append_left hl]
          rw [this]
        · have hn : child (.array a1 vs1) (.index i) = none := List.getElem?_eq_none (by omega)
          have hc' : child (.array a1 (vs1 ++ vs2)) (.index i) = child (.array .arrayOfTable vs2) (.index (i - vs1.length)) :=
            List.getElem?_append_right (by omega)
          rw [kindAt_cons_none hn]
          cases hc2 : child (.array .arrayOfTable vs2) (.index (i - vs1.length)) with
          | none => right; exact kindAt_cons_none (hc'.trans hc2) p
          | some w2 =>
            rw [kindAt_cons (hc'.trans hc2)]
            cases hw : kindAt w2 p with
            | none => right; rfl
            | some kw =>
              left
              refine ⟨.index (i - vs1.length) :: p, kw, by rw [kindAt_cons hc2]; exact hw, ?_⟩
              rw [embed, if_neg (by simp), if_pos rfl, show vs1.length + (i - vs1.length) = i from by omega]

/-- A tree whose arrays are all plain. -/
def PlainOk : DValue σ → Prop
  | .array a _ => a = .array
  | _ => True

theorem embed_plain (v1 : Option (DValue σ)) (v2 : DValue σ) (h : Everywhere PlainOk v2) (p : Path) :
    embed v1 v2 p = p := by
  induction p generalizing v1 v2 with
  | nil => rw [embed]
  | cons s p ih =>
    cases s with
    | key k =>
      rw [embed]
      cases hc : child v2 (.key k) with
      | none => rfl
      | some w2 => simp only [ih _ w2 (everywhere_child h hc)]
    | index i =>
      cases v2 with
      | array a vs =>
        have : a = .array := h [] _ rfl
        subst this
        cases v1 with
        | none => simp [embed]
        | some v1 => cases v1 <;> simp [embed]
      | _ => simp [embed]

theorem single_of_plain {v : DValue σ} (h : Everywhere PlainOk v) : Everywhere SingleOk v := by
  intro p w hw
  have := h p w hw
  cases w with
  | array a vs => have : a = .array := this; subst this; exact trivial
  | _ => exact trivial

end Tombi
