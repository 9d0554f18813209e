import Verif.Proofs.DocSections

/-! Where the table of a section ends up, and the invariant of the document. -/
namespace Tombi
open Spec (Step Path child lookup nodeAt nodeOf below kvsNodes wayNodes enter resolve named sectionPath openedAfter
  RegularFrom sectionsNodes)

variable {σ : Type}

/-- The arrays of tables of the tree are those opened so far, with as many elements. -/
def CountInv (T : DValue σ) (opened : List Path) : Prop :=
  ∀ p, (0 < opened.count p → ∃ a, a ≠ ArrayKind.array ∧ kindAt T p = some (.array a (opened.count p))) ∧
    (∀ a n, kindAt T p = some (.array a n) → a ≠ ArrayKind.array → n = opened.count p)

theorem kindAt_array {T : DValue σ} {p : Path} {a : ArrayKind} {n : Nat} (h : kindAt T p = some (.array a n)) :
    ∃ vs, lookup T p = some (.array a vs) ∧ vs.length = n := by
  unfold kindAt at h
  cases hl : lookup T p with
  | none => rw [hl] at h; cases h
  | some w =>
    rw [hl] at h
    cases w with
    | array a' vs => cases h; exact ⟨vs, rfl, rfl⟩
    | _ => cases h

theorem everywhere_lookup {P : DValue σ → Prop} {T w : DValue σ} {p : Path} (h : Everywhere P T) (hw : lookup T p = some w) :
    Everywhere P w := by
  intro q x hx
  refine h (p ++ q) x ?_
  rw [lookup_append, hw]; exact hx

theorem merge_down_table {key : DKey} {v1 w1 w2 : DValue σ} {k : DKey} {kd : TableKind}
    (h : (mergeValue key v1 (.table kd [(k, w2)])).2 = []) (hc : child v1 (.key k) = some w1) : (mergeValue k w1 w2).2 = [] := by
  cases v1 with
  | table k1 e1 =>
    rw [mergeValue] at h
    split at h
    · cases h
    · have h' : (mergeEntries e1 [(k, w2)]).2 = [] := h
      rw [child_table] at hc
      exact ((mergeEntries_get e1 [(k, w2)] h' (by simp) k).2.2 w1 w2 hc (by rw [dget, if_pos rfl])).1
  | _ => cases hc

/-- On the way, the names that were made arrays of tables are arrays of tables. -/
def RegAt (arrays : List (List DKey)) (opened : List Path) (done : List DKey) (cur : Path) : List DKey → Prop
  | [] => True
  | k :: ks => (arrays.contains (done ++ [k]) = true → 0 < opened.count (cur ++ [.key k])) ∧
      RegAt arrays opened (done ++ [k]) (enter opened (cur ++ [.key k])) ks

theorem enter_zero {opened : List Path} {p : Path} (h : opened.count p = 0) : enter opened p = p := by
  unfold enter; rw [h]

theorem enter_pos {opened : List Path} {p : Path} (h : 0 < opened.count p) :
    enter opened p = p ++ [.index (opened.count p - 1)] := by
  unfold enter
  cases hc : opened.count p with
  | zero => omega
  | succ n => rfl

theorem headerFlags_ne_nil (arrays : List (List DKey)) (done ks : List DKey) (x : DKey × Option ArrayKind) :
    headerFlags arrays done ks ++ [x] ≠ [] := by simp

theorem spineTree_is_table (b : DValue σ) (l : List (DKey × Option ArrayKind)) (h : l ≠ []) :
    ∃ e, spineTree b l = .table .parentTable e := by
  cases l with
  | nil => exact absurd rfl h
  | cons x l => obtain ⟨k, o⟩ := x; cases o <;> exact ⟨_, rfl⟩

/-- The place of a section in the merged tree is the place its header names. -/
theorem spine_resolve {T b : DValue σ} {opened : List Path} (hT : Everywhere LocalOk T) (hI : CountInv T opened)
    {bk : TableKind} {be : DEntries σ} (hb : b = .table bk be) (hbp : Everywhere PlainOk b)
    (arrays : List (List DKey)) (isArray : Bool) (last : DKey) :
    ∀ (ks done : List DKey) (cur : Path), RegAt arrays opened done cur ks →
      (∀ v1, lookup T cur = some v1 → ∃ key, (mergeValue key v1 (spineTree b
        (headerFlags arrays done ks ++ [(last, if isArray then some .arrayOfTable else none)]))).2 = []) →
      cur ++ embed (lookup T cur)
          (spineTree b (headerFlags arrays done ks ++ [(last, if isArray then some .arrayOfTable else none)]))
          (spinePath (headerFlags arrays done ks ++ [(last, if isArray then some .arrayOfTable else none)])) =
        if isArray then resolve opened cur ks ++ [.key last, .index (opened.count (resolve opened cur ks ++ [.key last]))]
        else resolve opened cur ks ++ [.key last] := by
  intro ks
  induction ks with
  | nil =>
    intro done cur _ herr
    rw [headerFlags, List.nil_append, resolve]
    rw [headerFlags, List.nil_append] at herr
    cases isArray with
    | false =>
      simp only [Bool.false_eq_true, if_false]
      rw [spinePath, embed, spineTree, child_single, if_pos rfl, spinePath]
      simp [embed]
    | true =>
      simp only [if_true] at herr ⊢
      rw [spinePath, embed, spineTree, child_single, if_pos rfl, spinePath]
      simp only [spineTree]
      have hcur : (lookup T cur).bind (child · (.key last)) = lookup T (cur ++ [.key last]) := by
        rw [lookup_append]
        cases lookup T cur with
        | none => rfl
        | some w =>
          show child w (.key last) = lookup w [.key last]
          rw [lookup_cons]
          cases child w (.key last) <;> rfl
      rw [hcur]
      obtain ⟨i1, i2⟩ := hI (cur ++ [.key last])
      cases hl : lookup T (cur ++ [.key last]) with
      | none =>
        rw [embed_none]
        have : opened.count (cur ++ [.key last]) = 0 := by
          rcases Nat.eq_zero_or_pos (opened.count (cur ++ [.key last])) with h | h
          · exact h
          · obtain ⟨a, _, ha⟩ := i1 h
            unfold kindAt at ha; rw [hl] at ha; cases ha
        rw [this]
      | some w =>
        have hw : ∃ a vs, w = .array a vs ∧ a ≠ .array := by
          rw [lookup_append] at hl
          cases hc : lookup T cur with
          | none => rw [hc] at hl; cases hl
          | some w0 =>
            rw [hc] at hl
            have hl' : lookup w0 [.key last] = some w := hl
            rw [lookup_cons] at hl'
            cases hc0 : child w0 (.key last) with
            | none => rw [hc0] at hl'; cases hl'
            | some w' =>
              rw [hc0] at hl'
              have : w' = w := by
                have : (some w' : Option (DValue σ)) = some w := hl'
                injection this
              subst this
              obtain ⟨key, hk⟩ := herr w0 hc
              rw [spineTree] at hk
              have hm := merge_down_table hk hc0
              cases w' with
              | array a vs =>
                refine ⟨a, vs, rfl, fun ha => ?_⟩
                subst ha
                rw [mergeValue, if_neg (by simp)] at hm
                cases hm
              | _ => simp [mergeValue] at hm
        obtain ⟨a, vs, rfl, ha⟩ := hw
        have hlen : vs.length = opened.count (cur ++ [.key last]) :=
          i2 a vs.length (by unfold kindAt; rw [hl]; rfl) ha
        rw [embed, if_neg (by simp), if_pos rfl, hlen]
        rfl
  | cons k ks ih =>
    intro done cur hreg herr
    obtain ⟨hr0, hreg⟩ := hreg
    rw [headerFlags, List.cons_append] at herr ⊢
    rw [resolve]
    have hcur : (lookup T cur).bind (child · (.key k)) = lookup T (cur ++ [.key k]) := by
      rw [lookup_append]
      cases lookup T cur with
      | none => rfl
      | some w =>
        show child w (.key k) = lookup w [.key k]
        rw [lookup_cons]
        cases child w (.key k) <;> rfl
    obtain ⟨i1, i2⟩ := hI (cur ++ [.key k])
    generalize hl : headerFlags arrays (done ++ [k]) ks ++ [(last, if isArray then some ArrayKind.arrayOfTable else none)] = l
      at *
    have hne : l ≠ [] := by rw [← hl]; simp
    obtain ⟨se, hse⟩ := spineTree_is_table b l hne
    by_cases hflag : arrays.contains (done ++ [k]) = true
    · rw [if_pos hflag] at herr ⊢
      have hpos := hr0 hflag
      rw [enter_pos hpos] at hreg ⊢
      obtain ⟨a, ha, hka⟩ := i1 hpos
      obtain ⟨vs, hvs, hlen⟩ := kindAt_array hka
      rw [spinePath, embed, spineTree, child_single, if_pos rfl]
      simp only
      rw [hcur, hvs, embed, if_pos rfl]
      simp only [List.getElem?_cons_zero]
      have hlast : vs.getLast? = lookup T (cur ++ [.key k] ++ [.index (opened.count (cur ++ [.key k]) - 1)]) := by
        rw [lookup_append, hvs]
        show _ = lookup (DValue.array a vs) [.index (opened.count (cur ++ [.key k]) - 1)]
        rw [lookup_cons, ← hlen]
        show _ = (vs[vs.length - 1]?).bind _
        rw [List.getLast?_eq_getElem?]
        cases vs[vs.length - 1]? <;> rfl
      have hih := ih (done ++ [k]) (cur ++ [.key k] ++ [.index (opened.count (cur ++ [.key k]) - 1)]) hreg (by
        rw [hl, ← hlast]
        intro v1 hv1
        cases hc : lookup T cur with
        | none => rw [lookup_append, hc] at hvs; cases hvs
        | some w0 =>
          obtain ⟨key, hk⟩ := herr w0 hc
          rw [spineTree] at hk
          have hm := merge_down_table (w1 := .array a vs) hk (by rw [hc] at hcur; rw [← hvs, ← hcur]; rfl)
          rcases mergeValue_cases hm (everywhere_lookup hT hvs)
            (everywhere_array (by rw [hse]; exact ⟨_, _, rfl⟩) (fun w hw => by
              rw [List.mem_singleton] at hw; rw [hw]
              exact spineTree_singleOk hb hbp l)) with
            ⟨k1, e1, k2, e2, h, _⟩ | ⟨a1, vs', k1, e1, k2, e2, _, h1, h2, h3, _⟩ | ⟨a1, vs1, vs2, _, _, h, _⟩
          · cases h
          · cases h1
            injection h2 with _ h2
            injection h2 with h2
            rw [List.getLast?_concat] at hv1
            cases hv1
            exact ⟨[], by rw [h2]; exact h3⟩
          · cases h)
      rw [hl, ← hlast] at hih
      rw [← hih, hlen, Nat.add_zero]
      simp
    · rw [if_neg hflag] at herr ⊢
      rw [spinePath, embed, spineTree, child_single, if_pos rfl]
      simp only
      rw [hcur]
      have hz : opened.count (cur ++ [.key k]) = 0 := by
        rcases Nat.eq_zero_or_pos (opened.count (cur ++ [.key k])) with h | h
        · exact h
        · exfalso
          obtain ⟨a, ha, hka⟩ := i1 h
          obtain ⟨vs, hvs, hlen⟩ := kindAt_array hka
          cases hc : lookup T cur with
          | none => rw [lookup_append, hc] at hvs; cases hvs
          | some w0 =>
            obtain ⟨key, hk⟩ := herr w0 hc
            rw [spineTree] at hk
            have hm := merge_down_table (w1 := .array a vs) hk (by rw [hc] at hcur; rw [← hvs, ← hcur]; rfl)
            rw [hse] at hm
            simp [mergeValue] at hm
      rw [enter_zero hz] at hreg ⊢
      have hih := ih (done ++ [k]) (cur ++ [.key k]) hreg (by
        rw [hl]
        intro v1 hv1
        cases hc : lookup T cur with
        | none => rw [lookup_append, hc] at hv1; cases hv1
        | some w0 =>
          obtain ⟨key, hk⟩ := herr w0 hc
          rw [spineTree] at hk
          exact ⟨k, merge_down_table hk (by rw [hc] at hcur; rw [← hv1, ← hcur]; rfl)⟩)
      rw [hl] at hih
      rw [← hih]
      simp

end Tombi
