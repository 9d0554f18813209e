import Verif.Spec.Document

/-! Merging of document trees, seen through the values at each place. -/
namespace Tombi
open Spec (Step Path child lookup)

variable {σ : Type}

/-- A predicate at every place of a tree. -/
def Everywhere (P : DValue σ → Prop) (v : DValue σ) : Prop := ∀ p w, lookup v p = some w → P w

/-- The condition that merging needs and keeps: distinct keys; arrays of tables are not empty and hold tables. -/
def LocalOk : DValue σ → Prop
  | .table _ e => (e.map (·.1)).Nodup
  | .array a vs => a ≠ .array → vs ≠ [] ∧ ∀ w ∈ vs, ∃ k e, w = .table k e
  | _ => True

theorem dget_find (e : DEntries σ) (k : DKey) : (e.find? fun kv => kv.1 == k).map (·.2) = dget e k := by
  induction e with
  | nil => rfl
  | cons kv e ih =>
    obtain ⟨k', v⟩ := kv
    rw [List.find?_cons, dget]
    by_cases h : k' = k
    · simp [h]
    · have : (k' == k) = false := by simpa using h
      simp only [this, if_neg h]
      exact ih

theorem child_table (k : TableKind) (e : DEntries σ) (key : DKey) :
    child (.table k e) (.key key) = dget e key := dget_find e key

theorem dget_mem {e : DEntries σ} {k : DKey} {v : DValue σ} (h : dget e k = some v) : (k, v) ∈ e := by
  induction e with
  | nil => cases h
  | cons kv e ih =>
    obtain ⟨k', v'⟩ := kv
    rw [dget] at h
    split at h
    · rename_i hk
      cases h; subst hk; exact List.mem_cons_self
    · exact List.mem_cons_of_mem _ (ih h)

theorem dget_of_mem {e : DEntries σ} {k : DKey} {v : DValue σ} (hn : (e.map (·.1)).Nodup) (h : (k, v) ∈ e) :
    dget e k = some v := by
  induction e with
  | nil => cases h
  | cons kv e ih =>
    obtain ⟨k', v'⟩ := kv
    rw [List.map_cons, List.nodup_cons] at hn
    rw [dget]
    rcases List.mem_cons.1 h with h | h
    · cases h; rw [if_pos rfl]
    · rw [if_neg, ih hn.2 h]
      intro hk; subst hk
      exact hn.1 (List.mem_map.2 ⟨_, h, rfl⟩)

theorem dget_none {e : DEntries σ} {k : DKey} : dget e k = none ↔ k ∉ e.map (·.1) := by
  induction e with
  | nil => simp [dget]
  | cons kv e ih =>
    obtain ⟨k', v'⟩ := kv
    rw [dget, List.map_cons, List.mem_cons]
    by_cases h : k' = k
    · simp [h]
    · rw [if_neg h, ih]
      simp [Ne.symm h]

theorem dset_keys (e : DEntries σ) (k : DKey) (v : DValue σ) : (dset e k v).map (·.1) = e.map (·.1) := by
  induction e with
  | nil => rfl
  | cons kv e ih =>
    obtain ⟨k', v'⟩ := kv
    rw [dset]
    split
    · rfl
    · rw [List.map_cons, List.map_cons, ih]

theorem dget_dset (e : DEntries σ) (k k' : DKey) (v : DValue σ) (h : dget e k ≠ none) :
    dget (dset e k v) k' = if k = k' then some v else dget e k' := by
  induction e with
  | nil => exact absurd rfl h
  | cons kv e ih =>
    obtain ⟨k1, v1⟩ := kv
    rw [dset]
    by_cases h1 : k1 = k
    · rw [if_pos h1, dget, h1]
      by_cases h2 : k = k'
      · rw [if_pos h2, if_pos h2]
      · rw [if_neg h2, if_neg h2, dget, if_neg (h1 ▸ h2)]
    · rw [if_neg h1, dget]
      rw [dget, if_neg h1] at h
      by_cases h2 : k1 = k'
      · rw [if_pos h2, if_neg (by rintro rfl; exact h1 h2), dget, if_pos h2]
      · rw [if_neg h2, ih h, dget, if_neg h2]

theorem dget_append (e : DEntries σ) (k k' : DKey) (v : DValue σ) (h : dget e k = none) :
    dget (e ++ [(k, v)]) k' = if k = k' then some v else dget e k' := by
  induction e with
  | nil => rw [List.nil_append, dget]; rfl
  | cons kv e ih =>
    obtain ⟨k1, v1⟩ := kv
    rw [dget] at h
    by_cases h1 : k1 = k
    · rw [if_pos h1] at h; cases h
    · rw [if_neg h1] at h
      rw [List.cons_append, dget]
      by_cases h2 : k1 = k'
      · rw [if_pos h2, if_neg (by rintro rfl; exact h1 h2), dget, if_pos h2]
      · rw [if_neg h2, ih h, dget, if_neg h2]

theorem mem_dset {e : DEntries σ} {k : DKey} {v : DValue σ} {kv : DKey × DValue σ} (h : kv ∈ dset e k v) :
    kv ∈ e ∨ kv = (k, v) := by
  induction e with
  | nil => cases h
  | cons kv' e ih =>
    obtain ⟨k1, v1⟩ := kv'
    rw [dset] at h
    split at h
    · rename_i hk
      rcases List.mem_cons.1 h with h | h
      · right; rw [h, hk]
      · left; exact List.mem_cons_of_mem _ h
    · rcases List.mem_cons.1 h with h | h
      · left; rw [h]; exact List.mem_cons_self
      · rcases ih h with h | h
        · left; exact List.mem_cons_of_mem _ h
        · right; exact h

/-! ### `Everywhere` -/

theorem everywhere_iff_step (P : DValue σ → Prop) (v : DValue σ) :
    Everywhere P v ↔ P v ∧ ∀ s w, child v s = some w → Everywhere P w := by
  constructor
  · intro h
    refine ⟨h [] v rfl, fun s w hw p x hx => h (s :: p) x ?_⟩
    rw [lookup, hw]; exact hx
  · rintro ⟨h0, h1⟩ p w hw
    cases p with
    | nil => cases hw; exact h0
    | cons s p =>
      rw [lookup] at hw
      cases hc : child v s with
      | none => rw [hc] at hw; cases hw
      | some x => rw [hc] at hw; exact h1 s x hc p w hw

theorem everywhere_table {P : DValue σ → Prop} {k : TableKind} {e : DEntries σ} (hP : P (.table k e))
    (h : ∀ kv ∈ e, Everywhere P kv.2) : Everywhere P (.table k e) := by
  refine (everywhere_iff_step _ _).2 ⟨hP, fun s w hw => ?_⟩
  cases s with
  | key key =>
    rw [child_table] at hw
    exact h _ (dget_mem hw)
  | index i => cases hw

theorem everywhere_entries {k : TableKind} {e : DEntries σ} (h : Everywhere LocalOk (.table k e)) :
    (e.map (·.1)).Nodup ∧ ∀ kv ∈ e, Everywhere LocalOk kv.2 := by
  obtain ⟨h0, h1⟩ := (everywhere_iff_step _ _).1 h
  refine ⟨h0, fun kv hkv => h1 (.key kv.1) kv.2 ?_⟩
  rw [child_table]
  exact dget_of_mem h0 hkv

theorem everywhere_array {P : DValue σ → Prop} {a : ArrayKind} {vs : List (DValue σ)} (hP : P (.array a vs))
    (h : ∀ w ∈ vs, Everywhere P w) : Everywhere P (.array a vs) := by
  refine (everywhere_iff_step _ _).2 ⟨hP, fun s w hw => ?_⟩
  cases s with
  | key key => cases hw
  | index i => exact h _ (List.mem_of_getElem? hw)

theorem everywhere_values {P : DValue σ → Prop} {a : ArrayKind} {vs : List (DValue σ)}
    (h : Everywhere P (.array a vs)) : ∀ w ∈ vs, Everywhere P w := by
  obtain ⟨h0, h1⟩ := (everywhere_iff_step _ _).1 h
  intro w hw
  obtain ⟨i, hi⟩ := List.getElem?_of_mem hw
  exact h1 (.index i) w hi

/-! ### merging keeps the condition, and never panics, with or without errors -/

/-- What the condition says of entries. -/
def EntriesOk (e : DEntries σ) : Prop := (e.map (·.1)).Nodup ∧ ∀ kv ∈ e, Everywhere LocalOk kv.2

theorem everywhere_ok_table {k : TableKind} {e : DEntries σ} :
    Everywhere LocalOk (.table k e) ↔ EntriesOk e :=
  ⟨everywhere_entries, fun h => everywhere_table h.1 h.2⟩

/-- What the condition says of the values of an array of tables. -/
def TablesOk (vs : List (DValue σ)) : Prop := vs ≠ [] ∧ (∀ w ∈ vs, ∃ k e, w = .table k e) ∧ ∀ w ∈ vs, Everywhere LocalOk w

theorem everywhere_ok_array {a : ArrayKind} {vs : List (DValue σ)} (ha : a ≠ .array) :
    Everywhere LocalOk (.array a vs) ↔ TablesOk vs := by
  constructor
  · intro h
    have h0 := ((everywhere_iff_step _ _).1 h).1 ha
    exact ⟨h0.1, h0.2, everywhere_values h⟩
  · intro h
    exact everywhere_array (fun _ => ⟨h.1, h.2.1⟩) h.2.2

theorem nodup_append_singleton {α : Type} {l : List α} {a : α} (h : l.Nodup) (ha : a ∉ l) : (l ++ [a]).Nodup := by
  rw [List.nodup_append]
  refine ⟨h, by simp, ?_⟩
  intro x hx y hy
  rw [List.mem_singleton] at hy
  subst hy
  intro e; subst e; exact ha hx

theorem mergeLast_table {vs1 : List (DValue σ)} {k1 : TableKind} {e1 : DEntries σ} (h : vs1.getLast? = some (.table k1 e1))
    (k2 : TableKind) (e2 : DEntries σ) :
    mergeLast vs1 [.table k2 e2] = (vs1.dropLast ++ [(mergeValue [] (.table k1 e1) (.table k2 e2)).1],
      (mergeValue [] (.table k1 e1) (.table k2 e2)).2) := by
  rw [mergeLast.eq_2 vs1 k2 e2 k1 e1 h]

mutual
theorem mergeEntries_ok (e1 : DEntries σ) (h1 : EntriesOk e1) (e2 : DEntries σ) (h2 : ∀ kv ∈ e2, Everywhere LocalOk kv.2) :
    EntriesOk (mergeEntries e1 e2).1 ∧ DError.panic ∉ (mergeEntries e1 e2).2 := by
  match e2 with
  | [] => rw [mergeEntries]; exact ⟨h1, by simp⟩
  | (k, v2) :: rest =>
    rw [mergeEntries]
    have hv2 : Everywhere LocalOk v2 := h2 (k, v2) List.mem_cons_self
    have hr : ∀ kv ∈ rest, Everywhere LocalOk kv.2 := fun kv h => h2 kv (List.mem_cons_of_mem _ h)
    split
    · rename_i v1 hv1
      have hm := mergeValue_ok k v1 (h1.2 _ (dget_mem hv1)) v2 hv2
      have := mergeEntries_ok (dset e1 k (mergeValue k v1 v2).1) ⟨by rw [dset_keys]; exact h1.1, by
        intro kv hkv
        rcases mem_dset hkv with h | h
        · exact h1.2 kv h
        · rw [h]; exact hm.1⟩ rest hr
      refine ⟨this.1, ?_⟩
      show DError.panic ∉ (mergeValue k v1 v2).2 ++ (mergeEntries (dset e1 k (mergeValue k v1 v2).1) rest).2
      rw [List.mem_append]
      exact fun h => h.elim hm.2 this.2
    · rename_i hv1
      refine mergeEntries_ok (e1 ++ [(k, v2)]) ⟨?_, ?_⟩ rest hr
      · rw [List.map_append]
        exact nodup_append_singleton h1.1 (dget_none.1 hv1)
      · intro kv hkv
        rcases List.mem_append.1 hkv with h | h
        · exact h1.2 kv h
        · rw [List.mem_singleton] at h; rw [h]; exact hv2

theorem mergeValue_ok (key : DKey) (v1 : DValue σ) (h1 : Everywhere LocalOk v1) (v2 : DValue σ)
    (h2 : Everywhere LocalOk v2) :
    Everywhere LocalOk (mergeValue key v1 v2).1 ∧ DError.panic ∉ (mergeValue key v1 v2).2 := by
  match v2 with
  | .scalar s => rw [mergeValue]; exact ⟨h1, by simp⟩
  | .incomplete => rw [mergeValue]; exact ⟨h1, by simp⟩
  | .table k2 e2 =>
    cases v1 with
    | table k1 e1 =>
      rw [mergeValue]
      split
      · exact ⟨everywhere_ok_table.2 (everywhere_ok_table.1 h1), by simp⟩
      · have := mergeEntries_ok e1 (everywhere_ok_table.1 h1) e2 (everywhere_ok_table.1 h2).2
        exact ⟨everywhere_ok_table.2 this.1, this.2⟩
    | _ => exact ⟨h1, by simp [mergeValue]⟩
  | .array a2 vs2 =>
    cases v1 with
    | array a1 vs1 =>
      rw [mergeValue]
      split
      · rename_i ha
        have t1 := (everywhere_ok_array ha.1).1 h1
        have t2 := (everywhere_ok_array ha.2).1 h2
        split
        · have := mergeLast_ok vs1 t1 vs2 t2
          exact ⟨(everywhere_ok_array ha.1).2 this.1, this.2⟩
        · refine ⟨(everywhere_ok_array ha.1).2 ⟨by simp [t1.1], ?_, ?_⟩, by simp⟩
          · intro w hw
            exact (List.mem_append.1 hw).elim (t1.2.1 w) (t2.2.1 w)
          · intro w hw
            exact (List.mem_append.1 hw).elim (t1.2.2 w) (t2.2.2 w)
      · exact ⟨h1, by simp⟩
    | _ => exact ⟨h1, by simp [mergeValue]⟩

theorem mergeLast_ok (vs1 : List (DValue σ)) (h1 : TablesOk vs1) (vs2 : List (DValue σ)) (h2 : TablesOk vs2) :
    TablesOk (mergeLast vs1 vs2).1 ∧ DError.panic ∉ (mergeLast vs1 vs2).2 := by
  match vs2 with
  | [] => exact absurd rfl h2.1
  | [v2] =>
    match v2, h2 with
    | .table k2 e2, h2 =>
      have hv2 := h2.2.2 _ List.mem_cons_self
      cases hl : vs1.getLast? with
      | none => exact absurd (List.getLast?_eq_none_iff.1 hl) h1.1
      | some l =>
        have hm : l ∈ vs1 := List.mem_of_getLast? hl
        obtain ⟨k1, e1, rfl⟩ := h1.2.1 l hm
        have := mergeValue_ok [] (.table k1 e1) (h1.2.2 _ hm) (.table k2 e2) hv2
        rw [mergeLast_table hl]
        refine ⟨⟨by simp, ?_, ?_⟩, this.2⟩
        · intro w hw
          rcases List.mem_append.1 hw with hw | hw
          · exact h1.2.1 w (List.dropLast_subset _ hw)
          · rw [List.mem_singleton] at hw
            rw [hw]
            show ∃ k e, (mergeValue [] (.table k1 e1) (.table k2 e2)).1 = .table k e
            rw [mergeValue]
            split
            · exact ⟨_, _, rfl⟩
            · exact ⟨_, _, rfl⟩
        · intro w hw
          rcases List.mem_append.1 hw with hw | hw
          · exact h1.2.2 w (List.dropLast_subset _ hw)
          · rw [List.mem_singleton] at hw
            rw [hw]; exact this.1
    | .scalar _, h2 => obtain ⟨_, _, h⟩ := h2.2.1 _ List.mem_cons_self; cases h
    | .incomplete, h2 => obtain ⟨_, _, h⟩ := h2.2.1 _ List.mem_cons_self; cases h
    | .array _ _, h2 => obtain ⟨_, _, h⟩ := h2.2.1 _ List.mem_cons_self; cases h
  | w :: v :: rest =>
    rw [mergeLast]
    exact mergeLast_ok vs1 h1 (v :: rest) ⟨by simp, fun x hx => h2.2.1 x (List.mem_cons_of_mem _ hx),
      fun x hx => h2.2.2 x (List.mem_cons_of_mem _ hx)⟩
end

end Tombi
