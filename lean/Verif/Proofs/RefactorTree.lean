import Verif.Proofs.OutlineErase
import Verif.Spec.Refactor
/-! The value of a key-value in the document tree when nothing else touches its keys. -/
namespace Tombi.Refactor
open Tombi.Outline

variable {σ : Type}

/-- The value below a value. -/
def rlook : RValue σ → List DKey → Option (RValue σ)
  | v, [] => some v
  | .table _ _ es, k :: ks => match rget es k with
    | some v => rlook v ks
    | none => none
  | _, _ :: _ => none

/-- `rlook` in key-values. -/
def rlookE (es : REntries σ) (k : DKey) (p : List DKey) : Option (RValue σ) :=
  match rget es k with
  | some v => rlook v p
  | none => none

theorem rlook_table {kd : TableKind} {r : Range} {es : REntries σ} {k : DKey} {p : List DKey} : rlook (.table kd r es) (k :: p) = rlookE es k p := by
  rw [rlook]; rfl

theorem dig_eq : (ks : List DKey) → (es : REntries σ) → (k : DKey) → dig es (k :: ks) = rlookE es k ks
  | [], es, k => by
    rw [dig, rlookE]
    cases rget es k <;> simp [rlook]
  | k' :: ks, es, k => by
    rw [dig, rlookE]
    · cases h : rget es k with
      | none => rfl
      | some v =>
        cases v with
        | table kd r es' => simp only [dig_eq ks es' k', rlook_table]
        | scalar r s => simp [rlook]
        | array a r vs => simp [rlook]
        | incomplete r => simp [rlook]
    · simp

/-- No way along the keys. -/
def misses : RValue σ → List DKey → Prop
  | _, [] => False
  | .table _ _ es, k :: p => ∀ kv ∈ es, kv.1.text = k → misses kv.2 p
  | _, _ :: _ => True

theorem misses_table {kd : TableKind} {r : Range} {es : REntries σ} {k : DKey} {p : List DKey} :
    misses (.table kd r es) (k :: p) ↔ ∀ kv ∈ es, kv.1.text = k → misses kv.2 p := by rw [misses]

theorem rget_append {a b : REntries σ} {k : DKey} : rget (a ++ b) k = match rget a k with | some v => some v | none => rget b k := by
  induction a with
  | nil => rfl
  | cons x a ih =>
    obtain ⟨k', v⟩ := x
    rw [List.cons_append, rget, rget, ih]
    split <;> rfl

theorem rget_mem {e : REntries σ} {k : DKey} {v : RValue σ} (h : rget e k = some v) : ∃ k', (k', v) ∈ e ∧ k'.text = k := by
  induction e with
  | nil => cases h
  | cons x e ih =>
    obtain ⟨k', w⟩ := x
    rw [rget] at h
    split at h
    · rename_i hk
      cases h
      exact ⟨k', List.mem_cons_self, hk⟩
    · obtain ⟨k'', hm, hk⟩ := ih h
      exact ⟨k'', List.mem_cons_of_mem _ hm, hk⟩

theorem rget_rset_same {e : REntries σ} {k : DKey} {v w : RValue σ} (h : rget e k = some v) : rget (rset e k w) k = some w := by
  induction e with
  | nil => cases h
  | cons x e ih =>
    obtain ⟨k', u⟩ := x
    rw [rget] at h
    rw [rset]
    split at h
    · rename_i hk
      rw [if_pos hk, rget, if_pos hk]
    · rename_i hk
      rw [if_neg hk, rget, if_neg hk, ih h]

theorem rget_rset_other {e : REntries σ} {k k2 : DKey} {w : RValue σ} (h : k2 ≠ k) : rget (rset e k2 w) k = rget e k := by
  induction e with
  | nil => rfl
  | cons x e ih =>
    obtain ⟨k', u⟩ := x
    rw [rset]
    split
    · rename_i hk
      rw [rget, rget, if_neg (by rw [hk]; exact h), if_neg (by rw [hk]; exact h)]
    · rw [rget, rget, ih]

theorem mem_rset {e : REntries σ} {k : DKey} {w : RValue σ} {kv : RKey × RValue σ} (h : kv ∈ rset e k w) : kv ∈ e ∨ (kv.2 = w ∧ kv.1.text = k) := by
  induction e with
  | nil => cases h
  | cons x e ih =>
    obtain ⟨k', u⟩ := x
    rw [rset] at h
    split at h
    · rename_i hk
      rcases List.mem_cons.1 h with rfl | h
      · exact .inr ⟨rfl, hk⟩
      · exact .inl (List.mem_cons_of_mem _ h)
    · rcases List.mem_cons.1 h with rfl | h
      · exact .inl List.mem_cons_self
      · rcases ih h with h | h
        · exact .inl (List.mem_cons_of_mem _ h)
        · exact .inr h

/-! ### merging what does not touch the keys -/

/-- The statement for the values below a key. -/
theorem look_value {p : List DKey} (ih : ∀ (k : DKey) (p' : List DKey), p = k :: p' → ∀ (e2 e1 : REntries σ), (rmergeEntries e1 e2).2 = [] →
      (∀ kv ∈ e2, kv.1.text = k → misses kv.2 p') → rlookE (rmergeEntries e1 e2).1 k p' = rlookE e1 k p')
    {key : DKey} {v1 v2 : RValue σ} (he : (rmergeValue key v1 v2).2 = []) (hm : misses v2 p) : rlook (rmergeValue key v1 v2).1 p = rlook v1 p := by
  cases p with
  | nil => rw [misses] at hm; exact hm.elim
  | cons k p =>
    cases v2 with
    | scalar r s => rw [rmergeValue] at he; cases he
    | incomplete r => rw [rmergeValue] at he; cases he
    | array a2 r2 vs2 =>
      cases v1 with
      | array a1 r1 vs1 =>
        rw [rmergeValue]
        split
        · split <;> simp [rlook]
        · simp [rlook]
      | scalar r s => simp [rmergeValue] at he
      | incomplete r => simp [rmergeValue] at he
      | table k1 r1 e1 => simp [rmergeValue] at he
    | table k2 r2 e2 =>
      cases v1 with
      | array a1 r1 vs1 => simp [rmergeValue] at he
      | scalar r s => simp [rmergeValue] at he
      | incomplete r => simp [rmergeValue] at he
      | table k1 r1 e1 =>
        rw [rmergeValue] at he ⊢
        split at he
        · cases he
        · rename_i hc
          rw [if_neg hc, rlook_table, rlook_table]
          exact ih k p rfl e2 e1 he (misses_table.1 hm)

theorem misses_look : (p : List DKey) → (v : RValue σ) → misses v p → rlook v p = none
  | [], v, h => by rw [misses] at h; exact h.elim
  | k :: p, .table kd r es, h => by
    rw [rlook_table, rlookE]
    cases hq : rget es k with
    | none => rfl
    | some w =>
      obtain ⟨k', hmem, hk'⟩ := rget_mem hq
      exact misses_look p w (misses_table.1 h _ hmem hk')
  | k :: p, .scalar r s, h => by simp [rlook]
  | k :: p, .array a r vs, h => by simp [rlook]
  | k :: p, .incomplete r, h => by simp [rlook]

theorem look_step {p : List DKey} {k : DKey} (hval : ∀ (key : DKey) (v1 v2 : RValue σ), (rmergeValue key v1 v2).2 = [] → misses v2 p →
      rlook (rmergeValue key v1 v2).1 p = rlook v1 p) : (e2 e1 : REntries σ) → (rmergeEntries e1 e2).2 = [] →
    (∀ kv ∈ e2, kv.1.text = k → misses kv.2 p) → rlookE (rmergeEntries e1 e2).1 k p = rlookE e1 k p
  | [], e1, _, _ => by rw [rmergeEntries]
  | (k2, v2) :: rest, e1, he, hm => by
    have hr : ∀ kv ∈ rest, kv.1.text = k → misses kv.2 p := fun kv h => hm kv (List.mem_cons_of_mem _ h)
    rw [rmergeEntries] at he ⊢
    cases hg : rget e1 k2.text with
    | none =>
      rw [hg] at he
      rw [look_step hval rest _ he hr, rlookE, rget_append, rlookE]
      cases hk : rget e1 k with
      | some v => rfl
      | none =>
        simp only [rget]
        split
        · rename_i h
          split at h
          · rename_i hk2
            cases h
            exact misses_look _ _ (hm _ List.mem_cons_self hk2)
          · cases h
        · rfl
    | some v1 =>
      rw [hg] at he
      simp only [List.append_eq_nil_iff] at he
      simp only
      rw [look_step hval rest _ he.2 hr, rlookE, rlookE]
      by_cases hk2 : k2.text = k
      · subst hk2
        rw [rget_rset_same hg, hg]
        exact hval _ _ _ he.1 (hm _ List.mem_cons_self rfl)
      · rw [rget_rset_other hk2]

theorem look_merge : (p : List DKey) → (k : DKey) → (e2 e1 : REntries σ) → (rmergeEntries e1 e2).2 = [] →
    (∀ kv ∈ e2, kv.1.text = k → misses kv.2 p) → rlookE (rmergeEntries e1 e2).1 k p = rlookE e1 k p
  | [], k => look_step fun _ _ _ he hm => look_value (fun _ _ h => by cases h) he hm
  | k' :: p, k => look_step fun _ _ _ he hm => look_value (fun _ _ h => by cases h; exact look_merge p k') he hm

/-! ### nothing touches the keys -/

theorem misses_value {p : List DKey} (ih : ∀ (k : DKey) (p' : List DKey), p = k :: p' → ∀ (e2 e1 : REntries σ), (rmergeEntries e1 e2).2 = [] →
      (∀ kv ∈ e1, kv.1.text = k → misses kv.2 p') → (∀ kv ∈ e2, kv.1.text = k → misses kv.2 p') →
      ∀ kv ∈ (rmergeEntries e1 e2).1, kv.1.text = k → misses kv.2 p')
    {key : DKey} {v1 v2 : RValue σ} (he : (rmergeValue key v1 v2).2 = []) (h1 : misses v1 p) (h2 : misses v2 p) :
    misses (rmergeValue key v1 v2).1 p := by
  cases p with
  | nil => rw [misses] at h1; exact h1.elim
  | cons k p =>
    cases v2 with
    | scalar r s => rw [rmergeValue] at he; cases he
    | incomplete r => rw [rmergeValue] at he; cases he
    | array a2 r2 vs2 =>
      cases v1 with
      | array a1 r1 vs1 =>
        rw [rmergeValue]
        split
        · split <;> simp [misses]
        · simp [misses]
      | scalar r s => simp [rmergeValue] at he
      | incomplete r => simp [rmergeValue] at he
      | table k1 r1 e1 => simp [rmergeValue] at he
    | table k2 r2 e2 =>
      cases v1 with
      | array a1 r1 vs1 => simp [rmergeValue] at he
      | scalar r s => simp [rmergeValue] at he
      | incomplete r => simp [rmergeValue] at he
      | table k1 r1 e1 =>
        rw [rmergeValue] at he ⊢
        split at he
        · cases he
        · rename_i hc
          rw [if_neg hc, misses_table]
          exact ih k p rfl e2 e1 he (misses_table.1 h1) (misses_table.1 h2)

theorem misses_step {p : List DKey} {k : DKey} (hval : ∀ (key : DKey) (v1 v2 : RValue σ), (rmergeValue key v1 v2).2 = [] → misses v1 p →
      misses v2 p → misses (rmergeValue key v1 v2).1 p) : (e2 e1 : REntries σ) → (rmergeEntries e1 e2).2 = [] →
    (∀ kv ∈ e1, kv.1.text = k → misses kv.2 p) → (∀ kv ∈ e2, kv.1.text = k → misses kv.2 p) →
    ∀ kv ∈ (rmergeEntries e1 e2).1, kv.1.text = k → misses kv.2 p
  | [], e1, _, h1, _ => by rw [rmergeEntries]; exact h1
  | (k2, v2) :: rest, e1, he, h1, hm => by
    have hr : ∀ kv ∈ rest, kv.1.text = k → misses kv.2 p := fun kv h => hm kv (List.mem_cons_of_mem _ h)
    rw [rmergeEntries] at he ⊢
    cases hg : rget e1 k2.text with
    | none =>
      rw [hg] at he
      refine misses_step hval rest _ he (fun kv hkv => ?_) hr
      rcases List.mem_append.1 hkv with hkv | hkv
      · exact h1 kv hkv
      · rw [List.mem_singleton] at hkv
        subst hkv
        exact hm _ List.mem_cons_self
    | some v1 =>
      rw [hg] at he
      simp only [List.append_eq_nil_iff] at he
      refine misses_step hval rest _ he.2 (fun kv hkv hk => ?_) hr
      rcases mem_rset hkv with hkv | ⟨hw, hk2⟩
      · exact h1 kv hkv hk
      · rw [hw]
        obtain ⟨k', hmem, hk'⟩ := rget_mem hg
        exact hval _ _ _ he.1 (h1 _ hmem (hk'.trans (hk2.symm.trans hk))) (hm _ List.mem_cons_self (hk2.symm.trans hk))

theorem misses_merge : (p : List DKey) → (k : DKey) → (e2 e1 : REntries σ) → (rmergeEntries e1 e2).2 = [] →
    (∀ kv ∈ e1, kv.1.text = k → misses kv.2 p) → (∀ kv ∈ e2, kv.1.text = k → misses kv.2 p) →
    ∀ kv ∈ (rmergeEntries e1 e2).1, kv.1.text = k → misses kv.2 p
  | [], k => misses_step fun _ _ _ he h1 hm => misses_value (fun _ _ h => by cases h) he h1 hm
  | k' :: p, k => misses_step fun _ _ _ he h1 hm => misses_value (fun _ _ h => by cases h; exact misses_merge p k') he h1 hm

/-! ### the key-value itself -/

/-- Single entries along the keys. -/
def chain : RValue σ → List DKey → Prop
  | _, [] => True
  | .table _ _ [(rk, v)], k :: p => rk.text = k ∧ chain v p
  | _, _ :: _ => False

theorem look_added : (p : List DKey) → (rk : RKey) → (v2 : RValue σ) → (e1 : REntries σ) → (rmergeEntries e1 [(rk, v2)]).2 = [] →
    (∀ kv ∈ e1, kv.1.text = rk.text → misses kv.2 p) → chain v2 p → rlookE (rmergeEntries e1 [(rk, v2)]).1 rk.text p = rlook v2 p
  | p, rk, v2, e1, he, h1, hc => by
    rw [rmergeEntries] at he ⊢
    cases hg : rget e1 rk.text with
    | none =>
      simp only
      rw [rmergeEntries, rlookE, rget_append, hg]
      simp [rget]
    | some v1 =>
      rw [hg] at he
      simp only [List.append_eq_nil_iff] at he
      simp only
      rw [rmergeEntries, rlookE, rget_rset_same hg]
      obtain ⟨k', hmem, hk'⟩ := rget_mem hg
      have hm := h1 _ hmem hk'
      match p, v2, hc with
      | [], _, _ => rw [misses] at hm; exact hm.elim
      | k :: p, .table kd r [(rk', v)], hc =>
        rw [chain] at hc
        have he1 := he.1
        cases v1 with
        | array a1 r1 vs1 => simp [rmergeValue] at he1
        | scalar r s => simp [rmergeValue] at he1
        | incomplete r => simp [rmergeValue] at he1
        | table k1 r1 e1' =>
          rw [rmergeValue] at he1 ⊢
          split at he1
          · cases he1
          · rename_i hn
            simp only [if_neg hn, rlook_table]
            obtain ⟨hk, hc⟩ := hc
            subst hk
            rw [look_added p rk' v e1' he1 (misses_table.1 hm) hc, rlookE, rget, if_pos rfl]
      | k :: p, .table kd r [], hc => simp [chain] at hc
      | k :: p, .table kd r (_ :: _ :: _), hc => simp [chain] at hc
      | k :: p, .scalar r s, hc => simp [chain] at hc
      | k :: p, .array a r vs, hc => simp [chain] at hc
      | k :: p, .incomplete r, hc => simp [chain] at hc

theorem rkv_one {range : Range} {k : RKey} {v : RValue σ} :
    rkeyValueTable range [k] v = (⟨.keyValue, k.range.add v.range, [(k, v)]⟩, []) := by
  simp [rkeyValueTable, rinsertEntry_nil]

theorem rkv_cons {range : Range} {k k' : RKey} {ks : List RKey} {v : RValue σ} :
    (rkeyValueTable range (k :: k' :: ks) v).1 =
      ⟨.parentKey, Range.new k.range.start (rkeyValueTable range (k' :: ks) v).1.range.stop, [(k, (rkeyValueTable range (k' :: ks) v).1.value)]⟩ := by
  rw [rkeyValueTable, rkeyValueTable]
  cases h : (k' :: ks).reverse with
  | nil => simp at h
  | cons l ps =>
    rw [List.reverse_cons, h]
    simp only [List.cons_append, rinsertEntry_nil, List.foldl_append, List.foldl_cons, List.foldl_nil]

theorem rkv_entries {range : Range} {k : RKey} {ks : List RKey} {v : RValue σ} :
    ∃ w, (rkeyValueTable range (k :: ks) v).1.entries = [(k, w)] ∧
      (ks = [] ∧ w = v ∨ ks ≠ [] ∧ w = (rkeyValueTable range ks v).1.value) := by
  cases ks with
  | nil => exact ⟨v, by rw [rkv_one], .inl ⟨rfl, rfl⟩⟩
  | cons k' ks => exact ⟨_, by rw [rkv_cons], .inr ⟨by simp, rfl⟩⟩

theorem apart_cons {k : DKey} {a b : List DKey} (h : Apart (k :: a) (k :: b)) : Apart a b :=
  ⟨fun h' => h.1 (by obtain ⟨t, rfl⟩ := h'; exact ⟨t, rfl⟩), fun h' => h.2 (by obtain ⟨t, rfl⟩ := h'; exact ⟨t, rfl⟩)⟩

theorem apart_nil {a : List DKey} (h : Apart a []) : False := h.2 (List.nil_prefix)
theorem nil_apart {a : List DKey} (h : Apart [] a) : False := h.1 (List.nil_prefix)

/-- A key-value whose keys are apart from some keys has nothing there. -/
theorem rkv_misses {range : Range} {v : RValue σ} : (ks : List RKey) → (q : List DKey) → Apart (ks.map RKey.text) q →
    misses (rkeyValueTable range ks v).1.value q
  | [], q, h => (nil_apart h).elim
  | k :: ks, [], h => (apart_nil h).elim
  | k :: ks, q :: qs, h => by
    obtain ⟨w, he, hw⟩ := rkv_entries (range := range) (k := k) (ks := ks) (v := v)
    rw [RTable.value, he, misses_table]
    intro kv hkv hk
    rw [List.mem_singleton] at hkv
    subst hkv
    rw [List.map_cons, show k.text = q from hk] at h
    have ha := apart_cons h
    rcases hw with ⟨rfl, rfl⟩ | ⟨hn, rfl⟩
    · exact (nil_apart ha).elim
    · exact rkv_misses ks qs ha

theorem rkv_chain {range : Range} {v : RValue σ} : (ks : List RKey) → (more : List RKey) → more ≠ [] →
    chain (rkeyValueTable range (ks ++ more) v).1.value (ks.map RKey.text) ∧
    rlook (rkeyValueTable range (ks ++ more) v).1.value (ks.map RKey.text) = some (rkeyValueTable range more v).1.value
  | [], more, hm => by simp [chain, rlook]
  | k :: ks, more, hm => by
    obtain ⟨w, he, hw⟩ := rkv_entries (range := range) (k := k) (ks := ks ++ more) (v := v)
    have hne : ks ++ more ≠ [] := by simp [hm]
    rcases hw with ⟨h, -⟩ | ⟨-, rfl⟩
    · exact absurd h hne
    · obtain ⟨h1, h2⟩ := rkv_chain (range := range) (v := v) ks more hm
      rw [List.cons_append, RTable.value, he, List.map_cons]
      refine ⟨?_, ?_⟩
      · rw [chain]; exact ⟨rfl, h1⟩
      · rw [rlook_table, rlookE, rget, if_pos rfl]; exact h2

theorem rkv_chain_all {range : Range} {v : RValue σ} : (ks : List RKey) → ks ≠ [] →
    chain (rkeyValueTable range ks v).1.value (ks.map RKey.text) ∧
    rlook (rkeyValueTable range ks v).1.value (ks.map RKey.text) = some v
  | [], h => absurd rfl h
  | k :: ks, _ => by
    obtain ⟨w, he, hw⟩ := rkv_entries (range := range) (k := k) (ks := ks) (v := v)
    rw [RTable.value, he, List.map_cons]
    rcases hw with ⟨rfl, rfl⟩ | ⟨hn, rfl⟩
    · refine ⟨?_, ?_⟩
      · rw [chain]; exact ⟨rfl, by simp [chain]⟩
      · rw [rlook_table, rlookE, rget, if_pos rfl]; rfl
    · obtain ⟨h1, h2⟩ := rkv_chain_all (range := range) (v := v) ks hn
      refine ⟨?_, ?_⟩
      · rw [chain]; exact ⟨rfl, h1⟩
      · rw [rlook_table, rlookE, rget, if_pos rfl]; exact h2

/-! ### the sections -/

theorem rnest_misses {arrays : List (List DKey)} : (keys : List RKey) → (isArray : Bool) → (t : RTable σ) → (done : List DKey) →
    (∀ q, Apart done q → misses t.value q) → ∀ q, Apart ((keys.map RKey.text).reverse ++ done) q →
    misses (rnestHeader arrays keys isArray t).1.value q
  | [], _, t, done, h, q, hq => by rw [rnestHeader]; exact h q hq
  | key :: rest, isArray, t, done, h, q, hq => by
    rw [rnestHeader]
    refine rnest_misses rest _ _ (key.text :: done) (fun q hq => ?_) q (by simpa using hq)
    cases q with
    | nil => exact (apart_nil hq).elim
    | cons k q =>
      cases isArray with
      | false =>
        simp only [Bool.false_eq_true, if_false, rinsertTable, rinsertEntry_nil, RTable.value]
        rw [misses_table]
        intro kv hkv hk
        rw [List.mem_singleton] at hkv
        subst hkv
        have hk : key.text = k := hk
        rw [hk] at hq
        exact h q (apart_cons hq)
      | true =>
        simp only [if_true, rinsertArrayOfTables, rinsertEntry_nil, RTable.value]
        rw [misses_table]
        intro kv hkv hk
        rw [List.mem_singleton] at hkv
        subst hkv
        have hk : key.text = k := hk
        rw [hk] at hq
        cases q with
        | nil => exact (apart_nil (apart_cons hq)).elim
        | cons k' q => simp [misses]

theorem section_misses {prev : List (RAstSection σ)} {s : RAstSection σ} {h : List RKey} (hh : s.header = some h) {q : List DKey}
    (hq : Apart (h.map RKey.text) q) : misses (s.tree prev).1.value q := by
  rw [RAstSection.tree, hh]
  simp only
  cases hs : s.isArray with
  | false =>
    simp only [Bool.false_eq_true, if_false]
    refine rnest_misses _ _ _ [] (fun q hq => (nil_apart hq).elim) q (by simpa using hq)
  | true =>
    simp only [if_true]
    cases hr : h.reverse with
    | nil =>
      rw [List.reverse_eq_nil_iff] at hr
      subst hr
      exact (nil_apart hq).elim
    | cons key rest =>
      simp only
      refine rnest_misses _ _ _ [key.text] (fun q hq => ?_) q ?_
      · cases q with
        | nil => exact (apart_nil hq).elim
        | cons k q =>
          simp only [rinsertArrayOfTables, rinsertEntry_nil, RTable.value]
          rw [misses_table]
          intro kv hkv hk
          rw [List.mem_singleton] at hkv
          subst hkv
          have hk : key.text = k := hk
          rw [hk] at hq
          exact (nil_apart (apart_cons hq)).elim
      · have : h = (key :: rest).reverse := by rw [← hr, List.reverse_reverse]
        rw [this] at hq
        simpa using hq

/-! ### the document -/

theorem merge_misses {a b : RTable σ} {q : List DKey} (he : (a.merge b).2 = []) (ha : misses a.value q) (hb : misses b.value q) :
    misses (a.merge b).1.value q := by
  cases q with
  | nil => rw [misses] at ha; exact ha.elim
  | cons k q =>
    rw [RTable.merge] at he ⊢
    split at he
    · cases he
    · rename_i hc
      rw [if_neg hc]
      exact misses_table.2 (misses_merge q k _ _ he (misses_table.1 ha) (misses_table.1 hb))

theorem merge_look {a b : RTable σ} {q : List DKey} (he : (a.merge b).2 = []) (hb : misses b.value q) :
    rlook (a.merge b).1.value q = rlook a.value q := by
  cases q with
  | nil => rw [misses] at hb; exact hb.elim
  | cons k q =>
    rw [RTable.merge] at he ⊢
    split at he
    · cases he
    · rename_i hc
      rw [if_neg hc, RTable.value, RTable.value, rlook_table, rlook_table]
      exact look_merge q k _ _ he (misses_table.1 hb)

theorem merge_added {a b : RTable σ} {q : List DKey} (he : (a.merge b).2 = []) (ha : misses a.value q) (hb : chain b.value q) :
    rlook (a.merge b).1.value q = rlook b.value q := by
  cases q with
  | nil => rw [misses] at ha; exact ha.elim
  | cons k q =>
    rw [RTable.merge] at he ⊢
    split at he
    · cases he
    · rename_i hc
      rw [if_neg hc, RTable.value, RTable.value, rlook_table, rlook_table]
      obtain ⟨kd, r, es⟩ := b
      rw [RTable.value] at hb
      match es, hb with
      | [(rk, v)], hb =>
        rw [chain] at hb
        obtain ⟨hk, hb'⟩ := hb
        subst hk
        rw [look_added q rk v _ he (misses_table.1 ha) hb', rlookE, rget, if_pos rfl]
      | [], hb => simp [chain] at hb
      | _ :: _ :: _, hb => simp [chain] at hb

/-- The key-value misses the keys. -/
def KvApart (q : List DKey) (kv : RAstKeyValue σ) : Prop := misses kv.tree.1.value q

theorem kvs_misses {q : List DKey} : (kvs : List (RAstKeyValue σ)) → (t : RTable σ) → (rmergeKeyValues t kvs).2 = [] → misses t.value q →
    (∀ kv ∈ kvs, KvApart q kv) → misses (rmergeKeyValues t kvs).1.value q
  | [], t, _, ht, _ => by rw [rmergeKeyValues]; exact ht
  | kv :: kvs, t, he, ht, hk => by
    rw [rmergeKeyValues] at he ⊢
    simp only [List.append_eq_nil_iff] at he
    exact kvs_misses kvs _ he.2 (merge_misses he.1.2 ht (hk kv List.mem_cons_self)) fun kv h => hk kv (List.mem_cons_of_mem _ h)

theorem kvs_look {q : List DKey} : (kvs : List (RAstKeyValue σ)) → (t : RTable σ) → (rmergeKeyValues t kvs).2 = [] →
    (∀ kv ∈ kvs, KvApart q kv) → rlook (rmergeKeyValues t kvs).1.value q = rlook t.value q
  | [], t, _, _ => by rw [rmergeKeyValues]
  | kv :: kvs, t, he, hk => by
    rw [rmergeKeyValues] at he ⊢
    simp only [List.append_eq_nil_iff] at he
    rw [kvs_look kvs _ he.2 fun kv h => hk kv (List.mem_cons_of_mem _ h)]
    exact merge_look he.1.2 (hk kv List.mem_cons_self)

theorem kvs_append (a b : List (RAstKeyValue σ)) (t : RTable σ) : rmergeKeyValues t (a ++ b) =
    ((rmergeKeyValues (rmergeKeyValues t a).1 b).1, (rmergeKeyValues t a).2 ++ (rmergeKeyValues (rmergeKeyValues t a).1 b).2) := by
  induction a generalizing t with
  | nil => simp [rmergeKeyValues]
  | cons kv a ih =>
    rw [List.cons_append, rmergeKeyValues, ih, rmergeKeyValues]
    simp only [List.append_assoc]

theorem sections_look {q : List DKey} : (ss : List (RAstSection σ)) → (prev : List (RAstSection σ)) → (t : RTable σ) →
    (rmergeSections prev t ss).2 = [] → (∀ s ∈ ss, ∃ h, s.header = some h ∧ Apart (h.map RKey.text) q) →
    rlook (rmergeSections prev t ss).1.value q = rlook t.value q
  | [], _, t, _, _ => by rw [rmergeSections]
  | s :: ss, prev, t, he, hs => by
    rw [rmergeSections] at he ⊢
    simp only [List.append_eq_nil_iff] at he
    rw [sections_look ss _ _ he.2 fun s h => hs s (List.mem_cons_of_mem _ h)]
    obtain ⟨h, hh, ha⟩ := hs s List.mem_cons_self
    exact merge_look he.1.2 (section_misses hh ha)

/-- In a document without errors, where everything else is apart from some keys, the value there is that of the key-value. -/
theorem root_look {root : RAstRoot σ} {kvs1 kvs2 : List (RAstKeyValue σ)} {kv : RAstKeyValue σ} {q : List DKey} (he : root.tree.2 = [])
    (hk : root.kvs = kvs1 ++ kv :: kvs2) (hc : chain kv.tree.1.value q) (hq : q ≠ []) (h1 : ∀ kv ∈ kvs1, KvApart q kv)
    (h2 : ∀ kv ∈ kvs2, KvApart q kv) (hs : ∀ s ∈ root.sections, ∃ h, s.header = some h ∧ Apart (h.map RKey.text) q) :
    rlook root.tree.1.value q = rlook kv.tree.1.value q := by
  rw [RAstRoot.tree] at he ⊢
  simp only [List.append_eq_nil_iff] at he
  simp only
  rw [sections_look _ _ _ he.2 hs]
  have he := he.1
  rw [hk, kvs_append] at he ⊢
  simp only [List.append_eq_nil_iff] at he
  simp only
  rw [rmergeKeyValues] at he ⊢
  simp only [List.append_eq_nil_iff] at he
  simp only
  rw [kvs_look _ _ he.2.2 h2]
  have hm : misses (rmergeKeyValues ⟨.root, root.range, []⟩ kvs1).1.value q := by
    refine kvs_misses _ _ he.1 ?_ h1
    cases q with
    | nil => exact absurd rfl hq
    | cons k q => rw [RTable.value, misses_table]; intro kv h; cases h
  exact merge_added he.2.1.2 hm hc

end Tombi.Refactor
