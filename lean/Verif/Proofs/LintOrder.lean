import Verif.Spec.LintOrder
/-! Lemmas for C43. -/
namespace Tombi.LintOrder
open Spec.LintOrder
variable {κ ρ : Type}

/-! ### positions -/

theorem mem_positionsFrom (items : List (Option κ × ρ)) : ∀ n i k r,
    (i, k, r) ∈ positionsFrom n items ↔ n ≤ i ∧ items[i - n]? = some (some k, r) := by
  induction items with
  | nil => intro n i k r; simp [positionsFrom]
  | cons x items ih =>
    intro n i k r
    obtain ⟨k?, r'⟩ := x
    have key : (n + 1 ≤ i ∧ items[i - (n + 1)]? = some (some k, r))
        ↔ (n ≤ i ∧ i ≠ n ∧ ((k?, r') :: items)[i - n]? = some (some k, r)) := by
      constructor
      · rintro ⟨h1, h2⟩
        refine ⟨by omega, by omega, ?_⟩
        have : i - n = (i - (n + 1)) + 1 := by omega
        rw [this, List.getElem?_cons_succ]; exact h2
      · rintro ⟨h1, h2, h3⟩
        refine ⟨by omega, ?_⟩
        have : i - n = (i - (n + 1)) + 1 := by omega
        rwa [this, List.getElem?_cons_succ] at h3
    cases k? with
    | some k' =>
      simp only [positionsFrom, List.mem_cons, ih, key, Prod.mk.injEq]
      constructor
      · rintro (⟨rfl, rfl, rfl⟩ | ⟨h1, h2, h3⟩)
        · simp
        · exact ⟨h1, h3⟩
      · rintro ⟨h1, h2⟩
        by_cases hin : i = n
        · subst hin; simp at h2; exact .inl ⟨rfl, h2.1.symm, h2.2.symm⟩
        · exact .inr ⟨h1, hin, h2⟩
    | none =>
      simp only [positionsFrom, ih, key]
      constructor
      · rintro ⟨h1, _, h3⟩; exact ⟨h1, h3⟩
      · rintro ⟨h1, h2⟩
        refine ⟨h1, ?_, h2⟩
        rintro rfl; simp at h2

theorem positionsFrom_sorted (items : List (Option κ × ρ)) : ∀ n,
    (positionsFrom n items).Pairwise fun x y => x.1 < y.1 := by
  induction items with
  | nil => intro n; exact List.Pairwise.nil
  | cons x items ih =>
    intro n
    obtain ⟨k?, r⟩ := x
    cases k? with
    | none => exact ih (n + 1)
    | some k =>
      refine List.Pairwise.cons ?_ (ih (n + 1))
      rintro ⟨i, k', r'⟩ h
      have := (mem_positionsFrom items (n + 1) i k' r').mp h
      show n < i
      omega

/-! ### groups -/

/-- the members of the group of `k` -/
def select [DecidableEq κ] (ps : List (Nat × κ × ρ)) (k : κ) : List (Nat × ρ) :=
  (ps.filter fun x => x.2.1 = k).map fun x => (x.1, x.2.2)

theorem pushGroup_keys {β : Type} [DecidableEq κ] (G : List (κ × List β)) (k : κ) (x : β) :
    (pushGroup G k x).map (·.1) = if k ∈ G.map (·.1) then G.map (·.1) else G.map (·.1) ++ [k] := by
  induction G with
  | nil => simp [pushGroup]
  | cons g G ih =>
    obtain ⟨k', xs⟩ := g
    unfold pushGroup
    by_cases h : k' = k
    · simp [h]
    · rw [if_neg h, List.map_cons, ih]
      have h' : k ≠ k' := Ne.symm h
      by_cases hm : k ∈ G.map (·.1)
      · rw [if_pos hm, if_pos (by simp at hm ⊢; exact .inr hm)]; rfl
      · rw [if_neg hm, if_neg (by simp at hm ⊢; exact ⟨h', hm⟩)]; rfl

theorem mem_pushGroup {β : Type} [DecidableEq κ] (G : List (κ × List β)) (hn : (G.map (·.1)).Nodup) (k : κ) (x : β)
    (k' : κ) (ys : List β) (h : (k', ys) ∈ pushGroup G k x) :
    (k' ≠ k ∧ (k', ys) ∈ G) ∨ (k' = k ∧ ∃ xs, (k, xs) ∈ G ∧ ys = xs ++ [x])
      ∨ (k' = k ∧ k ∉ G.map (·.1) ∧ ys = [x]) := by
  induction G with
  | nil =>
    simp only [pushGroup, List.mem_singleton, Prod.mk.injEq] at h
    exact .inr (.inr ⟨h.1, by simp, h.2⟩)
  | cons g G ih =>
    obtain ⟨k1, xs⟩ := g
    simp only [List.map_cons, List.nodup_cons] at hn
    unfold pushGroup at h
    by_cases hk : k1 = k
    · subst hk
      rw [if_pos rfl] at h
      rcases List.mem_cons.mp h with h' | h'
      · cases h'; exact .inr (.inl ⟨rfl, xs, by simp, rfl⟩)
      · refine .inl ⟨?_, List.mem_cons_of_mem _ h'⟩
        rintro rfl
        exact hn.1 (List.mem_map.mpr ⟨_, h', rfl⟩)
    · rw [if_neg hk] at h
      rcases List.mem_cons.mp h with h | h
      · cases h; exact .inl ⟨hk, by simp⟩
      · rcases ih hn.2 h with ⟨h1, h2⟩ | ⟨h1, xs', h2, h3⟩ | ⟨h1, h2, h3⟩
        · exact .inl ⟨h1, List.mem_cons_of_mem _ h2⟩
        · exact .inr (.inl ⟨h1, xs', List.mem_cons_of_mem _ h2, h3⟩)
        · refine .inr (.inr ⟨h1, ?_, h3⟩)
          simp only [List.map_cons, List.mem_cons, not_or]
          exact ⟨Ne.symm hk, h2⟩

structure Grouped [DecidableEq κ] (ps : List (Nat × κ × ρ)) (G : List (κ × List (Nat × ρ))) : Prop where
  nodup : (G.map (·.1)).Nodup
  group : ∀ k xs, (k, xs) ∈ G → xs = select ps k
  keys : ∀ k, k ∈ G.map (·.1) ↔ ∃ x ∈ ps, x.2.1 = k

theorem snoc_induction {α : Type} {P : List α → Prop} (nil : P []) (snoc : ∀ l x, P l → P (l ++ [x])) :
    ∀ l, P l := by
  intro l
  rw [← List.reverse_reverse l]
  induction l.reverse with
  | nil => exact nil
  | cons x l ih => rw [List.reverse_cons]; exact snoc _ x ih

theorem groupAll_grouped [DecidableEq κ] (ps : List (Nat × κ × ρ)) : Grouped ps (groupAll ps) := by
  induction ps using snoc_induction with
  | nil => exact ⟨List.nodup_nil, by simp [groupAll], by simp [groupAll]⟩
  | snoc ps x ih =>
    obtain ⟨n, k, r⟩ := x
    have e : groupAll (ps ++ [(n, k, r)]) = pushGroup (groupAll ps) k (n, r) := by simp [groupAll]
    have hsel : ∀ k', select (ps ++ [(n, k, r)]) k' = select ps k' ++ if k = k' then [(n, r)] else [] := by
      intro k'
      unfold select
      by_cases h : k = k' <;> simp [List.filter_append, h]
    rw [e]
    refine ⟨?_, fun k' ys h => ?_, fun k' => ?_⟩
    · rw [pushGroup_keys]
      split
      · exact ih.nodup
      · next h =>
        rw [List.nodup_append]
        refine ⟨ih.nodup, by simp, ?_⟩
        intro a ha b hb
        rw [List.mem_singleton.mp hb]
        rintro rfl; exact h ha
    · rw [hsel]
      rcases mem_pushGroup _ ih.nodup _ _ _ _ h with ⟨h1, h2⟩ | ⟨h1, xs, h2, h3⟩ | ⟨h1, h2, h3⟩
      · rw [if_neg (Ne.symm h1), List.append_nil]; exact ih.group _ _ h2
      · subst h1; rw [if_pos rfl, h3, ih.group _ _ h2]
      · subst h1
        rw [if_pos rfl, h3]
        have : select ps k' = [] := by
          unfold select
          rw [List.map_eq_nil_iff, List.filter_eq_nil_iff]
          intro x hx hk
          exact h2 ((ih.keys k').mpr ⟨x, hx, by simpa using hk⟩)
        rw [this]; rfl
    · rw [pushGroup_keys]
      have hcase : (∃ x ∈ ps ++ [(n, k, r)], x.2.1 = k') ↔ (∃ x ∈ ps, x.2.1 = k') ∨ k = k' := by
        constructor
        · rintro ⟨x, hx, h⟩
          rcases List.mem_append.mp hx with hx | hx
          · exact .inl ⟨x, hx, h⟩
          · rw [List.mem_singleton.mp hx] at h; exact .inr h
        · rintro (⟨x, hx, h⟩ | h)
          · exact ⟨x, List.mem_append_left _ hx, h⟩
          · exact ⟨_, List.mem_append_right _ (List.mem_singleton.mpr rfl), h⟩
      rw [hcase, ← ih.keys]
      split
      · next h =>
        constructor
        · exact .inl
        · rintro (h' | rfl)
          · exact h'
          · exact h
      · simp only [List.mem_append, List.mem_singleton]
        constructor
        · rintro (h | h)
          · exact .inl h
          · exact .inr h.symm
        · rintro (h | h)
          · exact .inl h
          · exact .inr h.symm

/-! ### reports -/

theorem mem_select [DecidableEq κ] (items : List (Option κ × ρ)) (k : κ) (i : Nat) :
    i ∈ (select (positionsFrom 0 items) k).map (·.1) ↔ KeyAt items i k := by
  unfold select KeyAt
  simp only [List.map_map, List.mem_map, List.mem_filter, Function.comp]
  constructor
  · rintro ⟨⟨i', k', r⟩, ⟨h1, h2⟩, rfl⟩
    have := (mem_positionsFrom items 0 _ _ _).mp h1
    have hk : k' = k := by simpa using h2
    subst hk
    exact ⟨r, by simpa using this.2⟩
  · rintro ⟨r, h⟩
    exact ⟨(i, k, r), ⟨(mem_positionsFrom items 0 _ _ _).mpr ⟨by omega, by simpa using h⟩, by simp⟩, rfl⟩

theorem select_sorted [DecidableEq κ] (items : List (Option κ × ρ)) (k : κ) :
    ((select (positionsFrom 0 items) k).map (·.1)).Pairwise (· < ·) := by
  unfold select
  rw [List.map_map, List.pairwise_map]
  exact (positionsFrom_sorted items 0).filter _

theorem select_ranges [DecidableEq κ] (items : List (Option κ × ρ)) (k : κ) :
    ((select (positionsFrom 0 items) k).map (·.2)).map some
      = ((select (positionsFrom 0 items) k).map (·.1)).map fun i => items[i]?.map (·.2) := by
  rw [List.map_map, List.map_map]
  apply List.map_congr_left
  rintro ⟨i, r⟩ h
  unfold select at h
  simp only [List.mem_map, List.mem_filter] at h
  obtain ⟨⟨i', k', r'⟩, ⟨h1, _⟩, h2⟩ := h
  cases h2
  have := (mem_positionsFrom items 0 _ _ _).mp h1
  simp at this
  simp [this]

theorem reportsExactly [DecidableEq κ] (items : List (Option κ × ρ))
    (order : List (κ × List (Nat × ρ)) → List (κ × List (Nat × ρ))) (ho : ∀ g, (order g).Perm g)
    (report : κ × List (Nat × ρ) → List ρ) (P : κ → Prop)
    (hr : ∀ k, (P k → report (k, select (positionsFrom 0 items) k) = (select (positionsFrom 0 items) k).map (·.2))
      ∧ (¬ P k → report (k, select (positionsFrom 0 items) k) = [])) :
    ReportsExactly items (fun i => ∃ k, KeyAt items i k ∧ P k)
      (((order (groupAll (positionsFrom 0 items))).map report).flatten) := by
  have hg := groupAll_grouped (positionsFrom 0 items)
  have hp := ho (groupAll (positionsFrom 0 items))
  generalize groupAll (positionsFrom 0 items) = G at hg hp
  generalize order G = G' at hp
  have hmem : ∀ k xs, (k, xs) ∈ G' → xs = select (positionsFrom 0 items) k := fun k xs h =>
    hg.group k xs (hp.mem_iff.mp h)
  have hnd : (G'.map (·.1)).Nodup := (hp.map _).nodup_iff.mpr hg.nodup
  have hkeys : ∀ k, k ∈ G'.map (·.1) ↔ ∃ i, KeyAt items i k := by
    intro k
    rw [(hp.map _).mem_iff, hg.keys]
    constructor
    · rintro ⟨⟨i, k', r⟩, h, rfl⟩
      exact ⟨i, r, by simpa using ((mem_positionsFrom items 0 _ _ _).mp h).2⟩
    · rintro ⟨i, r, h⟩
      exact ⟨(i, k, r), (mem_positionsFrom items 0 _ _ _).mpr ⟨by omega, by simpa using h⟩, rfl⟩
  clear hg hp
  classical
  refine ⟨(G'.map fun g => if P g.1 then g.2.map (·.1) else []).flatten, ?_, fun i => ?_, ?_⟩
  · rw [List.Nodup, List.pairwise_flatten]
    refine ⟨?_, ?_⟩
    · intro l hl
      obtain ⟨⟨k, xs⟩, hg, rfl⟩ := List.mem_map.mp hl
      have := hmem k xs hg
      subst this
      dsimp only
      split
      · exact (select_sorted items k).imp (fun h => Nat.ne_of_lt h)
      · exact List.Pairwise.nil
    · rw [List.pairwise_map]
      rw [List.Nodup, List.pairwise_map] at hnd
      refine hnd.imp_of_mem ?_
      rintro ⟨k, xs⟩ ⟨k', xs'⟩ h1 h2 hne x hx y hy
      have e1 := hmem k xs h1
      have e2 := hmem k' xs' h2
      subst e1; subst e2
      dsimp only at hx hy hne
      split at hx
      · split at hy
        · obtain ⟨r, hx⟩ := (mem_select items k x).mp hx
          obtain ⟨r', hy⟩ := (mem_select items k' y).mp hy
          rintro rfl
          rw [hx] at hy
          simp at hy
          exact hne hy.1
        · simp at hy
      · simp at hx
  · simp only [List.mem_flatten, List.mem_map]
    constructor
    · rintro ⟨l, ⟨⟨k, xs⟩, hg, rfl⟩, hi⟩
      have := hmem k xs hg
      subst this
      dsimp only at hi
      split at hi
      · next hP => exact ⟨k, (mem_select items k i).mp hi, hP⟩
      · simp at hi
    · rintro ⟨k, hk, hP⟩
      obtain ⟨⟨k', xs⟩, hg, he⟩ := List.mem_map.mp ((hkeys k).mpr ⟨i, hk⟩)
      dsimp only at he
      subst he
      have := hmem k' xs hg
      subst this
      refine ⟨_, ⟨_, hg, rfl⟩, ?_⟩
      dsimp only
      rw [if_pos hP]
      exact (mem_select items k' i).mpr hk
  · clear hnd hkeys
    induction G' with
    | nil => rfl
    | cons g G' ih =>
      obtain ⟨k, xs⟩ := g
      have := hmem k xs (by simp)
      subst this
      simp only [List.map_cons, List.flatten_cons, List.map_append]
      rw [ih (fun k xs h => hmem k xs (List.mem_cons_of_mem _ h))]
      congr 1
      by_cases hP : P k
      · rw [(hr k).1 hP, if_pos hP]; exact select_ranges items k
      · rw [(hr k).2 hP, if_neg hP]; rfl

/-! ### conditions -/

theorem minPos_mem : ∀ l : List Nat, l ≠ [] → minPos l ∈ l ∧ ∀ x ∈ l, minPos l ≤ x
  | [], h => absurd rfl h
  | [n], _ => by simp [minPos]
  | n :: m :: ns, _ => by
    obtain ⟨h1, h2⟩ := minPos_mem (m :: ns) (by simp)
    simp only [minPos]
    refine ⟨?_, ?_⟩
    · rcases Nat.le_total n (minPos (m :: ns)) with h | h
      · rw [Nat.min_eq_left h]; simp
      · rw [Nat.min_eq_right h]; exact List.mem_cons_of_mem _ h1
    · intro x hx
      rcases List.mem_cons.mp hx with rfl | hx
      · exact Nat.min_le_left _ _
      · exact Nat.le_trans (Nat.min_le_right _ _) (h2 x hx)

theorem maxPos_mem : ∀ l : List Nat, l ≠ [] → maxPos l ∈ l ∧ ∀ x ∈ l, x ≤ maxPos l
  | [], h => absurd rfl h
  | n :: ns, _ => by
    unfold maxPos
    by_cases hns : ns = []
    · subst hns; simp [maxPos]
    · obtain ⟨h1, h2⟩ := maxPos_mem ns hns
      refine ⟨?_, ?_⟩
      · rcases Nat.le_total n (maxPos ns) with h | h
        · rw [Nat.max_eq_right h]; exact List.mem_cons_of_mem _ h1
        · rw [Nat.max_eq_left h]; simp
      · intro x hx
        rcases List.mem_cons.mp hx with rfl | hx
        · exact Nat.le_max_left _ _
        · exact Nat.le_trans (h2 x hx) (Nat.le_max_right _ _)

theorem hasGap_iff : ∀ l : List Nat, l.Pairwise (· < ·) →
    (hasGap l = true ↔ ∃ a b c, a < b ∧ b < c ∧ a ∈ l ∧ c ∈ l ∧ b ∉ l)
  | [], _ => by simp [hasGap]
  | [n], _ => by
    simp only [hasGap, List.mem_singleton, Bool.false_eq_true, false_iff]
    rintro ⟨a, b, c, h1, h2, rfl, rfl, _⟩; omega
  | n :: m :: ns, h => by
    obtain ⟨h1, h2⟩ := List.pairwise_cons.mp h
    have ih := hasGap_iff (m :: ns) h2
    have hnm := h1 m (by simp)
    have hm : ∀ x ∈ ns, m < x := (List.pairwise_cons.mp h2).1
    simp only [hasGap, Bool.or_eq_true, decide_eq_true_eq, ih]
    constructor
    · rintro (hne | ⟨a, b, c, h3, h4, h5, h6, h7⟩)
      · refine ⟨n, n + 1, m, by omega, by omega, by simp, by simp, ?_⟩
        intro hmem
        simp only [List.mem_cons] at hmem
        rcases hmem with h | h | h
        · omega
        · omega
        · have := hm _ h; omega
      · refine ⟨a, b, c, h3, h4, List.mem_cons_of_mem _ h5, List.mem_cons_of_mem _ h6, ?_⟩
        intro hmem
        rcases List.mem_cons.mp hmem with rfl | hmem
        · have := h1 a h5; omega
        · exact h7 hmem
    · rintro ⟨a, b, c, h3, h4, h5, h6, h7⟩
      by_cases hne : n + 1 = m
      · right
        have hb : b ∉ m :: ns := fun hb => h7 (List.mem_cons_of_mem _ hb)
        have hbn : b ≠ n := fun e => h7 (by rw [e]; simp)
        have hbm : b ≠ m := fun e => h7 (by rw [e]; simp)
        have ha : n ≤ a := by
          rcases List.mem_cons.mp h5 with rfl | h
          · omega
          · have := h1 a h; omega
        have hc : c ∈ m :: ns := by
          rcases List.mem_cons.mp h6 with rfl | h
          · omega
          · exact h
        exact ⟨m, b, c, by omega, h4, by simp, hc, hb⟩
      · exact .inl hne

theorem tableGroup_cond [DecidableEq κ] (items : List (Option κ × ρ)) (k : κ) :
    ((∃ a b c k', a < b ∧ b < c ∧ KeyAt items a k ∧ KeyAt items c k ∧ KeyAt items b k' ∧ k' ≠ k) →
      tableGroup (positionsFrom 0 items) (k, select (positionsFrom 0 items) k)
        = (select (positionsFrom 0 items) k).map (·.2))
    ∧ (¬ (∃ a b c k', a < b ∧ b < c ∧ KeyAt items a k ∧ KeyAt items c k ∧ KeyAt items b k' ∧ k' ≠ k) →
      tableGroup (positionsFrom 0 items) (k, select (positionsFrom 0 items) k) = []) := by
  have hany : ∀ lo hi : Nat, ((positionsFrom 0 items).any fun x => decide (x.1 > lo) && decide (x.1 < hi) && decide (x.2.1 ≠ k))
      = true ↔ ∃ b k', lo < b ∧ b < hi ∧ KeyAt items b k' ∧ k' ≠ k := by
    intro lo hi
    rw [List.any_eq_true]
    constructor
    · rintro ⟨⟨b, k', r⟩, h1, h2⟩
      simp only [Bool.and_eq_true, decide_eq_true_eq] at h2
      exact ⟨b, k', h2.1.1, h2.1.2, ⟨r, by simpa using ((mem_positionsFrom items 0 _ _ _).mp h1).2⟩, h2.2⟩
    · rintro ⟨b, k', h1, h2, ⟨r, h3⟩, h4⟩
      refine ⟨(b, k', r), (mem_positionsFrom items 0 _ _ _).mpr ⟨by omega, by simpa using h3⟩, ?_⟩
      simp only [Bool.and_eq_true, decide_eq_true_eq]
      exact ⟨⟨h1, h2⟩, h4⟩
  have hsel := mem_select items k
  unfold tableGroup
  dsimp only
  generalize select (positionsFrom 0 items) k = xs at hsel
  constructor
  · rintro ⟨a, b, c, k', h1, h2, h3, h4, h5, h6⟩
    have ha := (hsel a).mpr h3
    have hc := (hsel c).mpr h4
    have hne : xs.map (·.1) ≠ [] := List.ne_nil_of_mem ha
    have hlen : xs.length > 1 := by
      rcases xs with _ | ⟨x, _ | ⟨y, ys⟩⟩
      · simp at ha
      · simp at ha hc; omega
      · simp
    rw [if_pos hlen, if_pos]
    rw [hany]
    have := (minPos_mem _ hne).2 a ha
    have := (maxPos_mem _ hne).2 c hc
    exact ⟨b, k', by omega, by omega, h5, h6⟩
  · intro hno
    split
    · next hlen =>
      rw [if_neg]
      rw [hany]
      rintro ⟨b, k', h1, h2, h3, h4⟩
      have hne : xs.map (·.1) ≠ [] := by
        intro h; rw [List.map_eq_nil_iff] at h; rw [h] at hlen; simp at hlen
      exact hno ⟨_, b, _, k', h1, h2, (hsel _).mp (minPos_mem _ hne).1, (hsel _).mp (maxPos_mem _ hne).1, h3, h4⟩
    · rfl

theorem dottedGroup_cond [DecidableEq κ] (items : List (Option κ × ρ)) (k : κ) :
    ((∃ a b c, a < b ∧ b < c ∧ KeyAt items a k ∧ KeyAt items c k ∧ ¬ KeyAt items b k) →
      dottedGroup (k, select (positionsFrom 0 items) k) = (select (positionsFrom 0 items) k).map (·.2))
    ∧ (¬ (∃ a b c, a < b ∧ b < c ∧ KeyAt items a k ∧ KeyAt items c k ∧ ¬ KeyAt items b k) →
      dottedGroup (k, select (positionsFrom 0 items) k) = []) := by
  have h := hasGap_iff _ (select_sorted items k)
  simp only [mem_select] at h
  unfold dottedGroup
  dsimp only
  constructor
  · intro h'; rw [if_pos (h.mpr h')]
  · intro h'; rw [if_neg (fun h'' => h' (h.mp h''))]

end Tombi.LintOrder
