import Verif.Proofs.Accessor
/-! Lemmas for C59 (Markdown code spans) and C60 (choice by pattern). -/
namespace Tombi.Accessor
open TomlText Spec Spec.Accessor

/-! ### code spans -/

theorem infix_split {a c : Char} (hne : c ≠ a) (n : Nat) : ∀ (xs ys : List Char),
    List.replicate n a <:+: xs ++ c :: ys → List.replicate n a <:+: xs ∨ List.replicate n a <:+: ys := by
  intro xs ys ⟨pre, post, h⟩
  cases n with
  | zero => left; exact ⟨[], xs, by simp⟩
  | succ n =>
    rw [List.append_assoc] at h
    rcases List.append_eq_append_iff.mp h with ⟨t, h1, h2⟩ | ⟨t, h1, h2⟩
    · -- `xs = pre ++ t`
      rcases List.append_eq_append_iff.mp h2 with ⟨u, h3, h4⟩ | ⟨u, h3, h4⟩
      · left; exact ⟨pre, u, by rw [h1, h3]; simp⟩
      · cases u with
        | nil =>
          left; exact ⟨pre, [], by simp at h3; rw [h1, ← h3]; simp⟩
        | cons d u =>
          have hd : d ∈ List.replicate (n + 1) a := by rw [h3]; simp
          simp only [List.cons_append, List.cons.injEq] at h4
          have := List.eq_of_mem_replicate hd
          exact absurd (h4.1.trans this) hne
    · cases t with
      | nil =>
        simp only [List.nil_append] at h2
        simp only [List.replicate_succ, List.cons_append, List.cons.injEq] at h2
        exact absurd h2.1 hne
      | cons d t =>
        simp only [List.cons_append, List.cons.injEq] at h2
        right; exact ⟨t, post, by rw [h2.2]; simp⟩

theorem runs_bound (s : List Char) : ∀ run n, List.replicate n '`' <:+: List.replicate run '`' ++ s →
    n ≤ maxLen (backtickRuns run s) := by
  induction s with
  | nil =>
    intro run n h
    have := h.length_le
    simp at this
    simp [backtickRuns, maxLen, this]
  | cons c s ih =>
    intro run n h
    unfold backtickRuns
    split
    · next hc =>
      subst hc
      refine ih (run + 1) n ?_
      rw [show List.replicate (run + 1) '`' ++ s = List.replicate run '`' ++ '`' :: s by
        rw [List.replicate_succ', List.append_assoc]; rfl]
      exact h
    · next hc =>
      rcases infix_split hc n _ _ h with h | h
      · have := h.length_le
        simp at this
        simp only [maxLen]; omega
      · have := ih 0 n (by simpa using h)
        simp only [maxLen]; omega

theorem toBasicString_ends (k : List Char) : (toBasicString k).head? = some '"' ∧ (toBasicString k).getLast? = some '"' := by
  constructor
  · simp [toBasicString]
  · simp only [toBasicString, List.getLast?_append]; rfl

theorem key_ends (k : List Char) :
    ((toKeyString k).head? ≠ some '`' ∧ (toKeyString k).head? ≠ some ' ') ∧ (toKeyString k).getLast? ≠ some '`' := by
  rcases toKeyString_cases k with ⟨⟨m, hm⟩, he⟩ | ⟨hp, hb, he⟩ | ⟨hp, hb, he⟩
  · rw [he, hm, List.getLast?_append]; simp
  · rw [he]
    refine ⟨⟨?_, ?_⟩, ?_⟩
    · intro h; exact (bare_chars hb (List.mem_of_head? h)).2.2.2.2.1 rfl
    · intro h; exact (bare_chars hb (List.mem_of_head? h)).2.2.2.2.2.1 rfl
    · intro h; exact (bare_chars hb (List.mem_of_getLast? h)).2.2.2.2.1 rfl
  · rw [he, (toBasicString_ends k).1, (toBasicString_ends k).2]; decide

theorem schema_show_ends (a : SchemaAccessor) :
    (a.show.head? ≠ some '`' ∧ a.show.head? ≠ some ' ') ∧ a.show.getLast? ≠ some '`' := by
  cases a with
  | key k => exact key_ends k
  | anyIndex => decide
  | index i => simp [SchemaAccessor.show, List.getLast?_cons]

theorem schema_showNext_last (a : SchemaAccessor) : a.showNext.getLast? = a.show.getLast? := by
  cases a with
  | key k =>
    simp only [SchemaAccessor.showNext]
    rw [List.getLast?_cons]
    have := schemaShow_ne_nil (.key k)
    cases h : (SchemaAccessor.key k).show.getLast? with
    | none => exact absurd (List.getLast?_eq_none_iff.mp h) this
    | some x => rfl
  | _ => rfl

theorem schema_rest_last (q : List SchemaAccessor) : ((q.map SchemaAccessor.showNext).flatten).getLast? ≠ some '`' := by
  induction q with
  | nil => simp
  | cons a q ih =>
    simp only [List.map_cons, List.flatten_cons, List.getLast?_append]
    cases h : ((q.map SchemaAccessor.showNext).flatten).getLast? with
    | some x => rw [h] at ih; simpa using ih
    | none => simpa [schema_showNext_last] using (schema_show_ends a).2

theorem showSchema_ends (p : List SchemaAccessor) (hp : p ≠ []) :
    showSchema p ≠ [] ∧ ((showSchema p).head? ≠ some '`' ∧ (showSchema p).head? ≠ some ' ')
      ∧ (showSchema p).getLast? ≠ some '`' := by
  cases p with
  | nil => exact absurd rfl hp
  | cons a q =>
    have hne := schemaShow_ne_nil a
    have he := schema_show_ends a
    refine ⟨by simp [showSchema, hne], ?_, ?_⟩
    · obtain ⟨c, t, hc⟩ : ∃ c t, a.show = c :: t := List.exists_cons_of_ne_nil hne
      simp only [showSchema, hc, List.cons_append, List.head?_cons]
      simpa [hc] using he.1
    · simp only [showSchema, List.getLast?_append]
      cases h : ((q.map SchemaAccessor.showNext).flatten).getLast? with
      | some x =>
        have := schema_rest_last q
        rw [h] at this; simpa using this
      | none => simpa using he.2

/-! ### patterns -/

theorem scoreLoop_none_of_mismatch {n : Nat} {x : PatternAccessor} {a : Accessor} {ps as}
    (h : ¬ Covers x a) : scoreLoop n (x :: ps) (a :: as) = none := by
  cases x with
  | key e => cases a with
    | key k =>
      rw [scoreLoop, if_pos]
      rintro rfl; exact h (.key _)
    | index i => rfl
  | anyKey => cases a with
    | key k => exact absurd (.anyKey k) h
    | index i => rfl
  | anyIndex => cases a with
    | key k => rfl
    | index i => exact absurd (.anyIndex i) h
  | index e => cases a with
    | key k => rfl
    | index i =>
      rw [scoreLoop, if_pos]
      rintro rfl; exact h (.index _)

theorem scoreLoop_covers {n : Nat} {x : PatternAccessor} {a : Accessor} {ps as} (h : Covers x a) :
    scoreLoop n (x :: ps) (a :: as) = scoreLoop (n + exactItems [x]) ps as := by
  cases h <;> simp [scoreLoop, exactItems]

theorem exactItems_cons (x : PatternAccessor) (ps) : exactItems (x :: ps) = exactItems [x] + exactItems ps := by
  unfold exactItems
  rw [show x :: ps = [x] ++ ps from rfl, List.filter_append, List.length_append]

theorem matches_cons {x : PatternAccessor} {a : Accessor} {ps as} :
    Matches (x :: ps) (a :: as) ↔ Covers x a ∧ Matches ps as := by
  constructor
  · rintro ⟨hl, h⟩
    refine ⟨h 0 x a rfl rfl, by simpa using hl, fun i y b hy hb => h (i + 1) y b (by simpa using hy) (by simpa using hb)⟩
  · rintro ⟨hc, hl, h⟩
    refine ⟨by simp [hl], fun i y b hy hb => ?_⟩
    cases i with
    | zero => simp at hy hb; subst hy hb; exact hc
    | succ i => exact h i y b (by simpa using hy) (by simpa using hb)

theorem scoreLoop_iff : ∀ (ps : List PatternAccessor) (as : List Accessor) (n m : Nat), ps.length = as.length →
    (scoreLoop n ps as = some m ↔ Matches ps as ∧ m = n + exactItems ps) := by
  intro ps
  induction ps with
  | nil =>
    intro as n m hl
    cases as with
    | nil => simp [scoreLoop, Matches, exactItems, eq_comm]
    | cons a as => simp at hl
  | cons x ps ih =>
    intro as n m hl
    cases as with
    | nil => simp at hl
    | cons a as =>
      rw [matches_cons]
      by_cases h : Covers x a
      · rw [scoreLoop_covers h, ih as _ m (by simpa using hl), exactItems_cons x ps]
        simp only [h, true_and]
        exact and_congr_right fun _ => by omega
      · rw [scoreLoop_none_of_mismatch h]; simp [h]

theorem patternMatchScore_iff (p : List PatternAccessor) (path : List Accessor) (m : Nat) :
    patternMatchScore p path = some m ↔ Matches p path ∧ m = exactItems p := by
  unfold patternMatchScore
  by_cases h : p.length = path.length
  · rw [if_neg (by simp [h]), scoreLoop_iff _ _ _ _ h]; simp
  · rw [if_pos h]
    exact ⟨fun h => by simp at h, fun hm => absurd hm.1.1 h⟩

theorem patternMatchScore_none (p : List PatternAccessor) (path : List Accessor) :
    patternMatchScore p path = none ↔ ¬ Matches p path := by
  constructor
  · intro h hm
    rw [(patternMatchScore_iff p path _).mpr ⟨hm, rfl⟩] at h; cases h
  · intro h
    cases hs : patternMatchScore p path with
    | none => rfl
    | some m => exact absurd ((patternMatchScore_iff p path m).mp hs).1 h

/-- the loop's state after the items `pre` -/
def BestSoFar {α : Type} (pattern : α → List PatternAccessor) (path : List Accessor) (pre : List α) :
    Option (α × Nat) → Prop
  | none => ∀ y ∈ pre, ¬ Matches (pattern y) path
  | some (b, s) => s = exactItems (pattern b) ∧ ∃ i : Nat, pre[i]? = some b ∧ Best pattern pre path i

theorem best_snoc_keep {α : Type} {pattern : α → List PatternAccessor} {path} {pre : List α} {i : Nat} {b x : α}
    (hb : pre[i]? = some b) (h : Best pattern pre path i)
    (hx : Matches (pattern x) path → exactItems (pattern x) ≤ exactItems (pattern b)) :
    Best pattern (pre ++ [x]) path i := by
  obtain ⟨b', h1, h2, h3⟩ := h
  rw [hb] at h1; cases h1
  have hi : i < pre.length := (List.getElem?_eq_some_iff.mp hb).1
  refine ⟨b, by rw [List.getElem?_append_left hi]; exact hb, h2, fun j y hy hm => ?_⟩
  by_cases hj : j < pre.length
  · rw [List.getElem?_append_left hj] at hy; exact h3 j y hy hm
  · rw [List.getElem?_append_right (by omega)] at hy
    have hj0 : j - pre.length = 0 := by
      have := (List.getElem?_eq_some_iff.mp hy).1; simpa using this
    rw [hj0] at hy; simp at hy; subst hy
    exact ⟨hx hm, fun h => by omega⟩

theorem best_snoc_new {α : Type} {pattern : α → List PatternAccessor} {path} {pre : List α} {x : α}
    (hm : Matches (pattern x) path)
    (h : ∀ y ∈ pre, Matches (pattern y) path → exactItems (pattern y) < exactItems (pattern x)) :
    Best pattern (pre ++ [x]) path pre.length := by
  refine ⟨x, by simp, hm, fun j y hy hmy => ?_⟩
  by_cases hj : j < pre.length
  · rw [List.getElem?_append_left hj] at hy
    have := h y (List.mem_of_getElem? hy) hmy
    exact ⟨by omega, fun _ => this⟩
  · rw [List.getElem?_append_right (by omega)] at hy
    have hj0 : j - pre.length = 0 := by
      have := (List.getElem?_eq_some_iff.mp hy).1; simpa using this
    rw [hj0] at hy; simp at hy; subst hy
    exact ⟨Nat.le_refl _, fun h => by omega⟩

theorem bestLoop_inv {α : Type} (pattern : α → List PatternAccessor) (path : List Accessor) :
    ∀ (items pre : List α) (best : Option (α × Nat)), BestSoFar pattern path pre best →
      BestSoFar pattern path (pre ++ items) (bestLoop pattern path best items) := by
  intro items
  induction items with
  | nil => intro pre best h; simpa [bestLoop] using h
  | cons x items ih =>
    intro pre best h
    rw [show pre ++ x :: items = (pre ++ [x]) ++ items by simp]
    unfold bestLoop
    cases hs : patternMatchScore (pattern x) path with
    | none =>
      have hx := (patternMatchScore_none _ _).mp hs
      refine ih _ _ ?_
      cases best with
      | none =>
        intro y hy
        rcases List.mem_append.mp hy with hy | hy
        · exact h y hy
        · simp at hy; subst hy; exact hx
      | some bs =>
        obtain ⟨hsc, i, hb, hbest⟩ := h
        have hi : i < pre.length := (List.getElem?_eq_some_iff.mp hb).1
        exact ⟨hsc, i, by rw [List.getElem?_append_left hi]; exact hb,
          best_snoc_keep hb hbest fun hm => absurd hm hx⟩
    | some score =>
      obtain ⟨hm, rfl⟩ := (patternMatchScore_iff _ _ _).mp hs
      cases best with
      | none =>
        refine ih _ _ ⟨rfl, pre.length, by simp, best_snoc_new hm fun y hy hmy => absurd hmy (h y hy)⟩
      | some bs =>
        obtain ⟨b, s⟩ := bs
        obtain ⟨hsc, i, hb, hbest⟩ := h
        have hi : i < pre.length := (List.getElem?_eq_some_iff.mp hb).1
        show BestSoFar pattern path _ (if _ > s then _ else _)
        split
        · next hgt =>
          refine ih _ _ ⟨rfl, pre.length, by simp, best_snoc_new hm fun y hy hmy => ?_⟩
          obtain ⟨j, hj⟩ := List.getElem?_of_mem hy
          obtain ⟨b', h1, _, h3⟩ := hbest
          rw [hb] at h1; cases h1
          have := (h3 j y hj hmy).1
          omega
        · next hgt =>
          exact ih _ _ ⟨hsc, i, by rw [List.getElem?_append_left hi]; exact hb,
            best_snoc_keep hb hbest fun _ => by omega⟩

theorem best_unique {α : Type} {pattern : α → List PatternAccessor} {path} {items : List α} {i j : Nat}
    (hi : Best pattern items path i) (hj : Best pattern items path j) : i = j := by
  obtain ⟨x, x1, x2, x3⟩ := hi
  obtain ⟨y, y1, y2, y3⟩ := hj
  have h1 := x3 j y y1 y2
  have h2 := y3 i x x1 x2
  rcases Nat.lt_trichotomy i j with h | h | h
  · have := h2.2 h; omega
  · exact h
  · have := h1.2 h; omega

/-- the two implementations of the choice agree -/
theorem findSubschema_eq {β : Type} (links : List (List PatternAccessor × β)) (path : List Accessor) :
    findSubschema links path = (findBest (·.1) links path).map (·.2) := by
  have key : ∀ (links : List (List PatternAccessor × β)) (best : Option ((List PatternAccessor × β) × Nat)),
      ((links.filterMap fun (pattern, link) =>
        (patternMatchScore pattern path).map fun score => (score, link)).foldl (fun best candidate => match best with
          | some b => if b.1 ≥ candidate.1 then some b else some candidate
          | none => some candidate) (best.map fun b => (b.2, b.1.2))).map (·.2)
        = ((bestLoop (·.1) path best links).map (·.1)).map (·.2) := by
    intro links
    induction links with
    | nil => intro best; cases best <;> simp [bestLoop]
    | cons l links ih =>
      intro best
      obtain ⟨p, b⟩ := l
      simp only [List.filterMap_cons]
      unfold bestLoop
      cases hs : patternMatchScore p path with
      | none => simpa using ih best
      | some score =>
        simp only [Option.map_some, List.foldl_cons]
        cases best with
        | none => exact ih (some ((p, b), score))
        | some bs =>
          obtain ⟨b0, s0⟩ := bs
          simp only [Option.map_some]
          by_cases hgt : score > s0
          · rw [if_neg (by omega), if_pos hgt]; exact ih (some ((p, b), score))
          · rw [if_pos (by omega), if_neg hgt]; exact ih (some (b0, s0))
  exact key links none

end Tombi.Accessor
