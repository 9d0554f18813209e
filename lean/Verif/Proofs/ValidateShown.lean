import Verif.Proofs.ValidateStep

/-!
# A failed assertion comes with a diagnostic
-/

namespace Tombi.Validate
open Tombi.Spec.Validate

/-- A list of diagnostics with one that is no lint. -/
def Loud (ds : List Diag) : Prop := ∃ d ∈ ds, ¬Advisory d.rule

theorem loud_append_left {a b : List Diag} (h : Loud a) : Loud (a ++ b) := by
  obtain ⟨d, hd, hr⟩ := h
  exact ⟨d, List.mem_append.2 (.inl hd), hr⟩

theorem loud_append_right {a b : List Diag} (h : Loud b) : Loud (a ++ b) := by
  obtain ⟨d, hd, hr⟩ := h
  exact ⟨d, List.mem_append.2 (.inr hd), hr⟩

theorem loud_not_empty {ds : List Diag} (h : Loud ds) : ds.isEmpty = false := by
  obtain ⟨d, hd, _⟩ := h
  cases ds with
  | nil => cases hd
  | cons => rfl

/-- A failed outcome shows a diagnostic. -/
def Shown (o : Outcome) : Prop := o.failed = true → Loud o.diags

/-- A failed part shows a diagnostic. -/
def ShownPart (t : Part) : Prop := t.failed = true → Loud t.diags

/-- No rule that stands for a violation is turned off. -/
def AllOn (C : Ctx) : Prop := ∀ p r, ¬Advisory r → C.level p r ≠ .off

theorem shown_ok : Shown .ok := fun h => by cases h

theorem shown_part {o : Outcome} (h : Shown o) : ShownPart o.part := h

theorem push_loud {C : Ctx} (hC : AllOn C) (p : Path) {r : Rule} (hr : ¬Advisory r) : Loud (push C p r) := by
  simp only [push]
  have := hC p r hr
  split
  · rename_i h
    exact absurd h this
  · exact ⟨_, List.mem_singleton.2 rfl, hr⟩

theorem shown_merge {C : Ctx} {a b : Outcome} (ha : Shown a) (hb : Shown b) : Shown (merge C a b) := by
  cases a with
  | ok => cases b with
    | ok => exact shown_ok
    | err f e ds => exact hb
  | err f e ds =>
    cases b with
    | ok => exact ha
    | err f' e' ds' =>
      intro h
      simp only [merge, Outcome.failed, Bool.or_eq_true] at h
      rcases h with h | h
      · exact loud_append_left (ha h)
      · exact loud_append_right (hb h)

theorem shown_combine {a b : Outcome} (ha : Shown a) (hb : Shown b) : Shown (combine a b) := by
  cases a with
  | ok => cases b <;> assumption
  | err f e ds =>
    cases b with
    | ok => exact ha
    | err f' e' ds' =>
      simp only [combine]
      split
      · exact hb
      · split
        · intro h
          simp only [Outcome.failed, Bool.or_eq_true] at h
          rcases h with h | h
          · exact loud_append_left (ha h)
          · exact loud_append_right (hb h)
        · exact ha

theorem shown_foldl {rs : List Outcome} (h : ∀ o ∈ rs, Shown o) {a : Outcome} (ha : Shown a) :
    Shown (rs.foldl combine a) := by
  induction rs generalizing a with
  | nil => exact ha
  | cons o rs ih =>
    exact ih (fun o ho => h o (by simp [ho])) (shown_combine ha (h o (by simp)))

theorem shown_total {ps : List Part} (h : ∀ p ∈ ps, ShownPart p) : ShownPart (total ps) := by
  intro hf
  simp only [total, List.any_eq_true] at hf
  obtain ⟨p, hp, hpf⟩ := hf
  obtain ⟨d, hd, hr⟩ := h p hp hpf
  exact ⟨d, List.mem_flatMap.2 ⟨p, hp, hd⟩, hr⟩

theorem shown_finish {ev : Nat} {t : Part} (h : ShownPart t) : Shown (finish ev t) := by
  simp only [finish]
  split
  · exact shown_ok
  · exact h

theorem shown_withDeprecated {C : Ctx} {p : Path} {n : Node} {t : Part} (h : ShownPart t) :
    ShownPart (withDeprecated C p n t) := by
  simp only [withDeprecated]
  split
  · rename_i he
    intro hf
    rw [loud_not_empty (h hf)] at he
    cases he
  · exact h

theorem shown_withLint {C : Ctx} {p : Path} {o : Outcome} (h : Shown o) : Shown (withLint C p o) := by
  cases o with
  | ok =>
    simp only [withLint]
    split
    · exact shown_ok
    · intro h; cases h
  | err f e ds => exact fun hf => loud_append_right (h hf)

theorem shown_check {C : Ctx} (hC : AllOn C) (p : Path) {r : Rule} (hr : ¬Advisory r) (b : Bool) :
    ShownPart (check C p r b) := by
  cases b with
  | true => exact fun _ => push_loud hC p hr
  | false => intro h; cases h

theorem shown_keyEmpty {C : Ctx} {p : Path} {s : Key} : Shown (keyEmpty C p s) := by
  intro h
  rw [keyEmpty_failed] at h
  cases h

theorem shown_typeMismatch {C : Ctx} (hC : AllOn C) {p : Path} {ev : Nat} : Shown (typeMismatch C p ev) :=
  fun _ => push_loud hC p (by simp [Advisory])

theorem shown_nothing {p : Path} : Shown (nothing p) := fun _ => ⟨_, List.mem_singleton.2 rfl, by simp [Advisory]⟩

theorem shown_mergeIf {C : Ctx} {b i : Outcome} (hb : Shown b) (hi : Shown i) : Shown (mergeIf C b i) := by
  match i with
  | .ok => exact shown_merge shown_ok hb
  | .err false e ds => exact shown_merge hi hb
  | .err true _ _ => exact hb

theorem shown_filterStrict {o : Outcome} (h : Shown o) : Shown (filterStrict o) := by
  cases o with
  | ok => exact shown_ok
  | err f e ds =>
    simp only [filterStrict]
    split
    · exact shown_ok
    · intro hf
      obtain ⟨d, hd, hr⟩ := h hf
      refine ⟨d, List.mem_filter.2 ⟨hd, ?_⟩, hr⟩
      simp only [bne_iff_ne, ne_eq]
      intro hc
      exact hr (by simp [Advisory, hc])

theorem shown_oneOfResult {C : Ctx} (hC : AllOn C) {p : Path} {n : Node} {adj : Part} {b : Bool}
    {rs : List Outcome} (hadj : ShownPart adj) (h : ∀ o ∈ rs, Shown o) :
    Shown (oneOfResult C p n adj b rs) := by
  simp only [oneOfResult]
  split
  · exact fun _ => loud_append_right ⟨_, List.mem_singleton.2 rfl, by simp [Advisory]⟩
  · generalize hv : (rs.filter fun o => !o.failed) = valid
    match valid with
    | [] =>
      have hs := shown_foldl h (a := .err false 0 []) (fun h => by cases h)
      simp only
      cases hf : rs.foldl combine (.err false 0 []) with
      | ok => exact shown_ok
      | err f e ds =>
        rw [hf] at hs
        intro hff
        have := hs hff
        simp only [Outcome.diags] at this ⊢
        rw [loud_not_empty this]
        exact loud_append_right this
    | [.ok] =>
      simp only
      split
      · exact shown_ok
      · exact hadj
    | [.err f e ds] =>
      have hm : Outcome.err f e ds ∈ rs.filter fun o => !o.failed := by rw [hv]; simp
      intro hf
      exact loud_append_right (h _ (List.mem_filter.1 hm).1 hf)
    | _ :: _ :: _ =>
      simp only
      exact fun _ => loud_append_right (push_loud hC p (r := .oneOfMultipleMatch) (by simp [Advisory]))

theorem shown_anyOfResult {adj : Part} {dep : List Diag} {rs : List Outcome} (hadj : ShownPart adj)
    (h : ∀ o ∈ rs, Shown o) : Shown (anyOfResult adj dep rs) := by
  simp only [anyOfResult]
  split
  · split
    · exact shown_ok
    · exact fun hf => loud_append_right (hadj hf)
  · have hs := shown_foldl (rs := rs.filter fun o => o.failed) (fun o ho => h o (List.mem_filter.1 ho).1)
      (a := .err false 0 []) (fun h => by cases h)
    cases hf : (rs.filter fun o => o.failed).foldl combine (.err false 0 []) with
    | ok => exact shown_ok
    | err f e ds =>
      rw [hf] at hs
      simp only
      split
      · exact shown_ok
      · exact fun hff => loud_append_right (hs hff)

/-- Every answer of the recursive call shows its failure. -/
def ShownRec (rec : Rec) : Prop :=
  ∀ route strict visits isKey path v id o, rec route strict visits isKey path v id = some o → Shown o

section
variable {E : Env} {rec : Rec} {C : Ctx} (hC : AllOn C) (hrec : ShownRec rec)
include hC hrec

omit hC in
theorem shown_getD {route : Route} {strict : Bool} {visits : List Nat} {isKey : Bool} {path : Path}
    {v : Value} {id : Nat} : Shown ((rec route strict visits isKey path v id).getD .ok) := by
  cases h : rec route strict visits isKey path v id with
  | none => exact shown_ok
  | some o => exact hrec _ _ _ _ _ _ _ _ h

omit hC in
theorem shown_direct (q : Pos) (id : Nat) : Shown (direct rec q id) := shown_getD hrec

omit hC in
theorem shown_child (q : Pos) (s : Step) (v : Value) (id : Nat) : Shown (child rec q s v id) := shown_getD hrec

omit hrec in
theorem shown_notOutcome (q : Pos) (n : Node) : Shown (notOutcome rec C q n) := by
  simp only [notOutcome]
  split
  · exact shown_ok
  · split
    · split
      · intro h; cases h
      · exact shown_ok
    · exact fun _ => push_loud hC q.path (by simp [Advisory])

omit hC in
theorem shown_ifOutcome (q : Pos) (n : Node) : Shown (ifOutcome rec C q n) := by
  simp only [ifOutcome]
  split
  · exact shown_ok
  · split
    · split
      · exact shown_direct hrec q _
      · exact shown_ok
    · split
      · exact shown_mergeIf (shown_direct hrec q _) (shown_direct hrec q _)
      · exact shown_mergeIf shown_ok (shown_direct hrec q _)

theorem shown_adjacentPart (q : Pos) (n : Node) : ShownPart (adjacentPart rec C q n) := by
  apply shown_total
  intro p hp
  simp only [List.mem_cons, List.not_mem_nil, or_false] at hp
  rcases hp with rfl | rfl
  · exact shown_part (shown_notOutcome hC q n)
  · exact shown_part (shown_ifOutcome hrec q n)

omit hC in
theorem shown_results (q : Pos) (ms : List Nat) : ∀ o ∈ ms.filterMap (resolved rec q), Shown o := by
  intro o ho
  obtain ⟨m, _, hm⟩ := List.mem_filterMap.1 ho
  exact hrec _ _ _ _ _ _ _ _ hm

theorem shown_oneOfOutcome (q : Pos) (n : Node) (ms : List Nat) : Shown (oneOfOutcome rec C q n ms) :=
  shown_oneOfResult hC (shown_adjacentPart hC hrec q n) (shown_results hrec q ms)

theorem shown_anyOfOutcome (q : Pos) (n : Node) (ms : List Nat) : Shown (anyOfOutcome rec C q n ms) :=
  shown_anyOfResult (shown_adjacentPart hC hrec q n) (shown_results hrec q ms)

theorem shown_allOfOutcome (q : Pos) (id : Nat) (n : Node) (ms : List Nat) :
    Shown (allOfOutcome rec C q id n ms) := by
  apply shown_finish
  apply shown_total
  intro p hp
  simp only [List.mem_cons, List.not_mem_nil, or_false] at hp
  rcases hp with rfl | rfl | rfl
  · apply shown_withDeprecated
    apply shown_total
    intro p hp
    obtain ⟨m, _, rfl⟩ := List.mem_map.1 hp
    exact shown_part (shown_direct hrec q m)
  · exact shown_part (shown_notOutcome hC q n)
  · exact shown_part (shown_ifOutcome hrec q n)

theorem shown_adjacent (q : Pos) (id : Nat) (n : Node) : Shown (adjacent rec C q id n) := by
  simp only [adjacent]
  refine shown_merge (shown_merge (shown_merge (shown_merge shown_ok ?_) ?_) ?_) (shown_notOutcome hC q n)
  · split
    · exact shown_oneOfOutcome hC hrec q n _
    · exact shown_ok
  · split
    · exact shown_anyOfOutcome hC hrec q n _
    · exact shown_ok
  · split
    · exact shown_allOfOutcome hC hrec q id n _
    · exact shown_ok

theorem shown_itemPart (q : Pos) (n : Node) (x : Value) (i : Nat) : ShownPart (itemPart rec C q n x i) := by
  simp only [itemPart]
  split
  · intro h; cases h
  · exact shown_part (shown_child hrec q _ _ _)
  · split
    · exact shown_part (shown_child hrec q _ _ _)
    · split
      · exact shown_part (shown_child hrec q _ _ _)
      · exact fun _ => push_loud hC q.path (by simp [Advisory])
      · intro h; cases h

omit hrec in
theorem shown_containsParts (q : Pos) (n : Node) (xs : List Value) :
    ∀ p ∈ containsParts rec C q n xs, ShownPart p := by
  simp only [containsParts]
  split
  · intro p hp; cases hp
  · intro p hp
    simp only [List.mem_cons, List.not_mem_nil, or_false] at hp
    rcases hp with rfl | rfl
    · split
      · exact fun _ => push_loud hC q.path (by simp [Advisory])
      · intro h; cases h
    · split
      · split
        · exact fun _ => push_loud hC q.path (by simp [Advisory])
        · intro h; cases h
      · intro h; cases h

omit hrec in
theorem shown_uniquePart (p : Path) (n : Node) (xs : List Value) : ShownPart (uniquePart C p n xs) := by
  simp only [uniquePart]
  split
  · rename_i h
    intro _
    simp only [Bool.and_eq_true, Bool.not_eq_true'] at h
    cases hd : duplicates xs with
    | nil => rw [hd] at h; simp at h
    | cons i is =>
      obtain ⟨d, hdm, hr⟩ := push_loud hC p (r := .uniqueItems) (by simp [Advisory])
      exact ⟨d, List.mem_flatMap.2 ⟨i, by simp, hdm⟩, hr⟩
  · intro h; cases h

theorem shown_arrayBase (q : Pos) (id : Nat) (n : Node) (xs : List Value) :
    Shown (arrayBase rec C q id n xs) := by
  apply shown_finish
  apply shown_withDeprecated
  apply shown_total
  intro p hp
  simp only [List.mem_append, List.mem_cons, List.not_mem_nil, or_false, List.mem_map] at hp
  rcases hp with ((rfl | ⟨⟨x, i⟩, _, rfl⟩) | hp) | rfl | rfl | rfl | rfl | rfl
  · exact shown_part (shown_ifOutcome hrec q n)
  · exact shown_itemPart hC hrec q n x i
  · exact shown_containsParts hC q n xs p hp
  · exact shown_check hC _ (by simp [Advisory]) _
  · exact shown_check hC _ (by simp [Advisory]) _
  · exact shown_check hC _ (by simp [Advisory]) _
  · exact shown_check hC _ (by simp [Advisory]) _
  · exact shown_uniquePart hC _ _ _

theorem shown_additionalParts (q : Pos) (id : Nat) (n : Node) (k : Key) (v : Value) :
    ∀ p ∈ additionalParts rec E C q id n k v, ShownPart p := by
  intro p hp
  simp only [additionalParts, List.mem_append] at hp
  rcases hp with hp | hp
  · split at hp
    · simp only [List.mem_cons, List.not_mem_nil, or_false] at hp
      rcases hp with rfl | rfl
      · intro h; cases h
      · exact shown_part (shown_child hrec q _ _ _)
    · cases hp
  · split at hp
    · cases hp
    · split at hp
      · rw [List.mem_singleton] at hp
        subst hp
        intro h; cases h
      · split at hp
        · rw [List.mem_singleton] at hp
          subst hp
          exact fun _ => push_loud hC q.path (r := .keyNotAllowed) (by simp [Advisory])
        · rw [List.mem_singleton] at hp
          subst hp
          intro h; cases h

theorem shown_entryParts (q : Pos) (id : Nat) (n : Node) (kv : Key × Value) :
    ∀ p ∈ entryParts rec E C q id n kv, ShownPart p := by
  intro p hp
  simp only [entryParts, List.mem_append] at hp
  rcases hp with (hp | hp) | hp
  · obtain ⟨s, _, rfl⟩ := List.mem_map.1 hp
    exact shown_part (shown_child hrec q _ _ _)
  · split at hp
    · rw [List.mem_singleton] at hp
      subst hp
      exact shown_check hC _ (by simp [Advisory]) _
    · cases hp
  · have hif : ∀ c : Bool, p ∈ (if c then [] else additionalParts rec E C q id n kv.1 kv.2) → ShownPart p := by
      intro c
      cases c
      · exact shown_additionalParts hC hrec q id n kv.1 kv.2 p
      · intro h; cases h
    exact hif _ hp

omit hrec in
theorem shown_keysParts (p : Path) (n : Node) (kvs : List (Key × Value)) :
    ∀ t ∈ keysParts C p n kvs, ShownPart t := by
  intro t ht
  simp only [keysParts, List.mem_append, List.mem_cons, List.not_mem_nil, or_false, List.mem_map,
    List.mem_flatMap] at ht
  rcases ht with (⟨k, _, rfl⟩ | rfl | rfl) | ⟨⟨k, rs⟩, _, ht⟩
  · exact shown_check hC _ (by simp [Advisory]) _
  · exact shown_check hC _ (by simp [Advisory]) _
  · exact shown_check hC _ (by simp [Advisory]) _
  · simp only at ht
    split at ht
    · obtain ⟨r, _, rfl⟩ := List.mem_map.1 ht
      split
      · intro h; cases h
      · exact fun _ => push_loud hC p (by simp [Advisory])
    · cases ht

theorem shown_tableBase (keyCall : Key → Nat → Outcome) (hkey : ∀ k s, Shown (keyCall k s)) (q : Pos)
    (id : Nat) (n : Node) (kvs : List (Key × Value)) : Shown (tableBase rec keyCall E C q id n kvs) := by
  apply shown_finish
  apply shown_total
  intro p hp
  simp only [List.mem_cons, List.not_mem_nil, or_false] at hp
  rcases hp with rfl | rfl
  · apply shown_withDeprecated
    apply shown_total
    intro p hp
    simp only [List.mem_append, List.mem_cons, List.not_mem_nil, or_false, List.mem_flatMap] at hp
    rcases hp with (((⟨kv, _, hp⟩ | hp) | hp) | rfl | rfl) | hp
    · exact shown_entryParts hC hrec q id n kv p hp
    · exact shown_keysParts hC _ _ _ p hp
    · simp only [dependentParts] at hp
      obtain ⟨⟨k, s⟩, _, rfl⟩ := List.mem_map.1 hp
      simp only
      split
      · exact shown_part (shown_getD hrec)
      · intro h; cases h
    · exact shown_check hC _ (by simp [Advisory]) _
    · exact shown_check hC _ (by simp [Advisory]) _
    · simp only [keyParts] at hp
      obtain ⟨⟨k, v⟩, _, rfl⟩ := List.mem_map.1 hp
      simp only
      split
      · exact shown_part (hkey k _)
      · exact shown_part shown_keyEmpty
  · exact shown_part (shown_ifOutcome hrec q n)

theorem shown_scalar (q : Pos) (id : Nat) (n : Node) (ps : List Part) (h : ∀ p ∈ ps, ShownPart p) :
    Shown (merge C (finish (C.evidence q.path id q.value) (withDeprecated C q.path n (total ps)))
      (adjacent rec C q id n)) :=
  shown_merge (shown_finish (shown_withDeprecated (shown_total h))) (shown_adjacent hC hrec q id n)

omit hrec in
theorem shown_numberParts (p : Path) (n : Node) (k : Kind) (g : Int → Int) (mul : Int → Int → Bool) (i : Int) :
    ∀ t ∈ numberParts C p n k g mul i, ShownPart t := by
  intro t ht
  simp only [numberParts, List.mem_cons, List.not_mem_nil, or_false] at ht
  rcases ht with rfl | rfl | rfl | rfl | rfl | rfl | rfl <;> exact shown_check hC _ (by simp [Advisory]) _

theorem shown_typedView (keyCall : Key → Nat → Outcome) (hkey : ∀ k s, Shown (keyCall k s)) (q : Pos)
    (id : Nat) (n : Node) (k : Kind) : Shown (typedView rec keyCall E C q id n k) := by
  simp only [typedView]
  split
  · apply shown_scalar hC hrec
    intro t ht
    simp only [boolParts, List.mem_cons, List.not_mem_nil, or_false] at ht
    rcases ht with rfl | rfl <;> exact shown_check hC _ (by simp [Advisory]) _
  · exact shown_scalar hC hrec _ _ _ _ (shown_numberParts hC _ _ _ _ _ _)
  · exact shown_scalar hC hrec _ _ _ _ (shown_numberParts hC _ _ _ _ _ _)
  · refine shown_merge ?_ ?_
    · split
      · exact shown_keyEmpty
      · exact shown_ok
    · apply shown_scalar hC hrec
      intro t ht
      simp only [stringParts, List.mem_cons, List.not_mem_nil, or_false] at ht
      rcases ht with rfl | rfl | rfl | rfl | rfl <;> exact shown_check hC _ (by simp [Advisory]) _
  · exact shown_merge (shown_arrayBase hC hrec q id n _) (shown_adjacent hC hrec q id n)
  · exact shown_merge (shown_tableBase hC hrec keyCall hkey q id n _)
      (shown_filterStrict (shown_adjacent hC hrec q id n))
  · exact shown_typeMismatch hC

theorem shown_anyOfViews (keyCall : Key → Nat → Outcome) (hkey : ∀ k s, Shown (keyCall k s)) (q : Pos)
    (id : Nat) (n : Node) (ks : List Kind) : Shown (anyOfViews rec keyCall E C q id n ks) := by
  apply shown_anyOfResult (fun h => by cases h)
  intro o ho
  obtain ⟨k, _, rfl⟩ := List.mem_map.1 ho
  split
  · exact shown_withLint (shown_typedView hC hrec keyCall hkey q id n k)
  · exact shown_typeMismatch hC

omit hC hrec in
theorem shown_withKey (q : Pos) {o : Outcome} (h : Shown o) : Shown (withKey C q o) := by
  simp only [withKey]
  split
  · exact shown_merge h shown_keyEmpty
  · exact h

theorem shown_mismatched (q : Pos) (id : Nat) (byRef : Bool) (n : Node) : Shown (mismatched rec C q id byRef n) := by
  simp only [mismatched]
  split
  · exact shown_adjacent hC hrec q id n
  · exact shown_typeMismatch hC

theorem shown_objectDirect (keyCall : Key → Nat → Outcome) (hkey : ∀ k s, Shown (keyCall k s)) (f : Nat)
    (q : Pos) (id : Nat) (byRef : Bool) (n : Node) : Shown (objectDirect rec keyCall E C f q id byRef n) := by
  have ht := fun k => shown_typedView (E := E) hC hrec keyCall hkey q id n k
  simp only [objectDirect]
  split
  · split
    · split
      · exact ht _
      · exact shown_nothing
    · split
      · exact ht _
      · split
        · exact ht _
        · exact shown_mismatched hC hrec q id byRef n
    · split
      · exact ht _
      · exact shown_withKey q (shown_anyOfViews hC hrec keyCall hkey q id n _)
  · split
    · split
      · exact ht _
      · exact shown_withKey q (shown_oneOfOutcome hC hrec q n _)
    · split
      · exact ht _
      · exact shown_withKey q (shown_anyOfOutcome hC hrec q n _)
    · split
      · exact ht _
      · exact shown_withKey q (shown_allOfOutcome hC hrec q id n _)
    · exact ht _

theorem shown_objectResolved (keyCall : Key → Nat → Outcome) (hkey : ∀ k s, Shown (keyCall k s)) (f : Nat)
    (q : Pos) (id : Nat) (byRef : Bool) (n : Node) (o : Outcome)
    (h : objectResolved rec keyCall E C f q id byRef n = some o) : Shown o := by
  have hd := shown_objectDirect (E := E) hC hrec keyCall hkey f q id byRef n
  simp only [objectResolved] at h
  split at h
  · split at h
    · split at h
      · cases h
      · cases h; exact shown_nothing
    · split at h
      · cases h; exact shown_withLint hd
      · cases h; exact shown_mismatched hC hrec q id byRef n
    · cases h; exact shown_anyOfViews hC hrec keyCall hkey q id n _
  · split at h
    · cases h; exact shown_oneOfOutcome hC hrec q n _
    · cases h; exact shown_anyOfOutcome hC hrec q n _
    · cases h; exact shown_allOfOutcome hC hrec q id n _
    · cases h; exact shown_withLint hd

theorem shown_keyCallOf (f : Nat) (q : Pos) (k : Key) (s : Nat) : Shown (keyCallOf rec E C f q k s) := by
  simp only [keyCallOf]
  split
  · exact shown_direct hrec _ _
  · split
    · exact shown_withLint (shown_typedView hC hrec _ (fun _ _ => shown_ok) _ _ _ _)
    · exact shown_direct hrec _ _

theorem shown_step (f : Nat) : ShownRec (step E C f rec) := by
  intro route strict visits isKey path v id o h
  simp only [step] at h
  split at h
  · cases h
    apply shown_withLint
    split
    · exact shown_ok
    · exact shown_nothing
    · exact shown_objectDirect hC hrec _ (fun k s => shown_keyCallOf hC hrec f _ k s) f _ id _ _
  · split at h
    · cases h
    · split at h
      · cases h; exact shown_ok
      · cases h; exact shown_nothing
      · exact shown_objectResolved hC hrec _ (fun k s => shown_keyCallOf hC hrec f _ k s) f _ id _ _ o h

end

/-- Every failed assertion of the validator is shown by a diagnostic. -/
theorem shown_run (E : Env) {C : Ctx} (hC : AllOn C) : ∀ fuel, ShownRec (run E C fuel)
  | 0 => fun _ _ _ _ _ _ _ _ h => by cases h
  | fuel + 1 => shown_step hC (shown_run E hC fuel) fuel

end Tombi.Validate
