import Verif.Spec.Outline
import Verif.Proofs.Locate
/-! C87: the ranges of the document tree are nested. -/
namespace Tombi.Outline
open Tombi.Locate (le_iff le_refl' le_trans' le_antisymm' le_total')

variable {σ : Type}

/-! ### ranges -/

theorem Inside.refl (r : Range) : Inside r r := ⟨le_refl' _, le_refl' _⟩

theorem Inside.trans {a b c : Range} (h1 : Inside a b) (h2 : Inside b c) : Inside a c :=
  ⟨le_trans' h2.1 h1.1, le_trans' h1.2 h2.2⟩

/-- A proper range inside another one. -/
def Sub (a b : Range) : Prop := Proper a ∧ Inside a b

theorem Sub.trans {a b c : Range} (h1 : Sub a b) (h2 : Inside b c) : Sub a c := ⟨h1.1, h1.2.trans h2⟩

theorem min_left (a b : Position) : (Position.min a b).le a = true := by
  unfold Position.min; split
  · exact le_refl' _
  · next h => exact le_total' h
theorem min_right (a b : Position) : (Position.min a b).le b = true := by
  unfold Position.min; split
  · next h => exact h
  · exact le_refl' _
theorem max_left (a b : Position) : a.le (Position.maxOf a b) = true := by
  unfold Position.maxOf; split
  · next h => exact h
  · exact le_refl' _
theorem max_right (a b : Position) : b.le (Position.maxOf a b) = true := by
  unfold Position.maxOf; split
  · exact le_refl' _
  · next h => exact le_total' h
theorem le_min {a b c : Position} (h1 : c.le a = true) (h2 : c.le b = true) : c.le (Position.min a b) = true := by
  unfold Position.min; split <;> assumption
theorem max_le {a b c : Position} (h1 : a.le c = true) (h2 : b.le c = true) : (Position.maxOf a b).le c = true := by
  unfold Position.maxOf; split <;> assumption

theorem add_eq {a b : Range} (h : Proper a) : a.add b = ⟨Position.min a.start b.start, Position.maxOf a.stop b.stop⟩ := by
  unfold Range.add Range.new
  rw [if_pos (le_trans' (min_left _ _) (le_trans' h (max_left _ _)))]

theorem inside_left {a b : Range} (h : Proper a) : Inside a (a.add b) := by
  rw [add_eq h]; exact ⟨min_left _ _, max_left _ _⟩

theorem inside_right {a b : Range} (h : Proper a) : Inside b (a.add b) := by
  rw [add_eq h]; exact ⟨min_right _ _, max_right _ _⟩

theorem add_sub {a b c : Range} (h1 : Sub a c) (h2 : Inside b c) : Sub (a.add b) c := by
  rw [add_eq h1.1]
  exact ⟨le_trans' (min_left _ _) (le_trans' h1.1 (max_left _ _)), le_min h1.2.1 h2.1, max_le h1.2.2 h2.2⟩

/-! ### the invariant -/

def isTable : RValue σ → Prop
  | .table _ _ _ => True
  | _ => False

mutual
/-- The value and its parts lie inside `out`; arrays of tables contain their elements if `s`. -/
def laid (s : Bool) (out : Range) : RValue σ → Prop
  | .scalar r _ => Sub r out
  | .incomplete r => Sub r out
  | .table _ r es => Sub r out ∧ laidEntries s r es
  | .array k r vs => Sub r out ∧ (k = .array → laidAll s false r vs) ∧ (k = .arrayOfTable → laidAll s true (if s then r else out) vs) ∧
    (k = .parentArrayOfTable → s = false ∧ laidAll s true out vs)
/-- All of them do. -/
def laidAll (s tables : Bool) (out : Range) : List (RValue σ) → Prop
  | [] => True
  | v :: vs => (tables = true → isTable v) ∧ laid s out v ∧ laidAll s tables out vs
/-- The keys and values do. -/
def laidEntries (s : Bool) (out : Range) : List (RKey × RValue σ) → Prop
  | [] => True
  | (k, v) :: es => Sub k.range out ∧ laid s out v ∧ laidEntries s out es
end

theorem laid_sub {s : Bool} {out : Range} {v : RValue σ} (h : laid s out v) : Sub v.range out := by
  cases v with
  | scalar => exact h
  | incomplete => exact h
  | table => rw [laid] at h; exact h.1
  | array => rw [laid] at h; exact h.1

mutual
theorem laid_mono {s : Bool} {out out' : Range} (ho : Inside out out') : (v : RValue σ) → laid s out v → laid s out' v
  | .scalar _ _, h => Sub.trans h ho
  | .incomplete _, h => Sub.trans h ho
  | .table _ _ _, h => by
    rw [laid] at h ⊢
    exact ⟨h.1.trans ho, h.2⟩
  | .array k r vs, h => by
    rw [laid] at h ⊢
    refine ⟨h.1.trans ho, h.2.1, fun e => ?_, fun e => ⟨(h.2.2.2 e).1, laidAll_mono ho vs (h.2.2.2 e).2⟩⟩
    have := h.2.2.1 e
    cases s with
    | true => exact this
    | false => exact laidAll_mono ho vs this
theorem laidAll_mono {s tables : Bool} {out out' : Range} (ho : Inside out out') : (vs : List (RValue σ)) → laidAll s tables out vs →
    laidAll s tables out' vs
  | [], _ => by rw [laidAll]; trivial
  | v :: vs, h => by
    rw [laidAll] at h ⊢
    exact ⟨h.1, laid_mono ho v h.2.1, laidAll_mono ho vs h.2.2⟩
end

theorem laidEntries_mono {s : Bool} {out out' : Range} (ho : Inside out out') : (es : REntries σ) → laidEntries s out es →
    laidEntries s out' es
  | [], _ => by rw [laidEntries]; trivial
  | (k, v) :: es, h => by
    rw [laidEntries] at h ⊢
    exact ⟨h.1.trans ho, laid_mono ho v h.2.1, laidEntries_mono ho es h.2.2⟩

theorem laidEntries_append {s : Bool} {out : Range} : {e1 e2 : REntries σ} → laidEntries s out e1 → laidEntries s out e2 →
    laidEntries s out (e1 ++ e2)
  | [], _, _, h => h
  | (k, v) :: e1, e2, h1, h2 => by
    rw [laidEntries] at h1
    rw [List.cons_append, laidEntries]
    exact ⟨h1.1, h1.2.1, laidEntries_append h1.2.2 h2⟩

theorem laidAll_append {s t : Bool} {out : Range} : {e1 e2 : List (RValue σ)} → laidAll s t out e1 → laidAll s t out e2 →
    laidAll s t out (e1 ++ e2)
  | [], _, _, h => h
  | v :: e1, e2, h1, h2 => by
    rw [laidAll] at h1
    rw [List.cons_append, laidAll]
    exact ⟨h1.1, h1.2.1, laidAll_append h1.2.2 h2⟩

theorem laidAll_mem {s t : Bool} {out : Range} : {vs : List (RValue σ)} → laidAll s t out vs → ∀ v ∈ vs, (t = true → isTable v) ∧ laid s out v
  | [], _, _, h => by cases h
  | w :: vs, h, v, hv => by
    rw [laidAll] at h
    rcases List.mem_cons.1 hv with rfl | hv
    · exact ⟨h.1, h.2.1⟩
    · exact laidAll_mem h.2.2 v hv

theorem laidAll_of {s t : Bool} {out : Range} : {vs : List (RValue σ)} → (∀ v ∈ vs, (t = true → isTable v) ∧ laid s out v) → laidAll s t out vs
  | [], _ => by rw [laidAll]; trivial
  | w :: vs, h => by
    rw [laidAll]
    exact ⟨(h w List.mem_cons_self).1, (h w List.mem_cons_self).2, laidAll_of fun v hv => h v (List.mem_cons_of_mem _ hv)⟩

theorem laidEntries_get {s : Bool} {out : Range} {k : DKey} : {es : REntries σ} → {v : RValue σ} → laidEntries s out es → rget es k = some v →
    laid s out v
  | [], _, _, h => by cases h
  | (k', v') :: es, v, h, hg => by
    rw [laidEntries] at h
    rw [rget] at hg
    split at hg
    · cases hg; exact h.2.1
    · exact laidEntries_get h.2.2 hg

theorem laidEntries_set {s : Bool} {out : Range} {k : DKey} {v : RValue σ} (hv : laid s out v) : {es : REntries σ} → laidEntries s out es →
    laidEntries s out (rset es k v)
  | [], h => h
  | (k', v') :: es, h => by
    rw [laidEntries] at h
    rw [rset]
    split
    · rw [laidEntries]; exact ⟨h.1, hv, h.2.2⟩
    · rw [laidEntries]; exact ⟨h.1, h.2.1, laidEntries_set hv h.2.2⟩

/-- A value that is no array of tables. -/
def Plain : RValue σ → Prop
  | .array k _ _ => k = .array
  | _ => True

/-- They can be placed anew, since their parts lie inside them. -/
theorem laid_plain {s : Bool} {out out' : Range} {v : RValue σ} (hp : Plain v) (h : laid s out v) (ho : Inside v.range out') :
    laid s out' v := by
  cases v with
  | table k r es => rw [laid] at h ⊢; exact ⟨⟨h.1.1, ho⟩, h.2⟩
  | array k r vs =>
    rw [laid] at h ⊢
    have hp : k = .array := hp
    subst hp
    exact ⟨⟨h.1.1, ho⟩, h.2.1, (fun e => by cases e), (fun e => by cases e)⟩
  | scalar => rw [laid] at h ⊢; exact ⟨h.1, ho⟩
  | incomplete => rw [laid] at h ⊢; exact ⟨h.1, ho⟩

/-- Tables can be placed anew, since their parts lie inside them. -/
theorem laid_table {s : Bool} {out out' : Range} {v : RValue σ} (ht : isTable v) (h : laid s out v) (ho : Inside v.range out') :
    laid s out' v := by
  cases v with
  | table k r es => rw [laid] at h ⊢; exact ⟨⟨h.1.1, ho⟩, h.2⟩
  | _ => exact ht.elim

theorem push_proper {r : Range} (h : Proper r) (vs : List (RValue σ)) : Proper (pushRanges r vs) := by
  induction vs generalizing r with
  | nil => exact h
  | cons v vs ih =>
    refine ih (r := r.add v.range) ?_
    rw [add_eq h]
    exact le_trans' (min_left _ _) (le_trans' h (max_left _ _))

theorem push_left {r : Range} (h : Proper r) (vs : List (RValue σ)) : Inside r (pushRanges r vs) := by
  induction vs generalizing r with
  | nil => exact Inside.refl r
  | cons v vs ih =>
    exact (inside_left (b := v.range) h).trans (ih (r := r.add v.range) (push_proper h [v]))

theorem push_mem {r : Range} (h : Proper r) {vs : List (RValue σ)} : ∀ v ∈ vs, Inside v.range (pushRanges r vs) := by
  induction vs generalizing r with
  | nil => intro v hv; cases hv
  | cons w vs ih =>
    intro v hv
    rcases List.mem_cons.1 hv with rfl | hv
    · exact (inside_right h).trans (push_left (r := r.add v.range) (push_proper h [v]) vs)
    · exact ih (r := r.add w.range) (push_proper h [w]) v hv

theorem push_sub {r out : Range} (h : Sub r out) {vs : List (RValue σ)} (hv : ∀ v ∈ vs, Inside v.range out) : Sub (pushRanges r vs) out := by
  induction vs generalizing r with
  | nil => exact h
  | cons w vs ih =>
    exact ih (add_sub h (hv w List.mem_cons_self)) fun v h => hv v (List.mem_cons_of_mem _ h)

/-! ### merging -/

theorem merge_isTable (key : DKey) (k1 : TableKind) (r1 : Range) (e1 : REntries σ) (v2 : RValue σ) :
    isTable (rmergeValue key (.table k1 r1 e1) v2).1 := by
  cases v2 with
  | table k2 r2 e2 => rw [rmergeValue]; split <;> trivial
  | array k2 r2 e2 => simp only [rmergeValue]; trivial
  | scalar => rw [rmergeValue]; trivial
  | incomplete => rw [rmergeValue]; trivial

theorem last_table {r1 r2 r : Range} {vs1 : List (RValue σ)} {k1 k2 : TableKind} {e1 e2 : REntries σ}
    (hl : vs1.getLast? = some (.table k1 r e1)) : rmergeLast r1 vs1 [.table k2 r2 e2] =
      ((r1, vs1.dropLast ++ [(rmergeValue [] (.table k1 r e1) (.table k2 r2 e2)).1]), (rmergeValue [] (.table k1 r e1) (.table k2 r2 e2)).2) := by
  rw [rmergeLast]
  exact hl

theorem last_push {r1 r2 : Range} {vs1 : List (RValue σ)} {k2 : TableKind} {e2 : REntries σ}
    (hl : ∀ v, vs1.getLast? = some v → ¬ isTable v) : rmergeLast r1 vs1 [.table k2 r2 e2] = ((r1.add r2, vs1 ++ [.table k2 r2 e2]), []) := by
  rw [rmergeLast.eq_3]
  intro k1 r e1 he
  exact hl _ he trivial

mutual
theorem entries_laid {s : Bool} {out : Range} : (e2 e1 : REntries σ) → laidEntries s out e1 → laidEntries s out e2 →
    laidEntries s out (rmergeEntries e1 e2).1
  | [], e1, h1, _ => by rw [rmergeEntries]; exact h1
  | (k, v2) :: rest, e1, h1, h2 => by
    rw [laidEntries] at h2
    rw [rmergeEntries]
    split
    · next v1 hg =>
      exact entries_laid rest _ (laidEntries_set (value_laid v2 k.text v1 (laidEntries_get h1 hg) h2.2.1) h1) h2.2.2
    · refine entries_laid rest _ (laidEntries_append h1 ?_) h2.2.2
      rw [laidEntries, laidEntries]
      exact ⟨h2.1, h2.2.1, trivial⟩
theorem value_laid {s : Bool} {out : Range} : (v2 : RValue σ) → (key : DKey) → (v1 : RValue σ) → laid s out v1 → laid s out v2 →
    laid s out (rmergeValue key v1 v2).1
  | .table k2 r2 e2, key, v1, h1, h2 => by
    cases v1 with
    | table k1 r1 e1 =>
      rw [rmergeValue]
      rw [laid] at h1 h2
      split
      · rw [laid]; exact h1
      · rw [laid]
        exact ⟨add_sub h1.1 h2.1.2, entries_laid e2 e1 (laidEntries_mono (inside_left h1.1.1) _ h1.2)
          (laidEntries_mono (inside_right h1.1.1) _ h2.2)⟩
    | array => simp only [rmergeValue]; exact h1
    | scalar => simp only [rmergeValue]; exact h1
    | incomplete => simp only [rmergeValue]; exact h1
  | .array a2 r2 vs2, key, v1, h1, h2 => by
    cases v1 with
    | array a1 r1 vs1 =>
      rw [rmergeValue]
      split
      · next hk =>
        rw [laid] at h1 h2
        have h1 : Sub r1 out ∧ _ := h1
        cases a2 with
        | array => exact absurd rfl hk.2
        | parentArrayOfTable =>
          obtain ⟨hs, h2'⟩ := h2.2.2.2 rfl
          subst hs
          have h1' : laidAll false true out vs1 := by
            cases a1 with
            | array => exact absurd rfl hk.1
            | arrayOfTable => exact h1.2.2.1 rfl
            | parentArrayOfTable => exact (h1.2.2.2 rfl).2
          rw [if_pos rfl]
          obtain ⟨p, q⟩ := last_laid vs2 r1 vs1 h1.1 h1' h2'
          show laid false out (.array a1 (rmergeLast r1 vs1 vs2).1.1 (rmergeLast r1 vs1 vs2).1.2)
          rw [laid]
          exact ⟨p, fun e => absurd e hk.1, fun _ => q, fun _ => ⟨rfl, q⟩⟩
        | arrayOfTable =>
          rw [if_neg (by decide), laid]
          have h2' := h2.2.2.1 rfl
          have hin : ∀ v ∈ vs2, Inside v.range out := by
            intro v hv
            have hv := laid_sub (laidAll_mem h2' v hv).2
            cases s with
            | true => exact hv.2.trans h2.1.2
            | false => exact hv.2
          refine ⟨push_sub h1.1 hin, fun e => absurd e hk.1, fun e => ?_, fun e => ?_⟩
          · have h1' := h1.2.2.1 e
            cases s with
            | false => exact laidAll_append h1' h2'
            | true =>
              refine laidAll_append (laidAll_mono (push_left h1.1.1 _) _ h1') (laidAll_of fun v hv => ?_)
              have hm := laidAll_mem h2' v hv
              exact ⟨hm.1, laid_table (hm.1 rfl) hm.2 (push_mem h1.1.1 v hv)⟩
          · obtain ⟨hs, h1'⟩ := h1.2.2.2 e
            subst hs
            exact ⟨rfl, laidAll_append h1' h2'⟩
      · exact h1
    | table => simp only [rmergeValue]; exact h1
    | scalar => simp only [rmergeValue]; exact h1
    | incomplete => simp only [rmergeValue]; exact h1
  | .scalar _ _, _, _, h1, _ => by rw [rmergeValue]; exact h1
  | .incomplete _, _, _, h1, _ => by rw [rmergeValue]; exact h1
theorem last_laid {out : Range} : (vs2 : List (RValue σ)) → (r1 : Range) → (vs1 : List (RValue σ)) → Sub r1 out → laidAll false true out vs1 →
    laidAll false true out vs2 → Sub (rmergeLast r1 vs1 vs2).1.1 out ∧ laidAll false true out (rmergeLast r1 vs1 vs2).1.2
  | [], r1, vs1, hr, h1, _ => by rw [rmergeLast]; exact ⟨hr, h1⟩
  | [v2], r1, vs1, hr, h1, h2 => by
    rw [laidAll] at h2
    have hadd : ∀ k2 r2 e2, v2 = .table k2 r2 e2 →
        Sub (r1.add r2) out ∧ laidAll false true out (vs1 ++ [.table k2 r2 e2]) := by
      rintro k2 r2 e2 rfl
      refine ⟨add_sub hr (laid_sub h2.2.1).2, laidAll_append h1 ?_⟩
      rw [laidAll, laidAll]
      exact ⟨fun _ => trivial, h2.2.1, trivial⟩
    cases v2 with
    | table k2 r2 e2 =>
      by_cases hl : ∃ k1 r e1, vs1.getLast? = some (.table k1 r e1)
      · obtain ⟨k1, r, e1, hl⟩ := hl
        rw [last_table hl]
        refine ⟨hr, laidAll_append (laidAll_of fun v hv => laidAll_mem h1 v ((List.dropLast_sublist _).mem hv)) ?_⟩
        rw [laidAll, laidAll]
        have hm := laidAll_mem h1 _ (List.mem_of_getLast? hl)
        exact ⟨fun _ => merge_isTable _ _ _ _ _, value_laid (.table k2 r2 e2) [] _ hm.2 h2.2.1, trivial⟩
      · rw [last_push]
        · exact hadd _ _ _ rfl
        · intro v hv ht
          cases v with
          | table k1 r e1 => exact hl ⟨k1, r, e1, hv⟩
          | _ => exact ht
    | array => simp only [rmergeLast]; exact ⟨hr, h1⟩
    | scalar => simp only [rmergeLast]; exact ⟨hr, h1⟩
    | incomplete => simp only [rmergeLast]; exact ⟨hr, h1⟩
  | _ :: v :: rest, r1, vs1, hr, h1, h2 => by
    rw [laidAll] at h2
    rw [rmergeLast]
    exact last_laid (v :: rest) r1 vs1 hr h1 h2.2.2
end

theorem merge_value (a b : RTable σ) : (a.merge b).1.value = (rmergeValue [] a.value b.value).1 := by
  unfold RTable.merge RTable.value
  rw [rmergeValue]
  split <;> rfl

theorem merge_grows {a b : RTable σ} (h : Proper a.range) : Inside a.range (a.merge b).1.range := by
  unfold RTable.merge
  split
  · exact Inside.refl _
  · exact inside_left h

/-! ### the tree of a document -/

theorem insert_nil (k : RKey) (v : RValue σ) : rinsertEntry [] k v = .ok [(k, v)] := rfl

theorem laid_one {s : Bool} {out : Range} {k : RKey} {v : RValue σ} (hk : Sub k.range out) (hv : laid s out v) : laidEntries s out [(k, v)] := by
  rw [laidEntries, laidEntries]; exact ⟨hk, hv, trivial⟩

theorem follow_append {out : Range} {a b : List RKey} {p : Position} (h : KeysFollow out (a ++ b) p) :
    ∃ q, KeysFollow out a q ∧ KeysFollow ⟨q, out.stop⟩ b p := by
  induction a generalizing out with
  | nil => exact ⟨out.start, le_refl' _, h⟩
  | cons k a ih =>
    rw [List.cons_append, KeysFollow] at h
    obtain ⟨q, hq, hb⟩ := ih h.2.2
    exact ⟨q, ⟨h.1, h.2.1, hq⟩, hb⟩

theorem follow_start {out : Range} {a : List RKey} {p : Position} (h : KeysFollow out a p) : out.start.le p = true := by
  induction a generalizing out with
  | nil => exact h
  | cons k a ih => exact le_trans' h.1 (le_trans' h.2.1 (ih h.2.2))

theorem follow_later {out : Range} {a : List RKey} {p q : Position} (h : KeysFollow out a p) (hq : p.le q = true) : KeysFollow out a q := by
  induction a generalizing out with
  | nil => exact le_trans' h hq
  | cons k a ih => exact ⟨h.1, h.2.1, ih h.2.2⟩

theorem parents_laid {s : Bool} {out : Range} (parents : List RKey) (acc : RTable σ × List DError) (h : laid s out acc.1.value)
    (hf : KeysFollow out parents.reverse acc.1.range.start) :
    laid s out (parents.foldl (fun (acc : RTable σ × List DError) key =>
        match rinsertEntry [] key acc.1.value with
        | .ok e => (⟨.parentKey, Range.new key.range.start acc.1.range.stop, e⟩, acc.2)
        | .error errs => (acc.1, acc.2 ++ errs)) acc).1.value := by
  induction parents generalizing acc with
  | nil => exact h
  | cons key parents ih =>
    rw [List.reverse_cons] at hf
    obtain ⟨q, hq, hk⟩ := follow_append hf
    rw [KeysFollow, KeysFollow] at hk
    obtain ⟨h1, h2, h3⟩ := hk
    have hs : Sub acc.1.range out := laid_sub h
    have hr : Range.new key.range.start acc.1.range.stop = ⟨key.range.start, acc.1.range.stop⟩ := by
      unfold Range.new
      rw [if_pos (le_trans' h2 (le_trans' h3 hs.1))]
    refine ih _ ?_ ?_
    · simp only [insert_nil, hr]
      have hin : Inside acc.1.range ⟨key.range.start, acc.1.range.stop⟩ := ⟨le_trans' h2 h3, le_refl' _⟩
      show laid s out (.table .parentKey _ _)
      rw [laid]
      refine ⟨⟨le_trans' h2 (le_trans' h3 hs.1), le_trans' (follow_start hq) h1, hs.2.2⟩, laid_one ⟨h2, le_refl' _, le_trans' h3 hs.1⟩ ?_⟩
      exact laid_table (v := acc.1.value) trivial h hin
    · simp only [insert_nil, hr]
      show KeysFollow out parents.reverse key.range.start
      exact follow_later hq h1

theorem keyValue_laid {s : Bool} {range : Range} {keys : List RKey} {v : RValue σ} {p : Position} (hr : Proper range)
    (hf : KeysFollow range keys p) (hpl : Plain v)
    (hv : laid s ⟨p, range.stop⟩ v) : laid s range (rkeyValueTable range keys v).1.value := by
  have empty : laid s range (RTable.value (⟨.keyValue, range, []⟩ : RTable σ)) := by
    show laid s range (.table _ _ _)
    rw [laid, laidEntries]; exact ⟨⟨hr, Inside.refl _⟩, trivial⟩
  unfold rkeyValueTable
  split
  · exact empty
  · next last parents he =>
    simp only [insert_nil]
    have hk : keys = parents.reverse ++ [last] := by rw [← List.reverse_reverse keys, he, List.reverse_cons]
    rw [hk] at hf
    obtain ⟨q, hq, hl⟩ := follow_append hf
    rw [KeysFollow, KeysFollow] at hl
    obtain ⟨h1, h2, h3⟩ := hl
    have hs := laid_sub hv
    have hp : p.le range.stop = true := le_trans' hs.2.1 (le_trans' hs.1 hs.2.2)
    have hlast : Sub last.range range := ⟨h2, le_trans' (follow_start hq) h1, le_trans' h3 hp⟩
    have hp' : Inside ⟨p, range.stop⟩ range := ⟨le_trans' hlast.2.1 (le_trans' h2 h3), le_refl' _⟩
    refine parents_laid _ _ ?_ ?_
    · show laid s range (.table .keyValue (last.range.add v.range) [(last, v)])
      rw [laid]
      refine ⟨add_sub hlast (hs.2.trans hp'), laid_one ⟨h2, inside_left h2⟩ ?_⟩
      exact laid_plain hpl hv (inside_right h2)
    · show KeysFollow range parents.reverse (last.range.add v.range).start
      rw [add_eq h2]
      show KeysFollow range parents.reverse (Position.min last.range.start v.range.start)
      exact follow_later hq (le_min h1 (le_trans' h1 (le_trans' h2 (le_trans' h3 hs.2.1))))

theorem value_plain : (v : RAstValue σ) → Plain v.tree.1
  | .scalar _ _ => by rw [RAstValue.tree]; trivial
  | .bad _ => by rw [RAstValue.tree]; trivial
  | .array _ _ => by rw [RAstValue.tree]; rfl
  | .inlineTable _ _ => by rw [RAstValue.tree]; trivial

theorem laid_empty {s : Bool} {out r : Range} {k : TableKind} (h : Sub r out) : laid s out (RTable.value (⟨k, r, []⟩ : RTable σ)) := by
  show laid s out (.table _ _ _)
  rw [laid, laidEntries]; exact ⟨h, trivial⟩

theorem table_merge_laid {s : Bool} {out : Range} {a b : RTable σ} (ha : laid s out a.value) (hb : laid s out b.value) :
    laid s out (a.merge b).1.value := by
  rw [merge_value]; exact value_laid _ _ _ ha hb

mutual
theorem astValue_laid {s : Bool} {out : Range} : (v : RAstValue σ) → v.Placed out → laid s out v.tree.1
  | .scalar r _, h => by rw [RAstValue.Placed] at h; rw [RAstValue.tree, laid]; exact h
  | .bad r, h => by rw [RAstValue.Placed] at h; rw [RAstValue.tree, laid]; exact h
  | .array r items, h => by
    rw [RAstValue.Placed] at h
    rw [RAstValue.tree]
    show laid s out (.array .array _ _)
    rw [laid]
    have hi := astItems_laid (s := s) items h.2
    have hin : ∀ v ∈ (rarrayTrees items).1, Inside v.range r := fun v hv => (laid_sub (laidAll_mem hi v hv).2).2
    exact ⟨(push_sub ⟨h.1.1, Inside.refl r⟩ hin).trans h.1.2, (fun _ => laidAll_mono (push_left h.1.1 _) _ hi), (fun e => by cases e), (fun e => by cases e)⟩
  | .inlineTable r kvs, h => by
    rw [RAstValue.Placed] at h
    rw [RAstValue.tree]
    have hk := astKeyValues_laid (s := s) (out := r) kvs ⟨.table, r, []⟩ (laid_empty ⟨h.1.1, Inside.refl _⟩) h.2
    have hk : laid s r (.table _ _ _) := hk
    show laid s out (.table .inlineTable _ _)
    rw [laid] at hk ⊢
    exact ⟨hk.1.trans h.1.2, hk.2⟩
theorem astItems_laid {s : Bool} {out : Range} : (is : List (RAstItem σ)) → ItemsPlaced out is → laidAll s false out (rarrayTrees is).1
  | [], _ => by rw [rarrayTrees, laidAll]; trivial
  | i :: is, h => by
    rw [ItemsPlaced] at h
    rw [rarrayTrees]
    show laidAll s false out (i.tree.1 :: (rarrayTrees is).1)
    rw [laidAll]
    exact ⟨(fun e => by cases e), astItem_laid i h.1, astItems_laid is h.2⟩
theorem astItem_laid {s : Bool} {out : Range} : (i : RAstItem σ) → i.Placed out → laid s out i.tree.1
  | .value v, h => by rw [RAstItem.Placed] at h; rw [RAstItem.tree]; exact astValue_laid v h
  | .keyValue kv, h => by rw [RAstItem.Placed] at h; rw [RAstItem.tree]; exact astKeyValue_laid kv h
theorem astKeyValue_laid {s : Bool} {out : Range} : (kv : RAstKeyValue σ) → kv.Placed out → laid s out kv.tree.1.value
  | .mk range none value, h => by
    rw [RAstKeyValue.Placed] at h
    rw [RAstKeyValue.tree]
    exact laid_empty h.1
  | .mk range (some keys) none, h => by
    rw [RAstKeyValue.Placed] at h
    obtain ⟨h1, p, hf, hp, -⟩ := h
    rw [RAstKeyValue.tree]
    refine laid_mono h1.2 _ (keyValue_laid h1.1 hf trivial ?_)
    rw [laid]; exact ⟨le_refl' _, hp, le_refl' _⟩
  | .mk range (some keys) (some v), h => by
    rw [RAstKeyValue.Placed] at h
    obtain ⟨h1, p, hf, hp, hv⟩ := h
    rw [OptPlaced] at hv
    rw [RAstKeyValue.tree]
    exact laid_mono h1.2 _ (keyValue_laid h1.1 hf (value_plain v) (astValue_laid v hv))
theorem astKeyValues_laid {s : Bool} {out : Range} : (kvs : List (RAstKeyValue σ)) → (t : RTable σ) → laid s out t.value →
    KeyValuesPlaced out kvs → laid s out (rmergeKeyValues t kvs).1.value
  | [], t, ht, _ => by rw [rmergeKeyValues]; exact ht
  | kv :: kvs, t, ht, h => by
    rw [KeyValuesPlaced] at h
    rw [rmergeKeyValues]
    exact astKeyValues_laid kvs _ (table_merge_laid ht (astKeyValue_laid kv h.1)) h.2
end

theorem keyValues_grow : (kvs : List (RAstKeyValue σ)) → (t : RTable σ) → Proper t.range → Inside t.range (rmergeKeyValues t kvs).1.range
  | [], t, _ => by rw [rmergeKeyValues]; exact Inside.refl _
  | kv :: kvs, t, h => by
    rw [rmergeKeyValues]
    have hg := merge_grows (b := kv.tree.1) h
    refine hg.trans (keyValues_grow kvs _ ?_)
    exact le_trans' hg.1 (le_trans' h hg.2)

theorem insertTable_laid {s : Bool} {t : RTable σ} {key : RKey} (ht : laid s t.range t.value) (hk : Sub key.range t.range) :
    laid s t.range (rinsertTable t key).1.value ∧ (rinsertTable t key).1.range = t.range := by
  refine ⟨?_, rfl⟩
  show laid s t.range (.table .parentTable t.range [(key, t.value)])
  rw [laid]
  exact ⟨laid_sub ht, laid_one hk ht⟩

theorem insertArray_laid {s : Bool} {t : RTable σ} {key : RKey} {kind : ArrayKind} (ht : laid s t.range t.value) (hk : Sub key.range t.range)
    (ha : kind ≠ .array) (hs : s = true → kind ≠ .parentArrayOfTable) :
    laid s t.range (rinsertArrayOfTables t key kind).1.value ∧ (rinsertArrayOfTables t key kind).1.range = t.range := by
  refine ⟨?_, rfl⟩
  have hp : Proper t.range := (laid_sub ht).1
  have hr : Sub (pushRanges t.range [t.value]) t.range := push_sub ⟨hp, Inside.refl _⟩ (by
    intro v hv; rw [List.mem_singleton.1 hv]; exact Inside.refl _)
  have hin : Inside t.value.range (pushRanges t.range [t.value]) := push_mem hp _ (by simp)
  have one : ∀ out, Inside t.range out → laidAll s true out [t.value] := by
    intro out ho
    rw [laidAll, laidAll]
    exact ⟨fun _ => trivial, laid_mono ho _ ht, trivial⟩
  show laid s t.range (.table .parentTable t.range [(key, .array kind (pushRanges t.range [t.value]) [t.value])])
  rw [laid]
  refine ⟨laid_sub ht, laid_one hk ?_⟩
  rw [laid]
  refine ⟨hr, fun e => absurd e ha, fun e => ?_, fun e => ?_⟩
  · cases s with
    | true => exact one _ hin
    | false => exact one _ (Inside.refl _)
  · cases s with
    | true => exact absurd e (hs rfl)
    | false => exact ⟨rfl, one _ (Inside.refl _)⟩

theorem nest_laid {s : Bool} {arrays : List (List DKey)} : (keys : List RKey) → (isArray : Bool) → (t : RTable σ) → laid s t.range t.value →
    (∀ k ∈ keys, Sub k.range t.range) → (s = true → isArray = false) →
    (s = true → ∀ a k b, keys = a ++ k :: b → arrays.contains (b.reverse.map RKey.text) = false) →
    laid s t.range (rnestHeader arrays keys isArray t).1.value
  | [], _, t, ht, _, _, _ => by rw [rnestHeader]; exact ht
  | key :: rest, isArray, t, ht, hk, hi, ha => by
    rw [rnestHeader]
    have step : laid s t.range (if isArray then rinsertArrayOfTables t key .parentArrayOfTable else rinsertTable t key).1.value ∧
        (if isArray then rinsertArrayOfTables t key .parentArrayOfTable else rinsertTable t key).1.range = t.range := by
      cases isArray with
      | true =>
        exact insertArray_laid ht (hk key List.mem_cons_self) (by decide) (fun h => absurd (hi h) (by decide))
      | false => exact insertTable_laid ht (hk key List.mem_cons_self)
    have := nest_laid (arrays := arrays) rest (arrays.contains (rest.reverse.map RKey.text)) _ (step.2.symm ▸ step.1)
      (fun k hm => by rw [step.2]; exact hk k (List.mem_cons_of_mem _ hm)) (fun h => ha h [] key rest rfl)
      (fun h a k b e => ha h (key :: a) k b (by rw [e]; rfl))
    rwa [step.2] at this

theorem section_laid {s : Bool} {out : Range} {prev : List (RAstSection σ)} {x : RAstSection σ} (h : x.Placed out)
    (hs : s = true → ∀ hd, x.header = some hd → ∀ a k b, hd.map RKey.text = a ++ k :: b → (rparentArrayKeys prev (hd.map RKey.text)).contains a = false) :
    laid s out (x.tree prev).1.value := by
  obtain ⟨hr, hh, hkv⟩ := h
  unfold RAstSection.tree
  split
  · exact laid_empty hr
  · next header he =>
    have hbody := astKeyValues_laid (s := s) (out := x.range) x.kvs ⟨.table, x.range, []⟩ (laid_empty ⟨hr.1, Inside.refl _⟩) hkv
    have hgrow := keyValues_grow x.kvs ⟨.table, x.range, []⟩ hr.1
    generalize hb : (rmergeKeyValues ⟨.table, x.range, []⟩ x.kvs) = body at hbody hgrow
    have hown : laid s body.1.range body.1.value := laid_table (v := body.1.value) trivial hbody (Inside.refl _)
    have hkeys : ∀ k ∈ header, Sub k.range body.1.range := fun k hk => ⟨(hh _ he k hk).1, (hh _ he k hk).2.trans hgrow⟩
    have hfin : Inside body.1.range out := (laid_sub hbody).2.trans hr.2
    have hpre : s = true → ∀ a k b, header.reverse = a ++ k :: b →
        (rparentArrayKeys prev (header.map RKey.text)).contains (b.reverse.map RKey.text) = false := by
      intro h a k b e
      refine hs h header he _ k.text (a.reverse.map RKey.text) ?_
      rw [← List.reverse_reverse header, e]
      simp
    split
    · split
      · exact laid_mono hr.2 _ hbody
      · next key rest hrev =>
        have hmem : ∀ k ∈ key :: rest, k ∈ header := fun k hk => by rw [← hrev] at hk; exact List.mem_reverse.1 hk
        have h1 := insertArray_laid (kind := .arrayOfTable) hown (hkeys key (hmem key List.mem_cons_self)) (by decide) (fun _ => by decide)
        have := nest_laid (s := s) (arrays := rparentArrayKeys prev (header.map RKey.text)) rest
          ((rparentArrayKeys prev (header.map RKey.text)).contains (rest.reverse.map RKey.text)) _ (h1.2.symm ▸ h1.1)
          (fun k hm => by rw [h1.2]; exact hkeys k (hmem k (List.mem_cons_of_mem _ hm)))
          (fun h => hpre h [] key rest (by rw [hrev]; rfl)) (fun h a k b e => hpre h (key :: a) k b (by rw [hrev, e]; rfl))
        rw [h1.2] at this
        exact laid_mono hfin _ this
    · exact laid_mono hfin _ (nest_laid _ _ _ hown (fun k hk => hkeys k (List.mem_reverse.1 hk)) (fun _ => rfl) hpre)

theorem sections_laid {s : Bool} {out : Range} : (sections : List (RAstSection σ)) → (prev : List (RAstSection σ)) → (t : RTable σ) →
    laid s out t.value → (∀ x ∈ sections, x.Placed out) →
    (s = true → ∀ pre x post, sections = pre ++ x :: post → ∀ hd, x.header = some hd → ∀ a k b, hd.map RKey.text = a ++ k :: b →
      (rparentArrayKeys (pre.reverse ++ prev) (hd.map RKey.text)).contains a = false) →
    laid s out (rmergeSections prev t sections).1.value
  | [], _, t, ht, _, _ => by rw [rmergeSections]; exact ht
  | x :: rest, prev, t, ht, hp, hs => by
    rw [rmergeSections]
    refine sections_laid rest (x :: prev) _ (table_merge_laid ht (section_laid (hp x List.mem_cons_self) ?_))
      (fun y hy => hp y (List.mem_cons_of_mem _ hy)) ?_
    · intro h hd he
      exact hs h [] x rest rfl hd he
    · intro h pre y post e hd he
      have := hs h (x :: pre) y post (by rw [e]; rfl) hd he
      rwa [List.reverse_cons, List.append_assoc] at this

theorem none_below {sections : List (RAstSection σ)} (h : NoneBelow sections) (pre : List (RAstSection σ)) (x : RAstSection σ)
    (post : List (RAstSection σ)) (e : sections = pre ++ x :: post) (hd : List RKey) (he : x.header = some hd) (a : List DKey) (k : DKey)
    (b : List DKey) (hab : hd.map RKey.text = a ++ k :: b) : (rparentArrayKeys (pre.reverse ++ []) (hd.map RKey.text)).contains a = false := by
  cases hc : (rparentArrayKeys (pre.reverse ++ []) (hd.map RKey.text)).contains a with
  | false => rfl
  | true =>
    rw [List.contains_iff_mem] at hc
    unfold rparentArrayKeys at hc
    have hc := (List.mem_filter.1 hc).1
    have hc := (List.takeWhile_sublist _).mem hc
    obtain ⟨y, hy, hya⟩ := List.mem_filterMap.1 hc
    split at hya
    · next hya' =>
      rw [Option.map_eq_some_iff] at hya
      obtain ⟨hdy, hy1, rfl⟩ := hya
      rw [List.append_nil, List.mem_reverse] at hy
      exact absurd ⟨k, b, hab⟩ (h pre x post e y hy hya' hdy hd hy1 he)
    · cases hya

theorem root_laid {s : Bool} {root : RAstRoot σ} (h : root.Placed) (hs : s = true → NoneBelow root.sections) :
    laid s root.range root.tree.1.value := by
  obtain ⟨hr, hkv, hsec⟩ := h
  unfold RAstRoot.tree
  refine sections_laid root.sections [] _ ?_ hsec (fun h => none_below (hs h))
  exact astKeyValues_laid _ _ (laid_empty ⟨hr, Inside.refl _⟩) hkv

end Tombi.Outline
