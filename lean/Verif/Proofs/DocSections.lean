import Verif.Proofs.DocValues

/-! The trees of sections, and where their places are in the document. -/
namespace Tombi
open Spec (Step Path child lookup nodeAt nodeOf below kvsNodes wayNodes enter resolve named sectionPath openedAfter)

variable {σ : Type}

/-- The tree of a section, from the first key on. -/
def spineTree (b : DValue σ) : List (DKey × Option ArrayKind) → DValue σ
  | [] => b
  | (k, none) :: l => .table .parentTable [(k, spineTree b l)]
  | (k, some a) :: l => .table .parentTable [(k, .array a [spineTree b l])]

/-- The place of the table of the section in that tree. -/
def spinePath : List (DKey × Option ArrayKind) → Path
  | [] => []
  | (k, none) :: l => .key k :: spinePath l
  | (k, some _) :: l => .key k :: .index 0 :: spinePath l

/-- How the keys of a header are nested. -/
def headerFlags (arrays : List (List DKey)) (done : List DKey) : List DKey → List (DKey × Option ArrayKind)
  | [] => []
  | k :: ks => (k, if arrays.contains (done ++ [k]) then some .parentArrayOfTable else none) ::
      headerFlags arrays (done ++ [k]) ks

theorem headerFlags_append (arrays : List (List DKey)) (done ks : List DKey) (k : DKey) :
    headerFlags arrays done (ks ++ [k]) = headerFlags arrays done ks ++
      [(k, if arrays.contains (done ++ ks ++ [k]) then some .parentArrayOfTable else none)] := by
  induction ks generalizing done with
  | nil => simp [headerFlags]
  | cons a ks ih =>
    rw [List.cons_append, headerFlags, headerFlags, ih, List.cons_append]
    simp

theorem spineTree_append (b : DValue σ) (l1 l2 : List (DKey × Option ArrayKind)) :
    spineTree b (l1 ++ l2) = spineTree (spineTree b l2) l1 := by
  induction l1 with
  | nil => rfl
  | cons x l1 ih =>
    obtain ⟨k, o⟩ := x
    cases o <;> rw [List.cons_append, spineTree, spineTree, ih]

theorem nestHeader_spec (arrays : List (List DKey)) (ks : List DKey) (t : DTable σ) :
    (nestHeader arrays ks.reverse (arrays.contains ks) t).2 = [] ∧
    (nestHeader arrays ks.reverse (arrays.contains ks) t).1.value = spineTree t.value (headerFlags arrays [] ks) := by
  generalize hr : ks.reverse = rs
  induction rs generalizing ks t with
  | nil =>
    have : ks = [] := by simpa using hr
    subst this
    exact ⟨rfl, rfl⟩
  | cons k rs ih =>
    have hk : ks = rs.reverse ++ [k] := by
      have := congrArg List.reverse hr
      simpa using this
    rw [hk, headerFlags_append, spineTree_append, nestHeader]
    simp only [List.nil_append]
    by_cases hc : arrays.contains (rs.reverse ++ [k]) = true
    · simp only [if_pos hc]
      exact ih rs.reverse ⟨.parentTable, [(k, .array .parentArrayOfTable [t.value])]⟩ (by simp)
    · simp only [if_neg hc]
      exact ih rs.reverse ⟨.parentTable, [(k, t.value)]⟩ (by simp)

/-- How the header of a section is nested. -/
def sectionFlags (arrays : List (List DKey)) (isArray : Bool) (ks : List DKey) (last : DKey) :
    List (DKey × Option ArrayKind) :=
  headerFlags arrays [] ks ++ [(last, if isArray then some .arrayOfTable else none)]

theorem section_tree (prev : List (AstSection σ)) (s : AstSection σ) (ks : List DKey) (last : DKey)
    (h : s.header = some (ks ++ [last])) :
    (s.tree prev).2 = (mergeKeyValues ⟨.table, []⟩ s.kvs).2 ∧
    (s.tree prev).1.value = spineTree (mergeKeyValues ⟨.table, []⟩ s.kvs).1.value
      (sectionFlags (parentArrayKeys prev (ks ++ [last])) s.isArray ks last) := by
  unfold AstSection.tree sectionFlags
  rw [h, spineTree_append]
  simp only []
  cases hs : s.isArray with
  | true =>
    simp only [if_true, List.reverse_append, List.reverse_singleton, List.singleton_append, List.reverse_reverse]
    have := nestHeader_spec (parentArrayKeys prev (ks ++ [last])) ks
      (insertArrayOfTables (mergeKeyValues ⟨.table, []⟩ s.kvs).1 last .arrayOfTable).1
    rw [this.1, this.2]
    exact ⟨by rw [List.append_nil]; exact List.append_nil _, rfl⟩
  | false =>
    simp only [Bool.false_eq_true, if_false, List.reverse_append, List.reverse_singleton, List.singleton_append]
    rw [nestHeader]
    simp only [Bool.false_eq_true, if_false, List.reverse_reverse]
    have := nestHeader_spec (parentArrayKeys prev (ks ++ [last])) ks
      (insertTable (mergeKeyValues ⟨.table, []⟩ s.kvs).1 last).1
    rw [this.1, this.2]
    exact ⟨by rw [List.append_nil]; exact List.append_nil _, rfl⟩

/-- Arrays of tables on the way stand for their last element, except at the end. -/
def SpineOk : List (DKey × Option ArrayKind) → Prop
  | [] => True
  | (_, none) :: l => SpineOk l
  | (_, some a) :: l => (a = if l = [] then ArrayKind.arrayOfTable else ArrayKind.parentArrayOfTable) ∧ SpineOk l

theorem headerFlags_ok (arrays : List (List DKey)) (done ks : List DKey) (last : DKey) (o : Option ArrayKind)
    (ho : o = none ∨ o = some .arrayOfTable) : SpineOk (headerFlags arrays done ks ++ [(last, o)]) := by
  induction ks generalizing done with
  | nil =>
    rcases ho with rfl | rfl
    · exact trivial
    · exact ⟨rfl, trivial⟩
  | cons k ks ih =>
    rw [headerFlags, List.cons_append]
    split
    · exact ⟨by rw [if_neg (by simp)], ih _⟩
    · exact ih _

theorem sectionFlags_ok (arrays : List (List DKey)) (isArray : Bool) (ks : List DKey) (last : DKey) :
    SpineOk (sectionFlags arrays isArray ks last) :=
  headerFlags_ok _ _ _ _ _ (by cases isArray <;> simp)

theorem spineTree_localOk {b : DValue σ} {k : TableKind} {e : DEntries σ} (hb : b = .table k e)
    (h : Everywhere LocalOk b) (l : List (DKey × Option ArrayKind)) : Everywhere LocalOk (spineTree b l) ∧
      ∃ k e, spineTree b l = .table k e := by
  induction l with
  | nil => exact ⟨h, k, e, hb⟩
  | cons x l ih =>
    obtain ⟨key, o⟩ := x
    obtain ⟨k', e', hk⟩ := ih.2
    cases o with
    | none =>
      refine ⟨everywhere_ok_table.2 ⟨by simp, fun kv h' => ?_⟩, _, _, rfl⟩
      rw [List.mem_singleton] at h'; rw [h']; exact ih.1
    | some a =>
      refine ⟨everywhere_ok_table.2 ⟨by simp, fun kv h' => ?_⟩, _, _, rfl⟩
      rw [List.mem_singleton] at h'; rw [h']
      refine everywhere_array (fun _ => ⟨by simp, fun w hw => ?_⟩) (fun w hw => ?_)
      · rw [List.mem_singleton] at hw; rw [hw]; exact ih.2
      · rw [List.mem_singleton] at hw; rw [hw]; exact ih.1

theorem spineTree_singleOk {b : DValue σ} {k : TableKind} {e : DEntries σ} (hb : b = .table k e)
    (h : Everywhere PlainOk b) (l : List (DKey × Option ArrayKind)) : Everywhere SingleOk (spineTree b l) := by
  induction l with
  | nil => exact single_of_plain h
  | cons x l ih =>
    obtain ⟨key, o⟩ := x
    cases o with
    | none =>
      refine everywhere_table trivial (fun kv h' => ?_)
      rw [List.mem_singleton] at h'; rw [h']; exact ih
    | some a =>
      refine everywhere_table trivial (fun kv h' => ?_)
      rw [List.mem_singleton] at h'; rw [h']
      refine everywhere_array ?_ (fun w hw => ?_)
      · cases a with
        | parentArrayOfTable =>
          obtain ⟨k', e', hk⟩ : ∃ k e, spineTree b l = .table k e := by
            clear ih
            induction l with
            | nil => exact ⟨k, e, hb⟩
            | cons x l _ => obtain ⟨key, o⟩ := x; cases o <;> exact ⟨_, _, rfl⟩
          exact ⟨k', e', by rw [hk]⟩
        | _ => exact trivial
      · rw [List.mem_singleton] at hw; rw [hw]; exact ih

/-- The kind of a node on the way to the table of a section, from the steps that follow. -/
def wayKind (s : Step) (rest : Path) : DKind σ :=
  match s with
  | .key _ => .table .parentTable
  | .index _ => .array (if rest = [] then .arrayOfTable else .parentArrayOfTable) 1

/-- The places of a section in the document. -/
theorem spine_places (b : DValue σ) (hb : Everywhere PlainOk b) (l : List (DKey × Option ArrayKind)) (hl : SpineOk l) :
    ∀ (v1 : Option (DValue σ)) (p : Path) (k2 : DKind σ),
      ((embed v1 (spineTree b l) (spinePath l) = [] ↔ l = []) ∧
      ((∃ p2, embed v1 (spineTree b l) p2 = p ∧ kindAt (spineTree b l) p2 = some k2) ↔
        (∃ q, p = embed v1 (spineTree b l) (spinePath l) ++ q ∧ kindAt b q = some k2) ∨
        (∃ s rest, embed v1 (spineTree b l) (spinePath l) = p ++ s :: rest ∧ k2 = wayKind s rest))) := by
  induction l with
  | nil =>
    intro v1 p k2
    have e0 : embed v1 (spineTree b []) (spinePath []) = [] := embed_plain _ _ hb _
    rw [e0]
    refine ⟨by simp, ?_⟩
    constructor
    · rintro ⟨p2, h1, h2⟩
      left
      refine ⟨p2, ?_, h2⟩
      rw [← h1]; exact embed_plain _ _ hb _
    · rintro (⟨q, hq, h⟩ | ⟨s, rest, h, _⟩)
      · exact ⟨q, (embed_plain _ _ hb _).trans hq.symm, h⟩
      · have := congrArg List.length h
        simp at this
  | cons x l ih =>
    obtain ⟨k, o⟩ := x
    intro v1 p k2
    cases o with
    | none =>
      have hc : ∀ p2, embed v1 (spineTree b ((k, none) :: l)) (.key k :: p2) =
          .key k :: embed (v1.bind (child · (.key k))) (spineTree b l) p2 := by
        intro p2
        rw [embed, spineTree, child_single, if_pos rfl]
      have hr : embed v1 (spineTree b ((k, none) :: l)) (spinePath ((k, none) :: l)) =
          .key k :: embed (v1.bind (child · (.key k))) (spineTree b l) (spinePath l) := hc _
      rw [hr]
      refine ⟨by simp, ?_⟩
      have ih' := ih hl (v1.bind (child · (.key k)))
      constructor
      · rintro ⟨p2, h1, h2⟩
        by_cases hp : p2 = []
        · subst hp
          rw [embed] at h1
          subst h1
          right
          cases h2
          exact ⟨_, _, rfl, rfl⟩
        · rw [spineTree, kindAt_single_key _ _ _ _ _ hp] at h2
          obtain ⟨p2', rfl, h2⟩ := h2
          rw [hc] at h1
          subst h1
          rcases ((ih' _ k2).2).1 ⟨p2', rfl, h2⟩ with ⟨q, h, hq⟩ | ⟨s, rest, h, hk⟩
          · left; exact ⟨q, by rw [h]; rfl, hq⟩
          · right; exact ⟨s, rest, by rw [h]; rfl, hk⟩
      · rintro (⟨q, rfl, hq⟩ | ⟨s, rest, h, hk⟩)
        · obtain ⟨p2, h1, h2⟩ := ((ih' _ k2).2).2 (Or.inl ⟨q, rfl, hq⟩)
          refine ⟨.key k :: p2, by rw [hc, h1]; rfl, ?_⟩
          rw [spineTree, kindAt_single_key _ _ _ _ _ (by simp)]
          exact ⟨p2, rfl, h2⟩
        · cases p with
          | nil =>
            injection h with h1 h2
            refine ⟨[], by rw [embed], ?_⟩
            rw [hk, ← h1]; rfl
          | cons s' p =>
            injection h with h1 h2
            obtain ⟨p2, h3, h4⟩ := ((ih' p k2).2).2 (Or.inr ⟨s, rest, h2, hk⟩)
            refine ⟨.key k :: p2, by rw [hc, h3, h1], ?_⟩
            rw [spineTree, kindAt_single_key _ _ _ _ _ (by simp)]
            exact ⟨p2, rfl, h4⟩
    | some a =>
      obtain ⟨ha, hl⟩ := hl
      obtain ⟨i, v1', hc⟩ : ∃ i v1', ∀ p2, embed v1 (spineTree b ((k, some a) :: l)) (.key k :: .index 0 :: p2) =
          .key k :: .index i :: embed v1' (spineTree b l) p2 := by
        have h0 : ∀ p2, embed v1 (spineTree b ((k, some a) :: l)) (.key k :: .index 0 :: p2) =
            .key k :: embed (v1.bind (child · (.key k))) (.array a [spineTree b l]) (.index 0 :: p2) := by
          intro p2
          rw [embed, spineTree, child_single, if_pos rfl]
        have ha' : a = .arrayOfTable ∨ a = .parentArrayOfTable := by
          rw [ha]; split <;> simp
        cases hv : v1.bind (child · (.key k)) with
        | none =>
          refine ⟨0, none, fun p2 => ?_⟩
          rw [h0, hv, embed_none, embed_none]
        | some w =>
          cases w with
          | array a1 vs1 =>
            rcases ha' with rfl | rfl
            · refine ⟨vs1.length + 0, none, fun p2 => ?_⟩
              rw [h0, hv, embed, if_neg (by simp), if_pos rfl, embed_none]
            · refine ⟨vs1.length - 1 + 0, vs1.getLast?, fun p2 => ?_⟩
              rw [h0, hv, embed, if_pos rfl]
              rfl
          | _ =>
            refine ⟨0, none, fun p2 => ?_⟩
            rw [h0, hv, embed_none]
            simp [embed]
      have hc1 : embed v1 (spineTree b ((k, some a) :: l)) [.key k] = [.key k] := by
        rw [embed, spineTree, child_single, if_pos rfl]
        simp [embed]
      have hr : embed v1 (spineTree b ((k, some a) :: l)) (spinePath ((k, some a) :: l)) =
          .key k :: .index i :: embed v1' (spineTree b l) (spinePath l) := hc _
      rw [hr]
      refine ⟨by simp, ?_⟩
      have ih' := ih hl v1'
      have ha2 : a = if embed v1' (spineTree b l) (spinePath l) = [] then ArrayKind.arrayOfTable
          else ArrayKind.parentArrayOfTable := by
        rw [ha]
        by_cases h : l = []
        · rw [if_pos h, if_pos ((ih' p k2).1.2 h)]
        · rw [if_neg h, if_neg (fun hh => h ((ih' p k2).1.1 hh))]
      have hka : kindAt (spineTree b ((k, some a) :: l)) [.key k] = some (.array a 1) := by
        rw [spineTree, kindAt_single_key _ _ _ _ _ (by simp)]
        exact ⟨[], rfl, rfl⟩
      constructor
      · rintro ⟨p2, h1, h2⟩
        by_cases hp : p2 = []
        · subst hp
          rw [embed] at h1
          subst h1
          right
          cases h2
          exact ⟨_, _, rfl, rfl⟩
        · rw [spineTree, kindAt_single_key _ _ _ _ _ hp] at h2
          obtain ⟨p2', rfl, h2⟩ := h2
          cases p2' with
          | nil =>
            rw [hc1] at h1
            subst h1
            right
            cases h2
            refine ⟨_, _, rfl, ?_⟩
            show DKind.array a 1 = DKind.array (if _ then _ else _) 1
            rw [← ha2]
          | cons s p2' =>
            cases s with
            | key _ => cases h2
            | index j =>
              cases j with
              | succ j => cases h2
              | zero =>
                have h2' : kindAt (spineTree b l) p2' = some k2 := h2
                rw [hc] at h1
                subst h1
                rcases ((ih' _ k2).2).1 ⟨p2', rfl, h2'⟩ with ⟨q, h, hq⟩ | ⟨s, rest, h, hk⟩
                · left; exact ⟨q, by rw [h]; rfl, hq⟩
                · right; exact ⟨s, rest, by rw [h]; rfl, hk⟩
      · rintro (⟨q, rfl, hq⟩ | ⟨s, rest, h, hk⟩)
        · obtain ⟨p2, h1, h2⟩ := ((ih' _ k2).2).2 (Or.inl ⟨q, rfl, hq⟩)
          refine ⟨.key k :: .index 0 :: p2, by rw [hc, h1]; rfl, ?_⟩
          rw [spineTree, kindAt_single_key _ _ _ _ _ (by simp)]
          exact ⟨.index 0 :: p2, rfl, h2⟩
        · cases p with
          | nil =>
            injection h with h1 h2
            refine ⟨[], by rw [embed], ?_⟩
            rw [hk, ← h1]; rfl
          | cons s' p =>
            injection h with h1 h2
            cases p with
            | nil =>
              injection h2 with h2 h3
              refine ⟨[.key k], by rw [hc1, h1], ?_⟩
              rw [hka, hk, ← h2, ← h3]
              show some (DKind.array a 1) = some (DKind.array (if _ then _ else _) 1)
              rw [← ha2]
            | cons s'' p =>
              injection h2 with h2 h3
              obtain ⟨p2, h5, h4⟩ := ((ih' p k2).2).2 (Or.inr ⟨s, rest, h3, hk⟩)
              refine ⟨.key k :: .index 0 :: p2, by rw [hc, h5, h1, h2], ?_⟩
              rw [spineTree, kindAt_single_key _ _ _ _ _ (by simp)]
              exact ⟨.index 0 :: p2, rfl, h4⟩

end Tombi
