import Verif.Proofs.DocAccept2
import Verif.Props.DocumentTree

/-! Property C53: valid documents are accepted. -/
namespace Tombi
open Spec

variable {σ : Type}

/-- **C53**, for documents that are `Regular` and `Uninterrupted`: a valid document is converted without errors. -/
theorem C53_accepted_partial (root : AstRoot σ) (hv : Valid root) (hr : Regular root) (hu : Uninterrupted root) :
    root.tree.2 = [] := valid_accepted root hv hr hu

/-- **C53.** Every valid document without arrays of tables is converted without errors. -/
theorem C53_without_arrays (root : AstRoot σ) (hv : Valid root) (h : ∀ s ∈ root.sections, s.isArray = false) :
    root.tree.2 = [] := by
  refine valid_accepted root hv (C27_regular_without_arrays root h) ?_
  have : ∀ (sections prev : List (AstSection σ)), (∀ s ∈ sections, s.isArray = false) →
      UninterruptedFrom prev [] sections := by
    intro sections
    induction sections with
    | nil => intro _ _; exact trivial
    | cons s rest ih =>
      intro prev hs
      refine ⟨fun header name _ _ _ _ hm => (by cases hm), ?_⟩
      have : openedAfter [] s = [] := by
        unfold openedAfter
        rw [if_neg (by rw [hs s List.mem_cons_self]; simp)]
      rw [this]
      exact ih _ (fun x hx => hs x (List.mem_cons_of_mem _ hx))
  exact this root.sections [] h

/-! ### Deciding the hypotheses for examples -/

instance (kvs : List (AstKeyValue σ)) : Decidable (KeysApart kvs) := by unfold KeysApart; infer_instance

mutual
/-- Decides `ValidValue`. -/
def validValueB : AstValue σ → Bool
  | .scalar _ => true
  | .bad => false
  | .array items => validItemsB items
  | .inlineTable kvs => validKvsB kvs && decide (KeysApart kvs)
/-- Decides `ValidItems`. -/
def validItemsB : List (AstItem σ) → Bool
  | [] => true
  | item :: rest => validItemB item && validItemsB rest
/-- Decides `ValidItem`. -/
def validItemB : AstItem σ → Bool
  | .value v => validValueB v
  | .keyValue _ => false
/-- Decides `ValidKvs`. -/
def validKvsB : List (AstKeyValue σ) → Bool
  | [] => true
  | kv :: rest => validKvB kv && validKvsB rest
/-- Decides `ValidKv`. -/
def validKvB : AstKeyValue σ → Bool
  | .mk (some keys) (some v) => decide (keys ≠ []) && validValueB v
  | _ => false
end

mutual
theorem validValueB_sound : ∀ (v : AstValue σ), validValueB v = true → ValidValue v
  | .scalar _, _ => by rw [ValidValue]; trivial
  | .bad, h => by rw [validValueB] at h; cases h
  | .array items, h => by rw [validValueB] at h; rw [ValidValue]; exact validItemsB_sound items h
  | .inlineTable kvs, h => by
    rw [validValueB, Bool.and_eq_true] at h; rw [ValidValue]; exact ⟨validKvsB_sound kvs h.1, of_decide_eq_true h.2⟩
theorem validItemsB_sound : ∀ (v : List (AstItem σ)), validItemsB v = true → ValidItems v
  | [], _ => by rw [ValidItems]; trivial
  | item :: rest, h => by
    rw [validItemsB, Bool.and_eq_true] at h; rw [ValidItems]
    exact ⟨validItemB_sound item h.1, validItemsB_sound rest h.2⟩
theorem validItemB_sound : ∀ (v : AstItem σ), validItemB v = true → ValidItem v
  | .value v, h => by rw [validItemB] at h; rw [ValidItem]; exact validValueB_sound v h
  | .keyValue _, h => by rw [validItemB] at h; cases h
theorem validKvsB_sound : ∀ (v : List (AstKeyValue σ)), validKvsB v = true → ValidKvs v
  | [], _ => by rw [ValidKvs]; trivial
  | kv :: rest, h => by
    rw [validKvsB, Bool.and_eq_true] at h; rw [ValidKvs]
    exact ⟨validKvB_sound kv h.1, validKvsB_sound rest h.2⟩
theorem validKvB_sound : ∀ (v : AstKeyValue σ), validKvB v = true → ValidKv v
  | .mk (some keys) (some v), h => by
    rw [validKvB, Bool.and_eq_true] at h; rw [ValidKv]
    exact ⟨of_decide_eq_true h.1, validValueB_sound v h.2⟩
  | .mk none _, h => by simp [validKvB] at h
  | .mk (some _) none, h => by simp [validKvB] at h
end

/-- Decides `Follows`. -/
def followsB (done : List (Path × List (AstKeyValue σ))) (opened : List Path) (s : AstSection σ) : Bool :=
  (match s.header with | some (_ :: _) => true | _ => false) &&
  validKvsB s.kvs && decide (KeysApart s.kvs) &&
  decide (s.isArray = false → ∀ B ∈ done, B.1 ≠ sectionPath opened s) &&
  decide (s.isArray = false → sectionPath opened s ∉ opened) &&
  decide (s.isArray = true → named opened (s.header.getD []) ∉ opened →
    ∀ B ∈ done, ¬ named opened (s.header.getD []) <+: B.1) &&
  decide (∀ B ∈ done, ∀ a ∈ assignsOf B, ¬ a.1 <+: sectionPath opened s) &&
  decide (∀ B ∈ done, named opened (s.header.getD []) ∉ dottedOf B) &&
  (done.all fun B => (kvAssigns s.kvs).all fun a => match a.1 with
    | [] => true
    | k :: _ => decide (¬ sectionPath opened s ++ [.key k] <+: B.1))

theorem followsB_sound (done : List (Path × List (AstKeyValue σ))) (opened : List Path) (s : AstSection σ)
    (h : followsB done opened s = true) : Follows done opened s := by
  simp only [followsB, Bool.and_eq_true] at h
  obtain ⟨⟨⟨⟨⟨⟨⟨⟨h1, h2⟩, h3⟩, h4⟩, h5⟩, h6⟩, h7⟩, h8⟩, h9⟩ := h
  refine ⟨?_, ⟨validKvsB_sound _ h2, of_decide_eq_true h3⟩, of_decide_eq_true h4, of_decide_eq_true h5,
    of_decide_eq_true h6, of_decide_eq_true h7, of_decide_eq_true h8, ?_⟩
  · cases hh : s.header with
    | none => rw [hh] at h1; cases h1
    | some keys =>
      cases keys with
      | nil => rw [hh] at h1; cases h1
      | cons k ks => exact ⟨_, rfl, by simp⟩
  · intro B hB a ha k ks hk
    have := List.all_eq_true.1 (List.all_eq_true.1 h9 B hB) a ha
    rw [hk] at this
    exact of_decide_eq_true this

/-- Decides `AllFollow`. -/
def allFollowB (done : List (Path × List (AstKeyValue σ))) (opened : List Path) : List (AstSection σ) → Bool
  | [] => true
  | s :: rest => followsB done opened s && allFollowB (done ++ [(sectionPath opened s, s.kvs)]) (openedAfter opened s) rest

theorem allFollowB_sound (sections : List (AstSection σ)) : ∀ (done : List (Path × List (AstKeyValue σ)))
    (opened : List Path), allFollowB done opened sections = true → AllFollow done opened sections := by
  induction sections with
  | nil => intro _ _ _; exact trivial
  | cons s rest ih =>
    intro done opened h
    rw [allFollowB, Bool.and_eq_true] at h
    exact ⟨followsB_sound _ _ _ h.1, ih _ _ h.2⟩

/-- Decides `Valid`. -/
def validB (root : AstRoot σ) : Bool :=
  validKvsB root.kvs && decide (KeysApart root.kvs) && allFollowB [([], root.kvs)] [] root.sections

theorem validB_sound (root : AstRoot σ) (h : validB root = true) : Valid root := by
  simp only [validB, Bool.and_eq_true] at h
  exact ⟨validKvsB_sound _ h.1.1, of_decide_eq_true h.1.2, allFollowB_sound _ _ _ h.2⟩

/-- Decides `UninterruptedFrom`. -/
def uninterruptedFromB (prev : List (AstSection σ)) (opened : List Path) : List (AstSection σ) → Bool
  | [] => true
  | s :: rest =>
    (match s.header with
      | none => true
      | some header => (List.range header.length).all fun i =>
        decide (header.take i = []) || !decide (named opened (header.take i) ∈ opened) ||
        (List.range prev.length).any fun j => match prev[j]? with
          | none => false
          | some s' => s'.isArray && decide (s'.header = some (header.take i)) &&
            (prev.take j).all fun b => !b.isArray || match b.header with
              | none => true
              | some keys => decide (keys.head? = header.head?)) &&
    uninterruptedFromB (s :: prev) (openedAfter opened s) rest

theorem uninterruptedFromB_sound (sections : List (AstSection σ)) : ∀ (prev : List (AstSection σ)) (opened : List Path),
    uninterruptedFromB prev opened sections = true → UninterruptedFrom prev opened sections := by
  induction sections with
  | nil => intro _ _ _; exact trivial
  | cons s rest ih =>
    intro prev opened h
    rw [uninterruptedFromB, Bool.and_eq_true] at h
    refine ⟨?_, ih _ _ h.2⟩
    intro header name hh hp hne h0 hm
    have h1 := h.1
    rw [hh] at h1
    have hname : name = header.take name.length := List.prefix_iff_eq_take.1 hp
    have hlen : name.length < header.length := by
      rcases Nat.lt_or_ge name.length header.length with hl | hl
      · exact hl
      · exact absurd (hp.eq_of_length (Nat.le_antisymm hp.length_le hl)) hne
    have h2 := List.all_eq_true.1 h1 name.length (List.mem_range.2 hlen)
    rw [← hname] at h2
    simp only [Bool.or_eq_true, decide_eq_true_eq, h0, false_or, hm, Bool.not_eq_true', decide_true, reduceCtorEq] at h2
    obtain ⟨j, hj, h3⟩ := List.any_eq_true.1 h2
    have hj' := List.mem_range.1 hj
    rw [List.getElem?_eq_getElem hj'] at h3
    simp only [Bool.and_eq_true, decide_eq_true_eq] at h3
    refine ⟨prev.take j, prev[j], prev.drop (j + 1), ?_, h3.1.1, h3.1.2, ?_⟩
    · rw [← List.drop_eq_getElem_cons hj', List.take_append_drop]
    · intro b hb ha keys hk
      have := List.all_eq_true.1 h3.2 b hb
      rw [ha, hk] at this
      simpa using this

/-- The document of C26–C29 meets the hypotheses. -/
example : Valid exDocument ∧ Regular exDocument ∧ Uninterrupted exDocument :=
  ⟨validB_sound _ (by decide +kernel), exDocument_regular, uninterruptedFromB_sound _ _ _ (by decide +kernel)⟩

/-- A document without arrays of tables: `a.b = 1`, `[c.d]`, `e.f = 2`, `e.g = { h = 3 }`, `[c]`, `x = 4`. -/
def exPlain : AstRoot Nat :=
  ⟨[exKv ["a", "b"] (.scalar 1)],
   [exTable ["c", "d"] [exKv ["e", "f"] (.scalar 2), exKv ["e", "g"] (.inlineTable [exKv ["h"] (.scalar 3)])],
    exTable ["c"] [exKv ["x"] (.scalar 4)]]⟩

example : Valid exPlain ∧ ∀ s ∈ exPlain.sections, s.isArray = false :=
  ⟨validB_sound _ (by decide +kernel), by decide⟩

/-- **C53 is false in general.** The valid document `[[a]] [[b]] [a.c]` is rejected: the search for the arrays of tables a
header passes stops at the first array of tables with another first key. -/
theorem C53_accepted_false : let root : AstRoot Nat := ⟨[], [exArray ["a"] [], exArray ["b"] [], exTable ["a", "c"] []]⟩
    Valid root ∧ Regular root ∧ root.tree.2 = [.duplicateKey "a".toList] := by
  exact ⟨validB_sound _ (by decide +kernel), regularFromB_sound _ _ _ (by decide +kernel), by decide +kernel⟩

/-- **C53 is false in general.** The valid document `[[a]] [[a.b]] [[a]] [a.b.c] [a.b]` is rejected: `a.b` was an array of
tables in the first element of `a`, and is taken for one in the second element, where it is a table. -/
theorem C53_array_of_other_element_false : let root : AstRoot Nat :=
      ⟨[], [exArray ["a"] [], exArray ["a", "b"] [], exArray ["a"] [], exTable ["a", "b", "c"] [], exTable ["a", "b"] []]⟩
    Valid root ∧ root.tree.2 ≠ [] := by
  exact ⟨validB_sound _ (by decide +kernel), by decide +kernel⟩

end Tombi
