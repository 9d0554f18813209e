import Verif.Proofs.EditorWords
/-! Editing what was edited, or what was edited and printed, changes nothing. -/
namespace Tombi.Editing
open SyntaxKind
open Tombi.Formatter (Node Body Section Doc Comma Text Prev Env NormN NormB NormF NormP NormD NormSs)
open Tombi.Reading (Scalar keyOr KeepsValue Decoded nodeKeys itemKeys pairKeys docKeys)

/-! ### twice -/

theorem dropTrailing_trailing : (n : Node) → (dropTrailing n).trailing = none
  | .lit .. | .array .. | .table .. => rfl
  | .pair l ks src n => by rw [dropTrailing, Node.trailing, dropTrailing_trailing n]

theorem editNode_dropTrailing (v : TomlVersion) (t : DValue Scalar) : (n : Node) →
    editNode v t (dropTrailing n) = dropTrailing (editNode v t n)
  | .lit .. => rfl
  | .array .. => by rw [dropTrailing, editNode, editNode]; split <;> rfl
  | .table .. => by rw [dropTrailing, editNode, editNode]; split <;> rfl
  | .pair l ks src n => by
    rw [dropTrailing, editNode, editNode]
    split
    · rw [editNode_dropTrailing v _ n]; rfl
    · rfl

theorem editNode_trailing (v : TomlVersion) : (t : DValue Scalar) → (n : Node) → (editNode v t n).trailing = n.trailing
  | _, .lit .. => rfl
  | _, .array .. => by rw [editNode]; split <;> rfl
  | _, .table .. => by rw [editNode]; split <;> rfl
  | _, .pair l ks src n => by
    rw [editNode]
    split
    · rw [Node.trailing, Node.trailing, editNode_trailing v _ n]
    · rfl

/-- The rule has nothing to do. -/
def Settled (append : Bool) (n : Node) : Option Comma → Prop
  | some c => ¬ (n.trailing.isSome = true ∧ c.leading = [] ∧ c.trailing = none)
  | none => append = false

theorem commaRule_settled {a : Bool} {n : Node} {c : Option Comma} (h : Settled a n c) : commaRule a n c = (n, c) := by
  cases c with
  | none =>
    have h : a = false := h
    subst h
    rfl
  | some c =>
    rw [commaRule, if_neg]
    simpa [Settled, List.isEmpty_iff, and_assoc] using h

theorem settled_commaRule (a : Bool) (n : Node) (c : Option Comma) : Settled a (commaRule a n c).1 (commaRule a n c).2 := by
  cases c with
  | none =>
    cases a with
    | false => exact rfl
    | true =>
      rw [commaRule, if_pos rfl]
      rintro ⟨h, -⟩
      simp only [dropTrailing_trailing] at h
      cases h
  | some c =>
    rw [commaRule]
    split
    · rintro ⟨h, -⟩
      simp only [dropTrailing_trailing] at h
      cases h
    · rename_i h
      rintro ⟨h1, h2, h3⟩
      exact h (by rw [h1, h2, h3]; rfl)

theorem commaRule_eq {a : Bool} {m n : Node} {c : Option Comma} (h1 : (commaRule a m c).1 = n) (h2 : (commaRule a m c).2 = c) :
    m = n ∧ Settled a n c := by
  have hs := settled_commaRule a m c
  rw [h1, h2] at hs
  refine ⟨?_, hs⟩
  cases c with
  | none =>
    have hs : a = false := hs
    subst hs
    exact h1
  | some c =>
    rw [commaRule] at h1 h2
    split at h1
    · rename_i h
      rw [if_pos h] at h2
      simp only [Option.some.injEq] at h2
      rw [← h2] at h
      simp only [Bool.and_eq_true, Option.isNone_iff_eq_none] at h
      rw [h.2] at h
      exact absurd h.1.1 (by simp)
    · exact h1

theorem commaRule_isSome (a : Bool) (n : Node) (c : Option Comma) : (commaRule a n c).2.isSome = (a || c.isSome) := by
  cases c with
  | none => cases a <;> rfl
  | some c => rw [commaRule]; split <;> simp

theorem hasItem_editItems (v : TomlVersion) (last : Bool) : (ts : List (DValue Scalar)) → (b : Body) →
    (editItems v last ts b).hasItem = b.hasItem
  | _, .nil => by rw [editItems]
  | ts, .dangling n cs rest => by rw [editItems, Body.hasItem, Body.hasItem, hasItem_editItems v last ts rest]
  | ts, .item f n c rest => by cases ts <;> rw [editItems] <;> rfl

theorem hasItem_editEntries (v : TomlVersion) (last : Bool) (t : DValue Scalar) : (b : Body) →
    (editEntries v last t b).hasItem = b.hasItem
  | .nil => by rw [editEntries]
  | .dangling n cs rest => by rw [editEntries, Body.hasItem, Body.hasItem, hasItem_editEntries v last t rest]
  | .item f n c rest => by rw [editEntries]; rfl

theorem lastComma_default (b : Body) (h : b.hasItem = true) (x y : Bool) : b.lastComma x = b.lastComma y := by
  match b with
  | .nil => cases h
  | .dangling _ _ rest => exact lastComma_default rest h x y
  | .item _ _ c rest => rfl

theorem lastComma_noItem (b : Body) (h : b.hasItem = false) (x : Bool) : b.lastComma x = x := by
  match b with
  | .nil => rfl
  | .dangling _ _ rest => exact lastComma_noItem rest h x
  | .item _ _ c rest => cases h

/-- The last comma is there afterwards exactly when it was there before. -/
theorem lastComma_editItems (v : TomlVersion) (last : Bool) : (ts : List (DValue Scalar)) → (b : Body) → (x : Bool) →
    (b.hasItem = true → b.lastComma x = last) → (editItems v last ts b).lastComma x = b.lastComma x
  | _, .nil, x, _ => by rw [editItems]
  | ts, .dangling n cs rest, x, h => by
    rw [editItems, Body.lastComma, Body.lastComma]
    exact lastComma_editItems v last ts rest x h
  | [], .item f n c rest, x, _ => by rw [editItems]
  | t :: ts, .item f n c rest, x, h => by
    have h := h rfl
    rw [Body.lastComma] at h
    rw [editItems, Body.lastComma, Body.lastComma, commaRule_isSome]
    cases hr : rest.hasItem with
    | true =>
      rw [lastComma_default (editItems v last ts rest) (by rw [hasItem_editItems, hr]) _ c.isSome]
      exact lastComma_editItems v last ts rest _ fun _ => h
    | false =>
      rw [lastComma_noItem _ (by rw [hasItem_editItems, hr]), lastComma_noItem _ hr]
      rw [lastComma_noItem _ hr] at h
      rw [← h]
      cases c.isSome <;> rfl

theorem lastComma_editEntries (v : TomlVersion) (last : Bool) (t : DValue Scalar) : (b : Body) → (x : Bool) →
    (b.hasItem = true → b.lastComma x = last) → (editEntries v last t b).lastComma x = b.lastComma x
  | .nil, x, _ => by rw [editEntries]
  | .dangling n cs rest, x, h => by
    rw [editEntries, Body.lastComma, Body.lastComma]
    exact lastComma_editEntries v last t rest x h
  | .item f n c rest, x, h => by
    have h := h rfl
    rw [Body.lastComma] at h
    rw [editEntries, Body.lastComma, Body.lastComma, commaRule_isSome]
    cases hr : rest.hasItem with
    | true =>
      rw [lastComma_default (editEntries v last t rest) (by rw [hasItem_editEntries, hr]) _ c.isSome]
      exact lastComma_editEntries v last t rest _ fun _ => h
    | false =>
      rw [lastComma_noItem _ (by rw [hasItem_editEntries, hr]), lastComma_noItem _ hr]
      rw [lastComma_noItem _ hr] at h
      rw [← h]
      cases c.isSome <;> rfl

theorem editNode_commaRule (v : TomlVersion) (t : DValue Scalar) (a : Bool) (n : Node) (c : Option Comma) (h : editNode v t n = n) :
    editNode v t (commaRule a n c).1 = (commaRule a n c).1 := by
  rcases commaRule_cases a n c with e | ⟨e, -⟩ <;> rw [e]
  · exact h
  · rw [editNode_dropTrailing, h]

mutual
/-- Editing twice is editing once. -/
theorem editNode_twice (v : TomlVersion) (t : DValue Scalar) : (n : Node) → editNode v t (editNode v t n) = editNode v t n
  | .lit .. => rfl
  | .array l s b tr => by
    rw [editNode]
    split
    · rename_i ts h
      rw [editNode, h]
      simp only
      rw [lastComma_editItems v _ ts b false fun _ => rfl, editItems_twice]
    · rename_i h
      rw [editNode, h]
  | .table l s b tr => by
    rw [editNode]
    split
    · rename_i h
      rw [editNode, if_pos h, lastComma_editEntries v _ t b false fun _ => rfl, editEntries_twice]
    · rename_i h
      rw [editNode, if_neg h]
  | .pair l ks src n => by
    rw [editNode]
    split
    · rename_i t' h
      rw [editNode, h]
      simp only
      rw [editNode_twice]
    · rename_i h
      rw [editNode, h]
theorem editItems_twice (v : TomlVersion) (last : Bool) : (ts : List (DValue Scalar)) → (b : Body) →
    editItems v last ts (editItems v last ts b) = editItems v last ts b
  | _, .nil => by rw [editItems, editItems]
  | ts, .dangling n cs rest => by rw [editItems, editItems, editItems_twice v last ts rest]
  | [], .item f n c rest => by rw [editItems, editItems]
  | t :: ts, .item f n c rest => by
    rw [editItems, editItems, hasItem_editItems, editNode_commaRule v t _ _ c (editNode_twice v t n),
      commaRule_settled (settled_commaRule _ _ _), editItems_twice v last ts rest]
theorem editEntries_twice (v : TomlVersion) (last : Bool) (t : DValue Scalar) : (b : Body) →
    editEntries v last t (editEntries v last t b) = editEntries v last t b
  | .nil => by rw [editEntries, editEntries]
  | .dangling n cs rest => by rw [editEntries, editEntries, editEntries_twice v last t rest]
  | .item f n c rest => by
    rw [editEntries, editEntries, hasItem_editEntries, editNode_commaRule v t _ _ c (editNode_twice v t n),
      commaRule_settled (settled_commaRule _ _ _), editEntries_twice v last t rest]
end

theorem editTable_twice (v : TomlVersion) (t : DValue Scalar) : (b : Body) → editTable v t (editTable v t b) = editTable v t b
  | .nil => rfl
  | .dangling n cs rest => by rw [editTable, editTable, editTable_twice v t rest]
  | .item f n c rest => by rw [editTable, editTable, editNode_twice, editTable_twice v t rest]

theorem editSections_twice (v : TomlVersion) (root : DValue Scalar) (ss : List Section) : (prev : List (AstSection Scalar)) →
    editSections v root prev (editSections v root prev ss) = editSections v root prev ss := by
  induction ss with
  | nil => intro prev; rfl
  | cons s ss ih =>
    intro prev
    rw [editSections]
    split
    · rename_i t h
      have hs : astSection v { s with body := editTable v t s.body } = astSection v s := by
        simp only [astSection, (editTable_value v v t s.body).1]
      rw [editSections, hs, h]
      simp only
      rw [editTable_twice, ih]
    · rename_i h
      rw [editSections, h]
      simp only
      rw [ih]

theorem editCommas_twice (v : TomlVersion) (root : DValue Scalar) (d : Doc) :
    editCommas v root (editCommas v root d) = editCommas v root d := by
  simp only [editCommas, editTable_twice, editSections_twice]

/-! ### printed and read back -/

theorem norm_trailing {E : Env} : (n : Node) → {n' : Node} → NormN E n n' → n'.trailing = E.rt n.trailing
  | .lit .., _, h => by rw [NormN] at h; subst h; rfl
  | .array .., _, h => by rw [NormN] at h; obtain ⟨_, _, rfl, -⟩ := h; rfl
  | .table .., _, h => by rw [NormN] at h; obtain ⟨_, _, rfl, -⟩ := h; rfl
  | .pair l ks src n, _, h => by
    rw [NormN] at h
    obtain ⟨_, m, rfl, h⟩ := h
    have h' := norm_trailing n h
    exact h'

theorem normB_hasItem {E : Env} : {prev : Prev} → (b : Body) → {b' : Body} → NormB E prev b b' → b'.hasItem = b.hasItem
  | _, .nil, _, h => by rw [NormB] at h; subst h; rfl
  | _, .dangling .., _, h => by
    rw [NormB] at h
    obtain ⟨_, rfl, h⟩ := h
    rw [Body.hasItem, Body.hasItem, normB_hasItem _ h]
  | _, .item .., _, h => by rw [NormB] at h; obtain ⟨_, _, rfl, -⟩ := h; rfl

theorem normB_lastComma {E : Env} : {prev : Prev} → (b : Body) → {b' : Body} → NormB E prev b b' → (x : Bool) →
    b'.lastComma x = b.lastComma x
  | _, .nil, _, h, _ => by rw [NormB] at h; subst h; rfl
  | _, .dangling .., _, h, _ => by
    rw [NormB] at h
    obtain ⟨_, rfl, h⟩ := h
    rw [Body.lastComma, Body.lastComma, normB_lastComma _ h]
  | _, .item _ _ c _, _, h, _ => by
    rw [NormB] at h
    obtain ⟨_, _, rfl, -, h⟩ := h
    rw [Body.lastComma, Body.lastComma, normB_lastComma _ h, Option.isSome_map]

theorem normF_hasItem {E : Env} : {first : Bool} → (b : Body) → {b' : Body} → NormF E first b b' → b'.hasItem = b.hasItem
  | _, .nil, _, h => by rw [NormF] at h; subst h; rfl
  | _, .dangling .., _, h => by rw [NormF] at h; rw [Body.hasItem, normF_hasItem _ h]
  | _, .item .., _, h => by rw [NormF] at h; obtain ⟨_, _, rfl, -⟩ := h; rfl

theorem normF_lastComma {E : Env} : {first : Bool} → (b : Body) → {b' : Body} → NormF E first b b' → b'.lastComma false = false
  | _, .nil, _, h => by rw [NormF] at h; subst h; rfl
  | _, .dangling .., _, h => by rw [NormF] at h; exact normF_lastComma _ h
  | _, .item _ _ c rest, _, h => by
    rw [NormF] at h
    obtain ⟨_, rest', rfl, -, h⟩ := h
    rw [Body.lastComma]
    cases hr : rest.hasItem with
    | true =>
      rw [lastComma_default rest' (by rw [normF_hasItem _ h, hr]) _ false]
      exact normF_lastComma _ h
    | false => rw [lastComma_noItem rest' (by rw [normF_hasItem _ h, hr])]; rfl

theorem rl_nil {E : Env} {cs : List Text} (h : E.rl cs = []) : cs = [] := by cases cs <;> simp [Env.rl] at h ⊢

theorem settled_norm {E : Env} {a : Bool} {n n' : Node} (h : NormN E n n') {c : Option Comma} (hs : Settled a n c) :
    Settled a n' (c.map E.rc) := by
  cases c with
  | none => exact hs
  | some c =>
    rintro ⟨h1, h2, h3⟩
    refine hs ⟨?_, rl_nil h2, ?_⟩
    · rw [norm_trailing n h] at h1
      simpa [Env.rt] using h1
    · cases ht : c.trailing with
      | none => rfl
      | some x => simp [Env.rc, Env.rt, ht] at h3

/-- no comment stands behind the items -/
def NoTrailing : Body → Prop
  | .nil => True
  | .dangling _ _ rest => NoTrailing rest
  | .item _ n _ rest => n.trailing = none ∧ NoTrailing rest

theorem trailing_hasComment : (n : Node) → n.trailing.isSome = true → n.hasComment = true
  | .lit l k t tr, h => by
    have h : tr.isSome = true := h
    simp [Node.hasComment, h]
  | .array l s b tr, h => by
    have h : tr.isSome = true := h
    simp [Node.hasComment, h]
  | .table l s b tr, h => by
    have h : tr.isSome = true := h
    simp [Node.hasComment, h]
  | .pair l ks src n, h => by
    have h : n.trailing.isSome = true := h
    simp [Node.hasComment, trailing_hasComment n h]

theorem trailing_none {n : Node} (h : n.hasComment = false) : n.trailing = none := by
  cases ht : n.trailing with
  | none => rfl
  | some x => rw [trailing_hasComment n (by rw [ht]; rfl)] at h; cases h

theorem noTrailing_of_comment : (b : Body) → b.hasComment = false → NoTrailing b
  | .nil, _ => trivial
  | .dangling _ _ rest, h => by
    rw [Body.hasComment, Bool.or_eq_false_iff] at h
    exact noTrailing_of_comment rest h.2
  | .item _ n _ rest, h => by
    rw [Body.hasComment, Bool.or_eq_false_iff, Bool.or_eq_false_iff] at h
    exact ⟨trailing_none h.1.1, noTrailing_of_comment rest h.2⟩

theorem noTrailing_of_direct : (b : Body) → b.hasDirectComment = false → NoTrailing b
  | .nil, _ => trivial
  | .dangling _ _ rest, h => by cases h
  | .item _ n _ rest, h => by
    simp only [Body.hasDirectComment, Bool.or_eq_false_iff, Option.isSome_eq_false_iff, Option.isNone_iff_eq_none] at h
    exact ⟨h.1.1.2, noTrailing_of_direct rest h.2⟩

theorem noTrailing_array {E : Env} {s : Option Text} {b : Body} (h : E.arrayMultiline s b = false) : NoTrailing b := by
  simp only [Env.arrayMultiline, Bool.or_eq_false_iff] at h
  exact noTrailing_of_comment b h.2.2

theorem noTrailing_table {E : Env} {s : Option Text} {b : Body} (h : E.tableMultiline s b = false) : NoTrailing b := by
  unfold Env.tableMultiline at h
  split at h
  · rw [Bool.or_eq_false_iff] at h
    exact noTrailing_of_direct b h.2
  · simp only [Bool.or_eq_false_iff] at h
    exact noTrailing_of_comment b h.2.2

/-- The accessors of keys that are printed. -/
theorem accessors_norm {E : Env} {v : TomlVersion} {ks : List Format.AstKey} (hd : Decoded v ks)
    (hk : ∀ w ∈ Formatter.keyWords ks, KeepsValue E v w) :
    ((ks.map E.rk).map fun k => (Accessor.key (keyOr v k) : Accessor)) = ks.map fun k => .key (keyOr v k) := by
  have h := Reading.keyOr_kept hd hk
  have e : ∀ l : List Format.AstKey, (l.map fun k => (Accessor.key (keyOr v k) : Accessor)) = (l.map (keyOr v)).map .key := by
    intro l; rw [List.map_map]; rfl
  rw [e, e, h]

mutual
/-- A value that the editor leaves as it is is also left as it is when it was printed and read back. -/
theorem editNode_norm {E : Env} (v : TomlVersion) : (t : DValue Scalar) → (n : Node) → {n' : Node} →
    (∀ w ∈ n.words, KeepsValue E v w) → (∀ k, Formatter.Word.key k ∈ n.words → (Reading.rawKey v k).isSome = true) →
    NormN E n n' → editNode v t n = n → editNode v t n' = n'
  | t, .lit .., n', _, _, h, _ => by
    rw [NormN] at h
    subst h
    rfl
  | t, .array l s b tr, n', hk, hd, h, he => by
    rw [NormN] at h
    obtain ⟨b', multi, rfl, h1, -, h2, h3⟩ := h
    have hk' : ∀ w ∈ b.words, KeepsValue E v w := fun w hw => hk w (by simp [Node.words, hw])
    have hd' : ∀ k, Formatter.Word.key k ∈ b.words → (Reading.rawKey v k).isSome = true := fun k hw => hd k (by simp [Node.words, hw])
    rw [editNode] at he ⊢
    split
    · rename_i ts ht
      rw [ht] at he
      simp only [Node.array.injEq, true_and, and_true] at he
      congr 1
      cases multi with
      | true =>
        have h2 := h2 rfl
        rw [normB_lastComma b h2]
        exact editItems_normB v _ ts b hk' hd' h2 he
      | false =>
        have h3 := h3 rfl
        rw [normF_lastComma b h3]
        exact editItems_normF v _ ts b hk' hd' h3 (noTrailing_array (h1 rfl)) he
    · rfl
  | t, .table l s b tr, n', hk, hd, h, he => by
    rw [NormN] at h
    obtain ⟨b', multi, rfl, h1, -, h2, h3⟩ := h
    have hk' : ∀ w ∈ b.words, KeepsValue E v w := fun w hw => hk w (by simp [Node.words, hw])
    have hd' : ∀ k, Formatter.Word.key k ∈ b.words → (Reading.rawKey v k).isSome = true := fun k hw => hd k (by simp [Node.words, hw])
    rw [editNode] at he ⊢
    split
    · rename_i ht
      rw [if_pos ht] at he
      simp only [Node.table.injEq, true_and, and_true] at he
      congr 1
      cases multi with
      | true =>
        have h2 := h2 rfl
        rw [normB_lastComma b h2]
        exact editEntries_normB v _ t b hk' hd' h2 he
      | false =>
        have h3 := h3 rfl
        rw [normF_lastComma b h3]
        exact editEntries_normF v _ t b hk' hd' h3 (noTrailing_table (h1 rfl)) he
    · rfl
  | t, .pair l ks src n, n', hk, hd, h, he => by
    rw [NormN] at h
    obtain ⟨src', m, rfl, h⟩ := h
    have hk1 : ∀ w ∈ Formatter.keyWords ks, KeepsValue E v w := fun w hw => hk w (by simp [Node.words, hw])
    have hd1 : Decoded v ks := fun k hm => hd k (by simp [Node.words, Reading.keys_mem hm])
    rw [editNode] at he ⊢
    rw [accessors_norm hd1 hk1]
    split
    · rename_i t' ht
      rw [ht] at he
      simp only [Node.pair.injEq, true_and] at he
      congr 1
      exact editNode_norm v t' n (fun w hw => hk w (by simp [Node.words, hw])) (fun k hw => hd k (by simp [Node.words, hw])) h he
    · rfl
termination_by structural _ n => n
theorem editItems_normB {E : Env} (v : TomlVersion) (last : Bool) : (ts : List (DValue Scalar)) → {prev : Prev} → (b : Body) → {b' : Body} →
    (∀ w ∈ b.words, KeepsValue E v w) → (∀ k, Formatter.Word.key k ∈ b.words → (Reading.rawKey v k).isSome = true) →
    NormB E prev b b' → editItems v last ts b = b → editItems v last ts b' = b'
  | ts, _, .nil, b', _, _, h, _ => by
    rw [NormB] at h
    subst h
    rw [editItems]
  | ts, _, .dangling m cs rest, b', hk, hd, h, he => by
    rw [NormB] at h
    obtain ⟨rest', rfl, h⟩ := h
    rw [editItems] at he ⊢
    simp only [Body.dangling.injEq, true_and] at he
    congr 1
    exact editItems_normB v last ts rest (fun w hw => hk w (by simp [Body.words, hw])) (fun k hw => hd k (by simp [Body.words, hw])) h he
  | [], _, .item f n c rest, b', _, _, h, _ => by
    rw [NormB] at h
    obtain ⟨n', rest', rfl, -⟩ := h
    rw [editItems]
  | t :: ts, _, .item f n c rest, b', hk, hd, h, he => by
    rw [NormB] at h
    obtain ⟨n', rest', rfl, hn, h⟩ := h
    rw [editItems] at he ⊢
    simp only [Body.item.injEq, true_and] at he
    obtain ⟨e1, hs⟩ := commaRule_eq he.1 he.2.1
    rw [normB_hasItem rest h, editNode_norm v t n (fun w hw => hk w (by simp [Body.words, hw])) (fun k hw => hd k (by simp [Body.words, hw])) hn e1,
      commaRule_settled (settled_norm hn hs),
      editItems_normB v last ts rest (fun w hw => hk w (by simp [Body.words, hw])) (fun k hw => hd k (by simp [Body.words, hw])) h he.2.2]
termination_by structural _ _ b => b
theorem editItems_normF {E : Env} (v : TomlVersion) (last : Bool) : (ts : List (DValue Scalar)) → {first : Bool} → (b : Body) → {b' : Body} →
    (∀ w ∈ b.words, KeepsValue E v w) → (∀ k, Formatter.Word.key k ∈ b.words → (Reading.rawKey v k).isSome = true) →
    NormF E first b b' → NoTrailing b → editItems v last ts b = b → editItems v false ts b' = b'
  | ts, _, .nil, b', _, _, h, _, _ => by
    rw [NormF] at h
    subst h
    rw [editItems]
  | ts, _, .dangling m cs rest, b', hk, hd, h, ht, he => by
    rw [NormF] at h
    rw [editItems] at he
    simp only [Body.dangling.injEq, true_and] at he
    exact editItems_normF v last ts rest (fun w hw => hk w (by simp [Body.words, hw])) (fun k hw => hd k (by simp [Body.words, hw])) h ht he
  | [], _, .item f n c rest, b', _, _, h, _, _ => by
    rw [NormF] at h
    obtain ⟨n', rest', rfl, -⟩ := h
    rw [editItems]
  | t :: ts, _, .item f n c rest, b', hk, hd, h, ht, he => by
    rw [NormF] at h
    obtain ⟨n', rest', rfl, hn, h⟩ := h
    rw [editItems] at he ⊢
    simp only [Body.item.injEq, true_and] at he
    obtain ⟨e1, -⟩ := commaRule_eq he.1 he.2.1
    have hs : Settled (false || rest.hasItem) n' (if rest.hasItem then some ⟨[], none⟩ else none) := by
      cases rest.hasItem with
      | true =>
        rintro ⟨h1, -⟩
        rw [norm_trailing n hn, ht.1] at h1
        cases h1
      | false => rfl
    rw [normF_hasItem rest h, editNode_norm v t n (fun w hw => hk w (by simp [Body.words, hw])) (fun k hw => hd k (by simp [Body.words, hw])) hn e1,
      commaRule_settled hs,
      editItems_normF v last ts rest (fun w hw => hk w (by simp [Body.words, hw])) (fun k hw => hd k (by simp [Body.words, hw])) h ht.2 he.2.2]
termination_by structural _ _ b => b
theorem editEntries_normB {E : Env} (v : TomlVersion) (last : Bool) (t : DValue Scalar) : {prev : Prev} → (b : Body) → {b' : Body} →
    (∀ w ∈ b.words, KeepsValue E v w) → (∀ k, Formatter.Word.key k ∈ b.words → (Reading.rawKey v k).isSome = true) →
    NormB E prev b b' → editEntries v last t b = b → editEntries v last t b' = b'
  | _, .nil, b', _, _, h, _ => by
    rw [NormB] at h
    subst h
    rw [editEntries]
  | _, .dangling m cs rest, b', hk, hd, h, he => by
    rw [NormB] at h
    obtain ⟨rest', rfl, h⟩ := h
    rw [editEntries] at he ⊢
    simp only [Body.dangling.injEq, true_and] at he
    congr 1
    exact editEntries_normB v last t rest (fun w hw => hk w (by simp [Body.words, hw])) (fun k hw => hd k (by simp [Body.words, hw])) h he
  | _, .item f n c rest, b', hk, hd, h, he => by
    rw [NormB] at h
    obtain ⟨n', rest', rfl, hn, h⟩ := h
    rw [editEntries] at he ⊢
    simp only [Body.item.injEq, true_and] at he
    obtain ⟨e1, hs⟩ := commaRule_eq he.1 he.2.1
    rw [normB_hasItem rest h, editNode_norm v t n (fun w hw => hk w (by simp [Body.words, hw])) (fun k hw => hd k (by simp [Body.words, hw])) hn e1,
      commaRule_settled (settled_norm hn hs),
      editEntries_normB v last t rest (fun w hw => hk w (by simp [Body.words, hw])) (fun k hw => hd k (by simp [Body.words, hw])) h he.2.2]
termination_by structural _ b => b
theorem editEntries_normF {E : Env} (v : TomlVersion) (last : Bool) (t : DValue Scalar) : {first : Bool} → (b : Body) → {b' : Body} →
    (∀ w ∈ b.words, KeepsValue E v w) → (∀ k, Formatter.Word.key k ∈ b.words → (Reading.rawKey v k).isSome = true) →
    NormF E first b b' → NoTrailing b → editEntries v last t b = b → editEntries v false t b' = b'
  | _, .nil, b', _, _, h, _, _ => by
    rw [NormF] at h
    subst h
    rw [editEntries]
  | _, .dangling m cs rest, b', hk, hd, h, ht, he => by
    rw [NormF] at h
    rw [editEntries] at he
    simp only [Body.dangling.injEq, true_and] at he
    exact editEntries_normF v last t rest (fun w hw => hk w (by simp [Body.words, hw])) (fun k hw => hd k (by simp [Body.words, hw])) h ht he
  | _, .item f n c rest, b', hk, hd, h, ht, he => by
    rw [NormF] at h
    obtain ⟨n', rest', rfl, hn, h⟩ := h
    rw [editEntries] at he ⊢
    simp only [Body.item.injEq, true_and] at he
    obtain ⟨e1, -⟩ := commaRule_eq he.1 he.2.1
    have hs : Settled (false || rest.hasItem) n' (if rest.hasItem then some ⟨[], none⟩ else none) := by
      cases rest.hasItem with
      | true =>
        rintro ⟨h1, -⟩
        rw [norm_trailing n hn, ht.1] at h1
        cases h1
      | false => rfl
    rw [normF_hasItem rest h, editNode_norm v t n (fun w hw => hk w (by simp [Body.words, hw])) (fun k hw => hd k (by simp [Body.words, hw])) hn e1,
      commaRule_settled hs,
      editEntries_normF v last t rest (fun w hw => hk w (by simp [Body.words, hw])) (fun k hw => hd k (by simp [Body.words, hw])) h ht.2 he.2.2]
termination_by structural _ b => b
end

/-! ### all keys of a document without syntax errors are read -/

/-- The keys of a value or of a key-value. -/
def ownKeys : Node → List Format.AstKey
  | .pair _ ks _ n => ks ++ nodeKeys n
  | n => nodeKeys n

theorem keyWords_key {k : Format.AstKey} : (ks : List Format.AstKey) → Formatter.Word.key k ∈ Formatter.keyWords ks → k ∈ ks
  | [], h => by cases h
  | [a], h => by simpa [Formatter.keyWords] using h
  | a :: b :: ks, h => by
    rw [Formatter.keyWords] at h
    · simp only [List.mem_cons] at h
      rcases h with h | h | h
      · simp at h; simp [h]
      · cases h
      · exact List.mem_cons_of_mem _ (keyWords_key (b :: ks) h)
    · simp

theorem comment_not_key {k : Format.AstKey} {cs : List Text} : Formatter.Word.key k ∉ Formatter.commentWords cs := by
  cases cs <;> simp [Formatter.commentWords]

theorem trailing_not_key {k : Format.AstKey} {c : Option Text} : Formatter.Word.key k ∉ Formatter.trailingWords c := by
  cases c <;> simp [Formatter.trailingWords]

theorem comma_not_key {k : Format.AstKey} {c : Option Comma} : Formatter.Word.key k ∉ Formatter.commaWords c := by
  cases c <;> simp [Formatter.commaWords, comment_not_key, trailing_not_key]

theorem items_mem {f : Option Nat} {n : Node} {c : Option Comma} {b : Body} {k : Format.AstKey} (h : k ∈ ownKeys n ∨ k ∈ itemKeys b) :
    k ∈ itemKeys (.item f n c b) := by
  cases n <;> simpa [itemKeys, ownKeys, or_assoc] using h

theorem pairs_mem {f : Option Nat} {n : Node} {c : Option Comma} {b : Body} {k : Format.AstKey} (hp : n.isPair = true)
    (h : k ∈ ownKeys n ∨ k ∈ pairKeys b) : k ∈ pairKeys (.item f n c b) := by
  cases n with
  | pair => simpa [pairKeys, ownKeys, or_assoc] using h
  | _ => cases hp

theorem ownKeys_value {n : Node} (h : n.isPair = false) : ownKeys n = nodeKeys n := by
  cases n with
  | pair => cases h
  | _ => rfl

mutual
theorem node_keys {k : Format.AstKey} : {d : Nat} → (n : Node) → n.WF d → Formatter.Word.key k ∈ n.words → k ∈ ownKeys n
  | _, .lit .., _, h => by simp [Node.words, comment_not_key, trailing_not_key] at h
  | _, .array l s b tr, hw, h => by
    rw [Node.WF] at hw
    refine body_items b hw.2 ?_
    simpa [Node.words, comment_not_key, trailing_not_key] using h
  | _, .table l s b tr, hw, h => by
    rw [Node.WF] at hw
    refine body_pairs b hw.2 ?_
    simpa [Node.words, comment_not_key, trailing_not_key] using h
  | _, .pair l ks src n, hw, h => by
    rw [Node.WF] at hw
    simp only [Node.words, List.mem_append, List.mem_cons, comment_not_key, false_or] at h
    rw [ownKeys]
    have : Formatter.Word.key k ∈ Formatter.keyWords ks ∨ Formatter.Word.key k ∈ n.words := by
      rcases h with h | h | h
      · exact .inl h
      · cases h
      · exact .inr h
    rcases this with h | h
    · exact List.mem_append_left _ (keyWords_key ks h)
    · exact List.mem_append_right _ (ownKeys_value hw.2.1 ▸ node_keys n hw.2.2.2 h)
theorem body_items {k : Format.AstKey} : {pairs : Bool} → {d : Nat} → {prev : Prev} → (b : Body) → b.WF pairs d prev →
    Formatter.Word.key k ∈ b.words → k ∈ itemKeys b
  | _, _, _, .nil, _, h => by cases h
  | _, _, _, .dangling n cs rest, hw, h => by
    rw [Body.WF] at hw
    rw [itemKeys]
    refine body_items rest hw.2.2.2 ?_
    simpa [Body.words, comment_not_key] using h
  | _, _, _, .item f n c rest, hw, h => by
    rw [Body.WF] at hw
    simp only [Body.words, List.mem_append, comma_not_key, or_false] at h
    rcases h with h | h
    · exact items_mem (.inl (node_keys n hw.2.1 h))
    · exact items_mem (.inr (body_items rest hw.2.2.2 h))
theorem body_pairs {k : Format.AstKey} : {d : Nat} → {prev : Prev} → (b : Body) → b.WF true d prev →
    Formatter.Word.key k ∈ b.words → k ∈ pairKeys b
  | _, _, .nil, _, h => by cases h
  | _, _, .dangling n cs rest, hw, h => by
    rw [Body.WF] at hw
    rw [pairKeys]
    refine body_pairs rest hw.2.2.2 ?_
    simpa [Body.words, comment_not_key] using h
  | _, _, .item f n c rest, hw, h => by
    rw [Body.WF] at hw
    simp only [Body.words, List.mem_append, comma_not_key, or_false] at h
    rcases h with h | h
    · exact pairs_mem hw.1 (.inl (node_keys n hw.2.1 h))
    · exact pairs_mem hw.1 (.inr (body_pairs rest hw.2.2.2 h))
end

theorem doc_keys {k : Format.AstKey} {d : Doc} (hw : d.WF) (h : Formatter.Word.key k ∈ d.words) : k ∈ docKeys d := by
  rw [Doc.words, List.mem_append] at h
  rw [docKeys, List.mem_append]
  rcases h with h | h
  · exact .inl (body_pairs _ hw.body h)
  · obtain ⟨ws, hm, h⟩ := List.mem_flatten.mp h
    obtain ⟨s, hs, rfl⟩ := List.mem_map.mp hm
    refine .inr (List.mem_flatMap.mpr ⟨s, hs, ?_⟩)
    simp only [Section.words, List.mem_append, List.mem_cons, comment_not_key, trailing_not_key, false_or] at h
    rw [List.mem_append]
    have : Formatter.Word.key k ∈ Formatter.keyWords s.header ∨ Formatter.Word.key k ∈ s.body.words := by
      grind
    rcases this with h | h
    · exact .inl (keyWords_key _ h)
    · exact .inr (body_pairs _ (hw.sections s hs).body h)

/-! ### documents that are printed -/

theorem editNode_addTrailing (v : TomlVersion) (c : Option Text) : (t : DValue Scalar) → (n : Node) →
    editNode v t (n.addTrailing c) = (editNode v t n).addTrailing c
  | _, .lit .. => rfl
  | _, .array .. => by rw [Node.addTrailing, editNode, editNode]; split <;> rfl
  | _, .table .. => by rw [Node.addTrailing, editNode, editNode]; split <;> rfl
  | _, .pair l ks src n => by
    rw [Node.addTrailing, editNode, editNode]
    split
    · rw [editNode_addTrailing v c _ n]; rfl
    · rfl

theorem editTable_norm {E : Env} (v : TomlVersion) (t : DValue Scalar) : {prev : Prev} → (b : Body) → {b' : Body} →
    (∀ w ∈ b.words, KeepsValue E v w) → (∀ k, Formatter.Word.key k ∈ b.words → (Reading.rawKey v k).isSome = true) →
    NormP E prev b b' → editTable v t b = b → editTable v t b' = b'
  | _, .nil, b', _, _, h, _ => by
    rw [NormP] at h
    subst h
    rfl
  | _, .dangling m cs rest, b', hk, hd, h, he => by
    rw [NormP] at h
    obtain ⟨rest', rfl, h⟩ := h
    rw [editTable] at he ⊢
    simp only [Body.dangling.injEq, true_and] at he
    congr 1
    exact editTable_norm v t rest (fun w hw => hk w (by simp [Body.words, hw])) (fun k hw => hd k (by simp [Body.words, hw])) h he
  | _, .item f n c rest, b', hk, hd, h, he => by
    rw [NormP] at h
    obtain ⟨n', rest', rfl, hn, h⟩ := h
    rw [editTable] at he ⊢
    simp only [Body.item.injEq, true_and] at he
    rw [editNode_addTrailing, editNode_norm v t n (fun w hw => hk w (by simp [Body.words, hw])) (fun k hw => hd k (by simp [Body.words, hw])) hn he.1,
      editTable_norm v t rest (fun w hw => hk w (by simp [Body.words, hw])) (fun k hw => hd k (by simp [Body.words, hw])) h he.2]

theorem editSections_norm {E : Env} (v : TomlVersion) (root : DValue Scalar) (ss : List Section) : (prev : List (AstSection Scalar)) →
    (ss' : List Section) → (∀ s ∈ ss, ∀ w ∈ s.words, KeepsValue E v w) →
    (∀ s ∈ ss, ∀ k, Formatter.Word.key k ∈ s.words → (Reading.rawKey v k).isSome = true) →
    (∀ s ∈ ss, Decoded v (s.header ++ pairKeys s.body)) →
    NormSs E ss ss' → editSections v root prev ss = ss → editSections v root prev ss' = ss' := by
  induction ss with
  | nil => intro prev ss' _ _ _ h _; have h : ss' = [] := h; subst h; rfl
  | cons s ss ih =>
    intro prev ss' hk hw hd h he
    obtain ⟨s', rest', rfl, ⟨h1, h2, h3, h4, h5⟩, hr⟩ := h
    have hks := hk s (by simp)
    have hds := hd s (by simp)
    have hws := hw s (by simp)
    have ha : astSection v s' = astSection v s := by
      unfold astSection
      rw [h1, h3, Reading.keyOr_kept (fun k hk => hds k (by simp [hk])) (fun w hw => hks w (by simp [Section.words, hw])),
        Reading.keyValues_normP _ (fun w hw => hks w (by simp [Section.words, hw])) (fun k hk => hds k (by simp [hk])) h5]
    rw [editSections] at he ⊢
    rw [ha]
    rw [List.cons.injEq] at he
    obtain ⟨he1, he2⟩ := he
    rw [ih _ rest' (fun s h => hk s (List.mem_cons_of_mem _ h)) (fun s h => hw s (List.mem_cons_of_mem _ h))
      (fun s h => hd s (List.mem_cons_of_mem _ h)) hr he2]
    congr 1
    split
    · rename_i t ht
      rw [ht] at he1
      have : editTable v t s.body = s.body := congrArg Section.body he1
      rw [editTable_norm v t s.body (fun w hw => hks w (by simp [Section.words, hw])) (fun k hw => hws k (by simp [Section.words, hw])) h5 this]
    · rfl

/-- A document that the editor leaves as it is is also left as it is when it was printed and read back. -/
theorem editCommas_norm {E : Env} {v : TomlVersion} {root : DValue Scalar} {d d' : Doc} (hw : d.WF) (hk : ∀ w ∈ d.words, KeepsValue E v w)
    (hd : Decoded v (docKeys d)) (h : NormD E d d') (he : editCommas v root d = d) : editCommas v root d' = d' := by
  have hd' : ∀ k, Formatter.Word.key k ∈ d.words → (Reading.rawKey v k).isSome = true := fun k h => hd k (doc_keys hw h)
  have mem : ∀ s ∈ d.sections, ∀ w ∈ s.words, w ∈ d.words := fun s hs w h =>
    List.mem_append_right _ (List.mem_flatten.mpr ⟨_, List.mem_map_of_mem hs, h⟩)
  obtain ⟨b, ss⟩ := d
  obtain ⟨b', ss'⟩ := d'
  simp only [editCommas, Doc.mk.injEq] at he ⊢
  refine ⟨editTable_norm v root b (fun w hw => hk w (List.mem_append_left _ hw)) (fun k hw => hd' k (List.mem_append_left _ hw)) h.1 he.1,
    editSections_norm v root ss [] ss' (fun s hs w hw => hk w (mem s hs w hw)) (fun s hs k hw => hd' k (mem s hs _ hw)) (fun s hs k hw => ?_) h.2.1 he.2⟩
  exact hd k (List.mem_append_right _ (List.mem_flatMap.mpr ⟨s, hs, hw⟩))

/-! ### directives at the top -/

theorem editNode_dropLeading (v : TomlVersion) (t : DValue Scalar) (n : Node) : editNode v t (dropLeading n) = dropLeading (editNode v t n) := by
  cases n with
  | lit => rfl
  | array => rw [dropLeading, editNode, editNode]; split <;> rfl
  | table => rw [dropLeading, editNode, editNode]; split <;> rfl
  | pair => rw [dropLeading, editNode, editNode]; split <;> rfl

theorem editCommas_moveTop {v : TomlVersion} {root : DValue Scalar} (breaks : Nat) {d : Doc} (he : editCommas v root d = d) :
    editCommas v root (moveTop breaks d) = moveTop breaks d := by
  obtain ⟨b, ss⟩ := d
  simp only [editCommas, Doc.mk.injEq] at he
  obtain ⟨h1, h2⟩ := he
  rcases moveTop_cases breaks ⟨b, ss⟩ with h | ⟨f, n, c, rest, hb, -, -, h⟩ | ⟨s, ss', hb, hs, -, -, h⟩
  · rw [h]; simp only [editCommas, h1, h2]
  · have hb : b = .item f n c rest := hb
    subst hb
    simp only [editTable, Body.item.injEq, true_and] at h1
    rw [h]
    simp only [editCommas, editTable, editNode_dropLeading, h1, h2]
  · have hb : b = .nil := hb
    have hs : ss = s :: ss' := hs
    subst hb hs
    rw [h]
    have e : astSection v { s with leading := [], blank := Formatter.blankOf (breaks + 2) } = astSection v s := rfl
    rw [editSections, List.cons.injEq] at h2
    simp only [editCommas, editTable, editSections, Doc.mk.injEq, true_and, List.cons.injEq, e, h2.2, and_true]
    have h2 := h2.1
    split
    · rename_i t ht
      rw [ht] at h2
      have : editTable v t s.body = s.body := congrArg Section.body h2
      rw [this]
    · rfl

/-- No directive stands before the first item. -/
def NoTop (d : Doc) : Prop :=
  match d.body, d.sections with
  | .item _ n _ _, _ => n.leading.any isDirective = false
  | .nil, s :: _ => s.leading.any isDirective = false
  | _, _ => True

theorem moveTop_noTop (breaks : Nat) (d : Doc) (h : NoTop d) : moveTop breaks d = d := by
  obtain ⟨b, ss⟩ := d
  unfold NoTop at h
  unfold moveTop
  cases b with
  | dangling => rfl
  | nil =>
    cases ss with
    | nil => rfl
    | cons s ss => simp only at h ⊢; rw [h]; rfl
  | item => simp only at h ⊢; rw [h]; rfl

theorem noTop_moveTop (breaks : Nat) (d : Doc) : NoTop (moveTop breaks d) := by
  rcases moveTop_cases breaks d with h | ⟨f, n, c, rest, hb, -, -, h⟩ | ⟨s, ss', hb, hs, -, -, h⟩
  · rw [h]
    obtain ⟨b, ss⟩ := d
    unfold NoTop
    unfold moveTop at h
    cases b with
    | dangling => trivial
    | nil =>
      cases ss with
      | nil => trivial
      | cons s ss =>
        simp only at h ⊢
        by_cases hc : s.leading.any isDirective = true
        · rw [if_pos hc] at h; cases h
        · exact Bool.eq_false_iff.mpr hc
    | item f n c rest =>
      simp only at h ⊢
      by_cases hc : n.leading.any isDirective = true
      · rw [if_pos hc] at h; cases h
      · exact Bool.eq_false_iff.mpr hc
  · rw [h]; trivial
  · rw [h]; trivial

theorem norm_leading {E : Env} {n n' : Node} (h : NormN E n n') : n'.leading = E.rl n.leading := by
  cases n with
  | lit => rw [NormN] at h; subst h; rfl
  | array => rw [NormN] at h; obtain ⟨_, _, rfl, -⟩ := h; rfl
  | table => rw [NormN] at h; obtain ⟨_, _, rfl, -⟩ := h; rfl
  | pair => rw [NormN] at h; obtain ⟨_, _, rfl, -⟩ := h; rfl

theorem addTrailing_leading (n : Node) (c : Option Text) : (n.addTrailing c).leading = n.leading := by cases n <;> rfl

theorem any_rl {E : Env} {cs : List Text} (hr : ∀ f, ∀ c ∈ cs, isDirective (E.renderComment f c) = isDirective c)
    (h : cs.any isDirective = false) : (E.rl cs).any isDirective = false := by
  cases cs with
  | nil => rfl
  | cons c cs =>
    rw [List.any_cons, Bool.or_eq_false_iff] at h
    rw [Env.rl, List.any_cons, hr true c (by simp), h.1, Bool.false_or, List.any_eq_false]
    intro x hx
    obtain ⟨y, hy, rfl⟩ := List.mem_map.mp hx
    rw [hr false y (by simp [hy])]
    exact List.any_eq_false.mp h.2 y hy

theorem noTop_norm {E : Env} {d d' : Doc} (hr : ∀ f b t, Formatter.Word.comment b t ∈ d.words → isDirective (E.renderComment f t) = isDirective t)
    (h : NormD E d d') (hn : NoTop d) : NoTop d' := by
  have cw : ∀ {cs : List Text} {c : Text}, c ∈ cs → ∃ b, Formatter.Word.comment b c ∈ Formatter.commentWords cs := by
    intro cs c hc
    cases cs with
    | nil => cases hc
    | cons a cs =>
      rcases List.mem_cons.mp hc with rfl | hc
      · exact ⟨true, by simp [Formatter.commentWords]⟩
      · exact ⟨false, by simp [Formatter.commentWords, hc]⟩
  obtain ⟨b, ss⟩ := d
  obtain ⟨b', ss'⟩ := d'
  obtain ⟨h1, h2, -⟩ := h
  unfold NoTop at hn ⊢
  cases b with
  | dangling n cs rest =>
    obtain ⟨rest', h1, -⟩ := h1
    have h1 : b' = _ := h1
    subst h1
    trivial
  | item f n c rest =>
    obtain ⟨n', rest', h1, h3, -⟩ := h1
    have h1 : b' = _ := h1
    subst h1
    simp only at hn ⊢
    rw [addTrailing_leading, norm_leading h3]
    refine any_rl (fun f c hc => ?_) hn
    obtain ⟨x, hx⟩ := cw hc
    refine hr f x c ?_
    rw [Doc.words, Body.words, dropLeading_words n]
    simp [hx]
  | nil =>
    have h1 : b' = .nil := h1
    subst h1
    cases ss with
    | nil =>
      have h2 : ss' = [] := h2
      subst h2
      trivial
    | cons s ss =>
      obtain ⟨s', rest', h3, ⟨-, h4, -⟩, -⟩ := h2
      have h3 : ss' = _ := h3
      subst h3
      simp only at hn ⊢
      rw [h4]
      refine any_rl (fun f c hc => ?_) hn
      obtain ⟨x, hx⟩ := cw hc
      refine hr f x c ?_
      simp [Doc.words, Section.words, hx]

end Tombi.Editing
