import Verif.Model.Editor
import Verif.Proofs.DocWf
import Verif.Proofs.FormatMeans
/-! What the editor of the syntax tree keeps: the words of a document, its shape, its keys and values, its comments. -/
namespace Tombi.Editing
open SyntaxKind
open Tombi.Formatter (Node Body Section Doc Comma Text Prev FirstOk commentWords trailingWords keyWords commaWords blankOf)
open Tombi.Reading (Scalar keyOr valueOf itemsOf keyValuesOf astRoot nodeKeys itemKeys pairKeys docKeys headComments bodyComments nodeComments
  commaComments docComments)

/-! ### words -/

theorem dropTrailing_words : (n : Node) → n.words = (dropTrailing n).words ++ trailingWords n.trailing
  | .lit l k t tr => by cases tr <;> simp [dropTrailing, Node.words, Node.trailing, trailingWords]
  | .array l s b tr => by cases tr <;> simp [dropTrailing, Node.words, Node.trailing, trailingWords]
  | .table l s b tr => by cases tr <;> simp [dropTrailing, Node.words, Node.trailing, trailingWords]
  | .pair l ks src n => by
    rw [dropTrailing, Node.words, Node.words, Node.trailing, dropTrailing_words n]
    simp

/-- What `commaRule` does, in three cases. -/
theorem commaRule_cases (a : Bool) (n : Node) (c : Option Comma) :
    commaRule a n c = (n, c) ∨ commaRule a n c = (dropTrailing n, some ⟨[], n.trailing⟩) ∧ (c = none ∨ c = some ⟨[], none⟩) := by
  cases c with
  | none =>
    rw [commaRule]
    split
    · exact .inr ⟨rfl, .inl rfl⟩
    · exact .inl rfl
  | some c =>
    rw [commaRule]
    split
    · rename_i h
      obtain ⟨l, t⟩ := c
      simp only [Bool.and_eq_true, List.isEmpty_iff, Option.isNone_iff_eq_none] at h
      obtain ⟨⟨-, h1⟩, h2⟩ := h
      subst h1 h2
      exact .inr ⟨rfl, .inr rfl⟩
    · exact .inl rfl

theorem commaRule_words (a : Bool) (n : Node) (c : Option Comma) :
    (commaRule a n c).1.words ++ commaWords (commaRule a n c).2 = n.words ++ commaWords c := by
  rcases commaRule_cases a n c with h | ⟨h, hc⟩
  · rw [h]
  · rw [h, dropTrailing_words n]
    rcases hc with rfl | rfl <;> simp [commaWords, commentWords, trailingWords]

mutual
theorem editNode_words (v : TomlVersion) (t : DValue Scalar) : (n : Node) → (editNode v t n).words = n.words
  | .lit .. => by rw [editNode]
  | .array l s b tr => by
    rw [editNode]
    split
    · rw [Node.words, Node.words, editItems_words]
    · rfl
  | .table l s b tr => by
    rw [editNode]
    split
    · rw [Node.words, Node.words, editEntries_words]
    · rfl
  | .pair l ks src n => by
    rw [editNode]
    split
    · rw [Node.words, Node.words, editNode_words]
    · rfl
theorem editItems_words (v : TomlVersion) (last : Bool) (ts : List (DValue Scalar)) : (b : Body) → (editItems v last ts b).words = b.words
  | .nil => by rw [editItems]
  | .dangling .. => by rw [editItems, Body.words, Body.words, editItems_words]
  | .item f n c rest => by
    cases ts with
    | nil => rw [editItems]
    | cons t ts => rw [editItems, Body.words, Body.words, editItems_words, commaRule_words, editNode_words]
theorem editEntries_words (v : TomlVersion) (last : Bool) (t : DValue Scalar) : (b : Body) → (editEntries v last t b).words = b.words
  | .nil => by rw [editEntries]
  | .dangling .. => by rw [editEntries, Body.words, Body.words, editEntries_words]
  | .item f n c rest => by rw [editEntries, Body.words, Body.words, editEntries_words, commaRule_words, editNode_words]
end

theorem editTable_words (v : TomlVersion) (t : DValue Scalar) : (b : Body) → (editTable v t b).words = b.words
  | .nil => by rw [editTable]
  | .dangling .. => by rw [editTable, Body.words, Body.words, editTable_words]
  | .item f n c rest => by rw [editTable, Body.words, Body.words, editTable_words, editNode_words]

/-- A section is left as it is but for the commas of its key-values. -/
theorem editSections_cons (v : TomlVersion) (root : DValue Scalar) (prev : List (AstSection Scalar)) (s : Section) (ss : List Section) :
    ∃ s', editSections v root prev (s :: ss) = s' :: editSections v root (astSection v s :: prev) ss ∧
      (s' = s ∨ ∃ t, s' = { s with body := editTable v t s.body }) := by
  rw [editSections]
  split
  · exact ⟨_, rfl, .inr ⟨_, rfl⟩⟩
  · exact ⟨_, rfl, .inl rfl⟩

theorem editSections_words (v : TomlVersion) (root : DValue Scalar) (ss : List Section) : (prev : List (AstSection Scalar)) →
    (editSections v root prev ss).map Section.words = ss.map Section.words := by
  induction ss with
  | nil => intro prev; rfl
  | cons s ss ih =>
    intro prev
    obtain ⟨s', h, e⟩ := editSections_cons v root prev s ss
    rw [h, List.map_cons, List.map_cons, ih]
    congr 1
    rcases e with rfl | ⟨t, rfl⟩
    · rfl
    · simp only [Section.words, editTable_words]

theorem editCommas_words (v : TomlVersion) (root : DValue Scalar) (d : Doc) : (editCommas v root d).words = d.words := by
  simp only [editCommas, Doc.words, editTable_words, editSections_words]

theorem dropLeading_words (n : Node) : n.words = commentWords n.leading ++ (dropLeading n).words := by
  cases n <;> simp [dropLeading, Node.words, Node.leading, commentWords]

/-- What `moveTop` does, in three cases. -/
theorem moveTop_cases (breaks : Nat) (d : Doc) : moveTop breaks d = d ∨
    (∃ f n c rest, d.body = .item f n c rest ∧ n.leading ≠ [] ∧ (∃ x ∈ n.leading, isDirective x = true) ∧ moveTop breaks d =
      ⟨.dangling 0 n.leading (.item (some (blankOf (breaks + 2))) (dropLeading n) c rest), d.sections⟩) ∨
    (∃ s ss, d.body = .nil ∧ d.sections = s :: ss ∧ s.leading ≠ [] ∧ (∃ x ∈ s.leading, isDirective x = true) ∧ moveTop breaks d =
      ⟨.dangling 0 s.leading .nil, { s with leading := [], blank := blankOf (breaks + 2) } :: ss⟩) := by
  have hne : ∀ {cs : List Text}, cs.any isDirective = true → cs ≠ [] := by rintro cs h rfl; cases h
  obtain ⟨b, ss⟩ := d
  cases b with
  | dangling => exact .inl rfl
  | nil =>
    cases ss with
    | nil => exact .inl rfl
    | cons s ss =>
      by_cases h : s.leading.any isDirective = true
      · exact .inr (.inr ⟨s, ss, rfl, rfl, hne h, List.any_eq_true.mp h, if_pos h⟩)
      · exact .inl (if_neg h)
  | item f n c rest =>
    by_cases h : n.leading.any isDirective = true
    · exact .inr (.inl ⟨f, n, c, rest, rfl, hne h, List.any_eq_true.mp h, if_pos h⟩)
    · exact .inl (if_neg h)

theorem moveTop_words (breaks : Nat) (d : Doc) : (moveTop breaks d).words = d.words := by
  rcases moveTop_cases breaks d with h | ⟨f, n, c, rest, hb, -, -, h⟩ | ⟨s, ss, hb, hs, -, -, h⟩
  · rw [h]
  · rw [h, Doc.words, Doc.words, hb, Body.words, Body.words, Body.words, dropLeading_words n]
    simp
  · rw [h, Doc.words, Doc.words, hb, hs]
    simp [Body.words, Section.words, commentWords]

theorem editTree_words (v : TomlVersion) (root : Green) : (editTree v root).words = (Formatter.docOf root).words := by
  unfold editTree
  simp only
  split
  · rw [moveTop_words, editCommas_words]
  · rfl

/-! ### shape -/

theorem dropTrailing_isPair (n : Node) : (dropTrailing n).isPair = n.isPair := by cases n <;> rfl

theorem dropTrailing_leading (n : Node) : (dropTrailing n).leading = n.leading := by cases n <;> rfl

theorem dropTrailing_wf {d : Nat} : (n : Node) → n.WF d → (dropTrailing n).WF d
  | .lit .., h => h
  | .array .., h => by rw [dropTrailing, Node.WF]; rwa [Node.WF] at h
  | .table .., h => by rw [dropTrailing, Node.WF]; rwa [Node.WF] at h
  | .pair l ks src n, h => by
    rw [Node.WF] at h
    rw [dropTrailing, Node.WF, dropTrailing_isPair, dropTrailing_leading]
    exact ⟨h.1, h.2.1, h.2.2.1, dropTrailing_wf n h.2.2.2⟩

theorem commaRule_wf {d : Nat} (a : Bool) (n : Node) (c : Option Comma) (h : n.WF d) : (commaRule a n c).1.WF d := by
  rcases commaRule_cases a n c with e | ⟨e, -⟩ <;> rw [e]
  · exact h
  · exact dropTrailing_wf n h

theorem commaRule_isPair (a : Bool) (n : Node) (c : Option Comma) : (commaRule a n c).1.isPair = n.isPair := by
  rcases commaRule_cases a n c with e | ⟨e, -⟩ <;> rw [e]
  exact dropTrailing_isPair n

theorem commaRule_leading (a : Bool) (n : Node) (c : Option Comma) : (commaRule a n c).1.leading = n.leading := by
  rcases commaRule_cases a n c with e | ⟨e, -⟩ <;> rw [e]
  exact dropTrailing_leading n

theorem editNode_isPair (v : TomlVersion) (t : DValue Scalar) (n : Node) : (editNode v t n).isPair = n.isPair := by
  cases n <;> rw [editNode] <;> split <;> rfl

theorem editNode_leading (v : TomlVersion) (t : DValue Scalar) (n : Node) : (editNode v t n).leading = n.leading := by
  cases n <;> rw [editNode] <;> split <;> rfl

mutual
theorem editNode_wf (v : TomlVersion) (t : DValue Scalar) {d : Nat} : (n : Node) → n.WF d → (editNode v t n).WF d
  | .lit .., h => by rwa [editNode]
  | .array l s b tr, h => by
    rw [editNode]
    split
    · rw [Node.WF] at h ⊢
      exact ⟨h.1, editItems_wf v _ _ b h.2⟩
    · exact h
  | .table l s b tr, h => by
    rw [editNode]
    split
    · rw [Node.WF] at h ⊢
      exact ⟨h.1, editEntries_wf v _ _ b h.2⟩
    · exact h
  | .pair l ks src n, h => by
    rw [editNode]
    split
    · rw [Node.WF] at h ⊢
      rw [editNode_isPair, editNode_leading]
      exact ⟨h.1, h.2.1, h.2.2.1, editNode_wf v _ n h.2.2.2⟩
    · exact h
theorem editItems_wf (v : TomlVersion) (last : Bool) (ts : List (DValue Scalar)) {pairs : Bool} {d : Nat} {prev : Prev} :
    (b : Body) → b.WF pairs d prev → (editItems v last ts b).WF pairs d prev
  | .nil, h => by rwa [editItems]
  | .dangling n cs rest, h => by
    rw [editItems]
    rw [Body.WF] at h ⊢
    exact ⟨h.1, h.2.1, h.2.2.1, editItems_wf v last ts rest h.2.2.2⟩
  | .item f n c rest, h => by
    cases ts with
    | nil => rwa [editItems]
    | cons t ts =>
      rw [editItems]
      rw [Body.WF] at h ⊢
      rw [commaRule_isPair, editNode_isPair]
      exact ⟨h.1, commaRule_wf _ _ _ (editNode_wf v t n h.2.1), h.2.2.1, editItems_wf v last ts rest h.2.2.2⟩
theorem editEntries_wf (v : TomlVersion) (last : Bool) (t : DValue Scalar) {pairs : Bool} {d : Nat} {prev : Prev} :
    (b : Body) → b.WF pairs d prev → (editEntries v last t b).WF pairs d prev
  | .nil, h => by rwa [editEntries]
  | .dangling n cs rest, h => by
    rw [editEntries]
    rw [Body.WF] at h ⊢
    exact ⟨h.1, h.2.1, h.2.2.1, editEntries_wf v last t rest h.2.2.2⟩
  | .item f n c rest, h => by
    rw [editEntries]
    rw [Body.WF] at h ⊢
    rw [commaRule_isPair, editNode_isPair]
    exact ⟨h.1, commaRule_wf _ _ _ (editNode_wf v t n h.2.1), h.2.2.1, editEntries_wf v last t rest h.2.2.2⟩
end

theorem editTable_wf (v : TomlVersion) (t : DValue Scalar) {pairs : Bool} {d : Nat} : {prev : Prev} →
    (b : Body) → b.WF pairs d prev → (editTable v t b).WF pairs d prev
  | _, .nil, h => by rwa [editTable]
  | _, .dangling n cs rest, h => by
    rw [editTable]
    rw [Body.WF] at h ⊢
    exact ⟨h.1, h.2.1, h.2.2.1, editTable_wf v t rest h.2.2.2⟩
  | _, .item f n c rest, h => by
    rw [editTable]
    rw [Body.WF] at h ⊢
    rw [editNode_isPair]
    exact ⟨h.1, editNode_wf v t n h.2.1, h.2.2.1, editTable_wf v t rest h.2.2.2⟩

theorem editTable_last (v : TomlVersion) (t : DValue Scalar) : (prev : Prev) → (b : Body) → (editTable v t b).last prev = b.last prev
  | _, .nil => rfl
  | _, .dangling n cs rest => by rw [editTable, Body.last, Body.last, editTable_last]
  | _, .item f n c rest => by rw [editTable, Body.last, Body.last, editTable_last]

theorem editSections_wf (v : TomlVersion) (root : DValue Scalar) (ss : List Section) : (prev : List (AstSection Scalar)) →
    (∀ s ∈ ss, s.WF) → ∀ s ∈ editSections v root prev ss, s.WF := by
  induction ss with
  | nil => intro prev h s hs; cases hs
  | cons s ss ih =>
    intro prev h x hx
    obtain ⟨s', e, hs'⟩ := editSections_cons v root prev s ss
    rw [e] at hx
    rcases List.mem_cons.mp hx with rfl | hx
    · rcases hs' with rfl | ⟨t, rfl⟩
      · exact h _ (by simp)
      · have := h s (by simp)
        exact ⟨this.header, editTable_wf v t _ this.body⟩
    · exact ih _ (fun s hs => h s (by simp [hs])) x hx

theorem editCommas_wf (v : TomlVersion) (root : DValue Scalar) {d : Doc} (h : d.WF) : (editCommas v root d).WF := by
  refine ⟨editTable_wf v root _ h.body, editSections_wf v root _ _ h.sections, fun s hs => ?_⟩
  obtain ⟨b, ss⟩ := d
  cases ss with
  | nil => cases hs
  | cons x ss =>
    obtain ⟨s', e, hs'⟩ := editSections_cons v root [] x ss
    rw [editCommas, e] at hs
    cases hs
    have := h.first x rfl
    rw [show (editCommas v root ⟨b, x :: ss⟩).body = editTable v root b from rfl, editTable_last]
    rcases hs' with rfl | ⟨t, rfl⟩ <;> exact this

theorem dropLeading_wf {d : Nat} (n : Node) (h : n.WF d) : (dropLeading n).WF d := by
  cases n <;> exact h

theorem dropLeading_isPair (n : Node) : (dropLeading n).isPair = n.isPair := by cases n <;> rfl

theorem blankOf_two (breaks : Nat) : 1 ≤ blankOf (breaks + 2) ∧ blankOf (breaks + 2) ≤ 255 := by
  unfold blankOf
  omega

theorem moveTop_wf (breaks : Nat) {d : Doc} (h : d.WF) : (moveTop breaks d).WF := by
  rcases moveTop_cases breaks d with e | ⟨f, n, c, rest, hb, hl, -, e⟩ | ⟨s, ss, hb, hs, hl, -, e⟩
  · rwa [e]
  · have hbody := h.body
    have hfirst := h.first
    rw [hb, Body.WF] at hbody
    rw [hb] at hfirst
    rw [e]
    refine ⟨?_, h.sections, hfirst⟩
    rw [Body.WF, Body.WF, dropLeading_isPair]
    exact ⟨hl, nofun, by omega, hbody.1, dropLeading_wf n hbody.2.1, ⟨fun _ => (blankOf_two breaks).1, (blankOf_two breaks).2⟩, hbody.2.2.2⟩
  · have hbody := h.body
    rw [e]
    refine ⟨?_, fun x hx => ?_, fun x hx => ?_⟩
    · rw [Body.WF]
      exact ⟨hl, nofun, by omega, by rw [Body.WF]; trivial⟩
    · rcases List.mem_cons.mp hx with rfl | hx
      · have := h.sections s (by rw [hs]; simp)
        exact ⟨this.header, this.body⟩
      · exact h.sections x (by rw [hs]; simp [hx])
    · cases hx
      exact ⟨fun _ => (blankOf_two breaks).1, (blankOf_two breaks).2⟩

theorem editTree_wf (v : TomlVersion) {root : Green} (h : (Formatter.docOf root).WF) : (editTree v root).WF := by
  unfold editTree
  simp only
  split
  · exact moveTop_wf _ (editCommas_wf v _ h)
  · exact h

/-! ### keys and values -/

theorem valueOf_dropTrailing (v : TomlVersion) (n : Node) : valueOf v (dropTrailing n) = valueOf v n := by
  cases n <;> simp [dropTrailing, valueOf]

theorem nodeKeys_dropTrailing (n : Node) : nodeKeys (dropTrailing n) = nodeKeys n := by
  cases n <;> simp [dropTrailing, nodeKeys]

/-- What reading sees of an item: the keys of a pair, the value, and the keys in it. -/
structure SameItem (v : TomlVersion) (n n' : Node) : Prop where
  items : ∀ f c f' c' b, itemsOf v (.item f n c b) = itemsOf v (.item f' n' c' b)
  pairs : ∀ f c f' c' b, keyValuesOf v (.item f n c b) = keyValuesOf v (.item f' n' c' b)
  itemKeys : ∀ f c f' c' b, itemKeys (.item f n c b) = itemKeys (.item f' n' c' b)
  pairKeys : ∀ f c f' c' b, pairKeys (.item f n c b) = pairKeys (.item f' n' c' b)

theorem SameItem.trans {v : TomlVersion} {a b c : Node} (h1 : SameItem v a b) (h2 : SameItem v b c) : SameItem v a c :=
  ⟨fun f x f' x' r => (h1.items f x f x r).trans (h2.items f x f' x' r), fun f x f' x' r => (h1.pairs f x f x r).trans (h2.pairs f x f' x' r),
   fun f x f' x' r => (h1.itemKeys f x f x r).trans (h2.itemKeys f x f' x' r),
   fun f x f' x' r => (h1.pairKeys f x f x r).trans (h2.pairKeys f x f' x' r)⟩

theorem SameItem.refl (v : TomlVersion) (n : Node) : SameItem v n n := by
  cases n <;> constructor <;> intros <;> simp [itemsOf, keyValuesOf, Reading.itemKeys, Reading.pairKeys]

theorem SameItem.lit {v : TomlVersion} (l l' : List Text) (k : SyntaxKind) (t : Text) (tr tr' : Option Text) :
    SameItem v (.lit l k t tr) (.lit l' k t tr') := by
  constructor <;> intros <;> simp [itemsOf, keyValuesOf, Reading.itemKeys, Reading.pairKeys, valueOf, nodeKeys]

theorem SameItem.array {v : TomlVersion} (l l' : List Text) (s s' : Option Text) {b b' : Body} (tr tr' : Option Text)
    (h1 : itemsOf v b = itemsOf v b') (h2 : Reading.itemKeys b = Reading.itemKeys b') : SameItem v (.array l s b tr) (.array l' s' b' tr') := by
  constructor <;> intros <;> simp [itemsOf, keyValuesOf, Reading.itemKeys, Reading.pairKeys, valueOf, nodeKeys, h1, h2]

theorem SameItem.table {v : TomlVersion} (l l' : List Text) (s s' : Option Text) {b b' : Body} (tr tr' : Option Text)
    (h1 : keyValuesOf v b = keyValuesOf v b') (h2 : Reading.pairKeys b = Reading.pairKeys b') :
    SameItem v (.table l s b tr) (.table l' s' b' tr') := by
  constructor <;> intros <;> simp [itemsOf, keyValuesOf, Reading.itemKeys, Reading.pairKeys, valueOf, nodeKeys, h1, h2]

theorem SameItem.pair {v : TomlVersion} (l l' : List Text) (ks : List Format.AstKey) (src src' : Text) {n n' : Node} (h1 : valueOf v n = valueOf v n')
    (h2 : nodeKeys n = nodeKeys n') : SameItem v (.pair l ks src n) (.pair l' ks src' n') := by
  constructor <;> intros <;> simp [itemsOf, keyValuesOf, Reading.itemKeys, Reading.pairKeys, h1, h2]

theorem SameItem.dropTrailing (v : TomlVersion) (n : Node) : SameItem v n (dropTrailing n) := by
  cases n with
  | lit => exact .lit ..
  | array => exact .array _ _ _ _ _ _ rfl rfl
  | table => exact .table _ _ _ _ _ _ rfl rfl
  | pair => exact .pair _ _ _ _ _ (valueOf_dropTrailing v _).symm (nodeKeys_dropTrailing _).symm

theorem SameItem.dropLeading (v : TomlVersion) (n : Node) : SameItem v n (dropLeading n) := by
  cases n with
  | lit => exact .lit ..
  | array => exact .array _ _ _ _ _ _ rfl rfl
  | table => exact .table _ _ _ _ _ _ rfl rfl
  | pair => exact .pair _ _ _ _ _ rfl rfl

theorem SameItem.commaRule (v : TomlVersion) (a : Bool) (n : Node) (c : Option Comma) : SameItem v n (commaRule a n c).1 := by
  rcases commaRule_cases a n c with e | ⟨e, -⟩ <;> rw [e]
  · exact .refl v n
  · exact .dropTrailing v n

theorem items_congr {v : TomlVersion} (f : Option Nat) (n : Node) (c : Option Comma) {b b' : Body} (h : itemsOf v b = itemsOf v b') :
    itemsOf v (.item f n c b) = itemsOf v (.item f n c b') := by
  cases n <;> simp [itemsOf, h]

theorem pairs_congr {v : TomlVersion} (f : Option Nat) (n : Node) (c : Option Comma) {b b' : Body} (h : keyValuesOf v b = keyValuesOf v b') :
    keyValuesOf v (.item f n c b) = keyValuesOf v (.item f n c b') := by
  cases n <;> simp [keyValuesOf, h]

theorem itemKeys_congr (f : Option Nat) (n : Node) (c : Option Comma) {b b' : Body} (h : itemKeys b = itemKeys b') :
    itemKeys (.item f n c b) = itemKeys (.item f n c b') := by
  cases n <;> simp [itemKeys, h]

theorem pairKeys_congr (f : Option Nat) (n : Node) (c : Option Comma) {b b' : Body} (h : pairKeys b = pairKeys b') :
    pairKeys (.item f n c b) = pairKeys (.item f n c b') := by
  cases n <;> simp [pairKeys, h]

mutual
theorem editNode_value (v w : TomlVersion) (t : DValue Scalar) : (n : Node) → valueOf w (editNode v t n) = valueOf w n ∧
    nodeKeys (editNode v t n) = nodeKeys n
  | .lit .. => by rw [editNode]; exact ⟨rfl, rfl⟩
  | .array l s b tr => by
    rw [editNode]
    split
    · rw [valueOf, valueOf, nodeKeys, nodeKeys, (editItems_value v w _ _ b).1, (editItems_value v w _ _ b).2]
      exact ⟨rfl, rfl⟩
    · exact ⟨rfl, rfl⟩
  | .table l s b tr => by
    rw [editNode]
    split
    · rw [valueOf, valueOf, nodeKeys, nodeKeys, (editEntries_value v w _ _ b).1, (editEntries_value v w _ _ b).2]
      exact ⟨rfl, rfl⟩
    · exact ⟨rfl, rfl⟩
  | .pair l ks src n => by
    rw [editNode]
    split <;> exact ⟨rfl, rfl⟩
theorem editNode_same (v w : TomlVersion) (t : DValue Scalar) : (n : Node) → SameItem w n (editNode v t n)
  | .lit .. => by rw [editNode]; exact .refl w _
  | .array l s b tr => by
    rw [editNode]
    split
    · exact .array _ _ _ _ _ _ (editItems_value v w _ _ b).1.symm (editItems_value v w _ _ b).2.symm
    · exact .refl w _
  | .table l s b tr => by
    rw [editNode]
    split
    · exact .table _ _ _ _ _ _ (editEntries_value v w _ _ b).1.symm (editEntries_value v w _ _ b).2.symm
    · exact .refl w _
  | .pair l ks src n => by
    rw [editNode]
    split
    · exact .pair _ _ _ _ _ (editNode_value v w _ n).1.symm (editNode_value v w _ n).2.symm
    · exact .refl w _
theorem editItems_value (v w : TomlVersion) (last : Bool) (ts : List (DValue Scalar)) : (b : Body) →
    itemsOf w (editItems v last ts b) = itemsOf w b ∧ itemKeys (editItems v last ts b) = itemKeys b
  | .nil => by rw [editItems]; exact ⟨rfl, rfl⟩
  | .dangling n cs rest => by
    rw [editItems, itemsOf, itemsOf, itemKeys, itemKeys]
    exact editItems_value v w last ts rest
  | .item f n c rest => by
    cases ts with
    | nil => rw [editItems]; exact ⟨rfl, rfl⟩
    | cons t ts =>
      rw [editItems]
      have h := (editNode_same v w t n).trans (.commaRule w (last || rest.hasItem) _ c)
      exact ⟨(items_congr _ _ _ (editItems_value v w last ts rest).1).trans (h.items _ _ _ _ _).symm,
        (itemKeys_congr _ _ _ (editItems_value v w last ts rest).2).trans (h.itemKeys _ _ _ _ _).symm⟩
theorem editEntries_value (v w : TomlVersion) (last : Bool) (t : DValue Scalar) : (b : Body) →
    keyValuesOf w (editEntries v last t b) = keyValuesOf w b ∧ pairKeys (editEntries v last t b) = pairKeys b
  | .nil => by rw [editEntries]; exact ⟨rfl, rfl⟩
  | .dangling n cs rest => by
    rw [editEntries, keyValuesOf, keyValuesOf, pairKeys, pairKeys]
    exact editEntries_value v w last t rest
  | .item f n c rest => by
    rw [editEntries]
    have h := (editNode_same v w t n).trans (.commaRule w (last || rest.hasItem) _ c)
    exact ⟨(pairs_congr _ _ _ (editEntries_value v w last t rest).1).trans (h.pairs _ _ _ _ _).symm,
      (pairKeys_congr _ _ _ (editEntries_value v w last t rest).2).trans (h.pairKeys _ _ _ _ _).symm⟩
end

theorem editTable_value (v w : TomlVersion) (t : DValue Scalar) : (b : Body) →
    keyValuesOf w (editTable v t b) = keyValuesOf w b ∧ pairKeys (editTable v t b) = pairKeys b
  | .nil => ⟨rfl, rfl⟩
  | .dangling n cs rest => by
    rw [editTable, keyValuesOf, keyValuesOf, pairKeys, pairKeys]
    exact editTable_value v w t rest
  | .item f n c rest => by
    rw [editTable]
    have h := editNode_same v w t n
    exact ⟨(pairs_congr _ _ _ (editTable_value v w t rest).1).trans (h.pairs _ _ _ _ _).symm,
      (pairKeys_congr _ _ _ (editTable_value v w t rest).2).trans (h.pairKeys _ _ _ _ _).symm⟩

theorem editSections_value (v w : TomlVersion) (root : DValue Scalar) (ss : List Section) : (prev : List (AstSection Scalar)) →
    (editSections v root prev ss).map (astSection w) = ss.map (astSection w) ∧
    ((editSections v root prev ss).flatMap fun s => s.header ++ pairKeys s.body) = ss.flatMap fun s => s.header ++ pairKeys s.body := by
  induction ss with
  | nil => intro prev; exact ⟨rfl, rfl⟩
  | cons s ss ih =>
    intro prev
    obtain ⟨s', h, e⟩ := editSections_cons v root prev s ss
    rw [h, List.map_cons, List.map_cons, List.flatMap_cons, List.flatMap_cons, (ih _).1, (ih _).2]
    rcases e with rfl | ⟨t, rfl⟩
    · exact ⟨rfl, rfl⟩
    · simp only [astSection, (editTable_value v w t s.body).1, (editTable_value v w t s.body).2, and_self]

theorem editCommas_value (v w : TomlVersion) (root : DValue Scalar) (d : Doc) :
    astRoot w (editCommas v root d) = astRoot w d ∧ docKeys (editCommas v root d) = docKeys d := by
  have h := editSections_value v w root d.sections []
  unfold astRoot docKeys editCommas
  simp only
  rw [(editTable_value v w root d.body).1, (editTable_value v w root d.body).2, h.2]
  exact ⟨congrArg (AstRoot.mk _) h.1, rfl⟩

theorem moveTop_value (breaks : Nat) (w : TomlVersion) (d : Doc) :
    astRoot w (moveTop breaks d) = astRoot w d ∧ docKeys (moveTop breaks d) = docKeys d := by
  rcases moveTop_cases breaks d with e | ⟨f, n, c, rest, hb, -, -, e⟩ | ⟨s, ss, hb, hs, -, -, e⟩
  · rw [e]; exact ⟨rfl, rfl⟩
  · rw [e]
    unfold astRoot docKeys
    simp only [hb, keyValuesOf, pairKeys]
    rw [(SameItem.dropLeading w n).pairs f c _ c rest, (SameItem.dropLeading w n).pairKeys f c _ c rest]
    exact ⟨rfl, rfl⟩
  · rw [e]
    unfold astRoot docKeys
    simp only [hb, hs, keyValuesOf, pairKeys]
    exact ⟨rfl, rfl⟩

theorem editTree_value (v w : TomlVersion) (root : Green) :
    astRoot w (editTree v root) = astRoot w (Formatter.docOf root) ∧ docKeys (editTree v root) = docKeys (Formatter.docOf root) := by
  unfold editTree
  simp only
  split
  · rw [(moveTop_value _ w _).1, (moveTop_value _ w _).2]
    exact editCommas_value v w _ _
  · exact ⟨rfl, rfl⟩

/-! ### comments -/

theorem dropTrailing_comments (n : Node) (x : Text) :
    x ∈ nodeComments (dropTrailing n) ∨ n.trailing = some x ↔ x ∈ nodeComments n := by
  match n with
  | .lit l k t tr => simp [dropTrailing, nodeComments, Node.trailing]
  | .array l s b tr => simp [dropTrailing, nodeComments, Node.trailing]; grind
  | .table l s b tr => simp [dropTrailing, nodeComments, Node.trailing]; grind
  | .pair l ks src n =>
    have := dropTrailing_comments n x
    simp only [dropTrailing, nodeComments, Node.trailing, List.mem_append, ← this]
    grind

theorem commaRule_comments (a : Bool) (n : Node) (c : Option Comma) (x : Text) :
    x ∈ nodeComments (commaRule a n c).1 ∨ x ∈ commaComments (commaRule a n c).2 ↔ x ∈ nodeComments n ∨ x ∈ commaComments c := by
  rcases commaRule_cases a n c with e | ⟨e, hc⟩
  · rw [e]
  · rw [e, ← dropTrailing_comments n x]
    rcases hc with rfl | rfl <;> simp [commaComments]

theorem editItems_head (v : TomlVersion) (last : Bool) (ts : List (DValue Scalar)) : (b : Body) →
    headComments (editItems v last ts b) = headComments b
  | .nil => by rw [editItems]
  | .dangling n cs rest => by rw [editItems, headComments, headComments, editItems_head v last ts rest]
  | .item f n c rest => by cases ts <;> rw [editItems] <;> rfl

theorem editEntries_head (v : TomlVersion) (last : Bool) (t : DValue Scalar) : (b : Body) →
    headComments (editEntries v last t b) = headComments b
  | .nil => by rw [editEntries]
  | .dangling n cs rest => by rw [editEntries, headComments, headComments, editEntries_head v last t rest]
  | .item f n c rest => by rw [editEntries]; rfl

theorem editTable_head (v : TomlVersion) (t : DValue Scalar) : (b : Body) → headComments (editTable v t b) = headComments b
  | .nil => by rw [editTable]
  | .dangling n cs rest => by rw [editTable, headComments, headComments, editTable_head v t rest]
  | .item f n c rest => by rw [editTable]; rfl

mutual
theorem editNode_comments (v : TomlVersion) (t : DValue Scalar) (x : Text) : (n : Node) →
    (x ∈ nodeComments (editNode v t n) ↔ x ∈ nodeComments n)
  | .lit .. => by rw [editNode]
  | .array l s b tr => by
    rw [editNode]
    split
    · have := editItems_comments v (b.lastComma false) ‹_› x b
      simp only [nodeComments, List.mem_append, editItems_head, this]
    · rfl
  | .table l s b tr => by
    rw [editNode]
    split
    · have := editEntries_comments v (b.lastComma false) ‹_› x b
      simp only [nodeComments, List.mem_append, editEntries_head]
      rw [editEntries_comments v _ _ x b]
    · rfl
  | .pair l ks src n => by
    rw [editNode]
    split
    · simp only [nodeComments, List.mem_append]
      rw [editNode_comments v _ x n]
    · rfl
theorem editItems_comments (v : TomlVersion) (last : Bool) (ts : List (DValue Scalar)) (x : Text) : (b : Body) →
    (x ∈ bodyComments (editItems v last ts b) ↔ x ∈ bodyComments b)
  | .nil => by rw [editItems]
  | .dangling n cs rest => by rw [editItems, bodyComments, bodyComments, editItems_comments v last ts x rest]
  | .item f n c rest => by
    cases ts with
    | nil => rw [editItems]
    | cons t ts =>
      rw [editItems]
      simp only [bodyComments, List.mem_append, editItems_comments v last ts x rest, commaRule_comments, editNode_comments v t x n]
theorem editEntries_comments (v : TomlVersion) (last : Bool) (t : DValue Scalar) (x : Text) : (b : Body) →
    (x ∈ bodyComments (editEntries v last t b) ↔ x ∈ bodyComments b)
  | .nil => by rw [editEntries]
  | .dangling n cs rest => by rw [editEntries, bodyComments, bodyComments, editEntries_comments v last t x rest]
  | .item f n c rest => by
    rw [editEntries]
    simp only [bodyComments, List.mem_append, editEntries_comments v last t x rest, commaRule_comments, editNode_comments v t x n]
end

theorem editTable_comments (v : TomlVersion) (t : DValue Scalar) (x : Text) : (b : Body) →
    (x ∈ bodyComments (editTable v t b) ↔ x ∈ bodyComments b)
  | .nil => by rw [editTable]
  | .dangling n cs rest => by rw [editTable, bodyComments, bodyComments, editTable_comments v t x rest]
  | .item f n c rest => by
    rw [editTable]
    simp only [bodyComments, List.mem_append, editTable_comments v t x rest, editNode_comments v t x n]

theorem editCommas_comments (v : TomlVersion) (root : DValue Scalar) (d : Doc) (x : Text) :
    x ∈ docComments (editCommas v root d) ↔ x ∈ docComments d := by
  have : ∀ (ss : List Section) (prev : List (AstSection Scalar)),
      x ∈ ((editSections v root prev ss).flatMap fun s => s.leading ++ s.trailing.toList ++ headComments s.body ++ bodyComments s.body) ↔
      x ∈ ss.flatMap fun s => s.leading ++ s.trailing.toList ++ headComments s.body ++ bodyComments s.body := by
    intro ss
    induction ss with
    | nil => intro prev; rfl
    | cons s ss ih =>
      intro prev
      obtain ⟨s', h, e⟩ := editSections_cons v root prev s ss
      rw [h, List.flatMap_cons, List.flatMap_cons, List.mem_append, ih]
      rcases e with rfl | ⟨t, rfl⟩
      · simp only [List.mem_append]
      · simp only [List.mem_append, editTable_head, editTable_comments]
  unfold docComments
  rw [List.mem_append, List.mem_append]
  simp only [editCommas]
  rw [this, List.mem_append, editTable_head, editTable_comments, List.mem_append]

theorem dropLeading_comments (n : Node) (x : Text) : x ∈ nodeComments n ↔ x ∈ n.leading ∨ x ∈ nodeComments (dropLeading n) := by
  cases n <;> simp [dropLeading, nodeComments, Node.leading] <;> grind

theorem moveTop_comments (breaks : Nat) (d : Doc) (x : Text) : x ∈ docComments (moveTop breaks d) ↔ x ∈ docComments d := by
  rcases moveTop_cases breaks d with e | ⟨f, n, c, rest, hb, -, -, e⟩ | ⟨s, ss, hb, hs, -, -, e⟩
  · rw [e]
  · rw [e]
    unfold docComments
    simp only [hb, headComments, bodyComments, List.mem_append, dropLeading_comments n x]
    grind
  · rw [e]
    unfold docComments
    simp only [hb, hs, headComments, bodyComments, List.flatMap_cons, List.mem_append]
    grind

theorem editTree_comments (v : TomlVersion) (root : Green) (x : Text) :
    x ∈ docComments (editTree v root) ↔ x ∈ docComments (Formatter.docOf root) := by
  unfold editTree
  simp only
  split
  · rw [moveTop_comments, editCommas_comments]
  · rfl

end Tombi.Editing
