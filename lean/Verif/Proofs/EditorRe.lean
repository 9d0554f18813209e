import Verif.Model.EditorSort
import Verif.Proofs.EditorWords
import Verif.Spec.FormatWords
import Verif.Spec.Rearranged
/-! A relation between the bodies of a document before and after sorting, and what it keeps. -/
namespace Tombi.Editing
open SyntaxKind
open Tombi.Format (AstKey)
open Tombi.Formatter (Node Body Section Doc Comma Text Prev FirstOk Word commentWords trailingWords keyWords commaWords NamesBeforeDots DotKey)
open Tombi.Reading (Scalar keyOr valueOf itemsOf keyValuesOf astRoot nodeKeys itemKeys pairKeys docKeys headComments bodyComments nodeComments
  commaComments docComments)

/-- A body after some of its groups have been put in another order: key-values, and elements of arrays if `arrays`. The
comments of new commas are in `C`. `pairs` says that the items are key-values. -/
inductive Re (C : Text → Prop) (arrays : Bool) : Bool → Body → Body → Prop where
  | refl {pairs : Bool} (b : Body) : Re C arrays pairs b b
  | trans {pairs : Bool} {a b c : Body} : Re C arrays pairs a b → Re C arrays pairs b c → Re C arrays pairs a c
  | swap {pairs : Bool} (h : pairs = true ∨ arrays = true) (f : Option Nat) (a : Node) (ca : Option Comma) (b : Node) (cb : Option Comma)
      (rest : Body) : Re C arrays pairs (.item f a ca (.item none b cb rest)) (.item f b cb (.item none a ca rest))
  | tail {pairs : Bool} (f : Option Nat) (n : Node) (c : Option Comma) {b b' : Body} : Re C arrays pairs b b' →
      Re C arrays pairs (.item f n c b) (.item f n c b')
  | dangling {pairs : Bool} (k : Nat) (cs : List Text) {b b' : Body} : Re C arrays pairs b b' →
      Re C arrays pairs (.dangling k cs b) (.dangling k cs b')
  | commas {pairs : Bool} (f : Option Nat) {n n' : Node} (c : Option Comma) {c' : Option Comma} (rest : Body)
      (hn : n' = n ∨ n' = dropTrailing n) (hc : ∀ f t, Word.comment f t ∈ commaWords c' → C t) : Re C arrays pairs (.item f n c rest) (.item f n' c' rest)
  | array (f : Option Nat) (l : List Text) (s : Option Text) (tr : Option Text) (c : Option Comma) (rest : Body) {b b' : Body} :
      Re C arrays false b b' → Re C arrays false (.item f (.array l s b tr) c rest) (.item f (.array l s b' tr) c rest)
  | table (f : Option Nat) (l : List Text) (s : Option Text) (tr : Option Text) (c : Option Comma) (rest : Body) {b b' : Body} :
      Re C arrays true b b' → Re C arrays false (.item f (.table l s b tr) c rest) (.item f (.table l s b' tr) c rest)
  | pairArray (f : Option Nat) (lp : List Text) (ks : List AstKey) (src : Text) (l : List Text) (s : Option Text) (tr : Option Text)
      (c : Option Comma) (rest : Body) {b b' : Body} : Re C arrays false b b' →
      Re C arrays true (.item f (.pair lp ks src (.array l s b tr)) c rest) (.item f (.pair lp ks src (.array l s b' tr)) c rest)
  | pairTable (f : Option Nat) (lp : List Text) (ks : List AstKey) (src : Text) (l : List Text) (s : Option Text) (tr : Option Text)
      (c : Option Comma) (rest : Body) {b b' : Body} : Re C arrays true b b' →
      Re C arrays true (.item f (.pair lp ks src (.table l s b tr)) c rest) (.item f (.pair lp ks src (.table l s b' tr)) c rest)

variable {C : Text → Prop} {arrays pairs : Bool} {b b' : Body}

/-! ### shape -/

theorem Re.wf (h : Re C arrays pairs b b') : ∀ {d : Nat} {prev : Prev}, b.WF pairs d prev → b'.WF pairs d prev := by
  induction h with
  | refl => exact id
  | trans _ _ ih1 ih2 => exact fun h => ih2 (ih1 h)
  | swap h f a ca b cb rest =>
    intro d prev hw
    simp only [Body.WF] at hw ⊢
    exact ⟨hw.2.2.2.1, hw.2.2.2.2.1, hw.2.2.1, hw.1, hw.2.1, hw.2.2.2.2.2.1, hw.2.2.2.2.2.2⟩
  | tail f n c _ ih =>
    intro d prev hw
    simp only [Body.WF] at hw ⊢
    exact ⟨hw.1, hw.2.1, hw.2.2.1, ih hw.2.2.2⟩
  | dangling k cs _ ih =>
    intro d prev hw
    simp only [Body.WF] at hw ⊢
    exact ⟨hw.1, hw.2.1, hw.2.2.1, ih hw.2.2.2⟩
  | commas f c rest hn hc =>
    intro d prev hw
    simp only [Body.WF] at hw ⊢
    rcases hn with rfl | rfl
    · exact hw
    · exact ⟨by rw [dropTrailing_isPair]; exact hw.1, dropTrailing_wf _ hw.2.1, hw.2.2⟩
  | array f l s tr c rest _ ih | table f l s tr c rest _ ih =>
    intro d prev hw
    simp only [Body.WF, Node.WF] at hw ⊢
    exact ⟨hw.1, ⟨hw.2.1.1, ih hw.2.1.2⟩, hw.2.2⟩
  | pairArray f lp ks src l s tr c rest _ ih | pairTable f lp ks src l s tr c rest _ ih =>
    intro d prev hw
    simp only [Body.WF, Node.WF] at hw ⊢
    exact ⟨hw.1, ⟨hw.2.1.1, hw.2.1.2.1, hw.2.1.2.2.1, hw.2.1.2.2.2.1, ih hw.2.1.2.2.2.2⟩, hw.2.2⟩

theorem Re.last (h : Re C arrays pairs b b') : ∀ (prev : Prev), b'.last prev = b.last prev := by
  induction h with
  | trans _ _ ih1 ih2 => intro prev; rw [ih2, ih1]
  | tail f n c _ ih => intro prev; rw [Body.last, Body.last, ih]
  | dangling k cs _ ih => intro prev; rw [Body.last, Body.last, ih]
  | _ => intros; rfl

/-! ### words -/

theorem tokens_append (a b : List Word) : tokens (a ++ b) = tokens a ++ tokens b := List.filter_append ..

theorem tokens_comments (cs : List Text) : tokens (commentWords cs) = [] := by
  cases cs with
  | nil => rfl
  | cons c cs =>
    refine List.filter_eq_nil_iff.mpr fun w hw => ?_
    simp only [commentWords, List.mem_cons, List.mem_map] at hw
    rcases hw with rfl | ⟨_, _, rfl⟩ <;> simp [isToken]

theorem tokens_trailing (t : Option Text) : tokens (trailingWords t) = [] := by cases t <;> rfl

theorem tokens_comma (c : Option Comma) : tokens (commaWords c) = [] := by
  cases c with
  | none => rfl
  | some c => rw [commaWords, tokens_append, tokens_comments, tokens_trailing]; rfl

theorem tokens_dropTrailing (n : Node) : tokens (dropTrailing n).words = tokens n.words := by
  rw [dropTrailing_words n, tokens_append, tokens_trailing, List.append_nil]

theorem tokens_item (f : Option Nat) (n : Node) (c : Option Comma) (b : Body) :
    tokens (Body.item f n c b).words = tokens n.words ++ tokens b.words := by
  rw [Body.words, tokens_append, tokens_append, tokens_comma, List.append_nil]

/-- The tokens are the same ones, in another order. -/
theorem Re.tokens (h : Re C arrays pairs b b') : (tokens b'.words).Perm (tokens b.words) := by
  induction h with
  | refl => exact .refl _
  | trans _ _ ih1 ih2 => exact ih2.trans ih1
  | swap h f a ca b cb rest =>
    simp only [tokens_item]
    rw [← List.append_assoc, ← List.append_assoc]
    exact List.perm_append_comm.append_right _
  | tail f n c _ ih => simp only [tokens_item]; exact ih.append_left _
  | dangling k cs _ ih => simp only [Body.words, tokens_append]; exact ih.append_left _
  | commas f c rest hn hc =>
    simp only [tokens_item]
    rcases hn with rfl | rfl
    · exact .refl _
    · rw [tokens_dropTrailing]
  | array f l s tr c rest _ ih | table f l s tr c rest _ ih =>
    simp only [tokens_item]
    refine List.Perm.append_right _ ?_
    simp only [Node.words, tokens_append]
    exact (ih.append_left _).append_right _
  | pairArray f lp ks src l s tr c rest _ ih | pairTable f lp ks src l s tr c rest _ ih =>
    simp only [tokens_item]
    refine List.Perm.append_right _ ?_
    simp only [Node.words, tokens_append]
    refine List.Perm.append_left _ ?_
    have e : ∀ ws, Editing.tokens (Word.mark EQUAL :: ws) = .mark EQUAL :: Editing.tokens ws := fun _ => rfl
    simp only [e, tokens_append]
    exact ((ih.append_left _).append_right _).cons _

/-- The comments are comments of the source. -/
theorem Re.comments (h : Re C arrays pairs b b') : (∀ f t, Word.comment f t ∈ b.words → C t) →
    ∀ f t, Word.comment f t ∈ b'.words → C t := by
  induction h with
  | refl => exact id
  | trans _ _ ih1 ih2 => exact fun h => ih2 (ih1 h)
  | swap h f a ca b cb rest =>
    intro hc g t ht
    refine hc g t ?_
    simp only [Body.words, List.mem_append] at ht ⊢
    grind
  | tail f n c _ ih =>
    intro hc g t ht
    simp only [Body.words, List.mem_append] at hc ht
    rcases ht with ht | ht
    · exact hc g t (.inl ht)
    · exact ih (fun g t h => hc g t (.inr h)) g t ht
  | dangling k cs _ ih =>
    intro hc g t ht
    simp only [Body.words, List.mem_append] at hc ht
    rcases ht with ht | ht
    · exact hc g t (.inl ht)
    · exact ih (fun g t h => hc g t (.inr h)) g t ht
  | @commas _ f n n' c c' rest hn hc' =>
    intro hc g t ht
    simp only [Body.words, List.mem_append] at hc ht
    rcases ht with (ht | ht) | ht
    · refine hc g t (.inl (.inl ?_))
      rcases hn with rfl | rfl
      · exact ht
      · rw [dropTrailing_words n]; exact List.mem_append_left _ ht
    · exact hc' g t ht
    · exact hc g t (.inr ht)
  | array f l s tr c rest _ ih | table f l s tr c rest _ ih | pairArray f lp ks src l s tr c rest _ ih
  | pairTable f lp ks src l s tr c rest _ ih =>
    intro hc g t ht
    simp only [Body.words, Node.words, List.mem_append, List.mem_cons] at hc ht
    have := ih (fun g t h => hc g t (by simp [h])) g t
    grind

/-! ### keys before dots -/

/-- No dot comes first. -/
def NoDot (ws : List Word) : Prop := ws.head? ≠ some (.mark DOT)

theorem NoDot.append {a b : List Word} (ha : NoDot a) (hb : NoDot b) : NoDot (a ++ b) := by
  cases a with
  | nil => exact hb
  | cons => exact ha

theorem names_append {a b : List Word} (hb : NoDot b) : NamesBeforeDots (a ++ b) ↔ NamesBeforeDots a ∧ NamesBeforeDots b := by
  constructor
  · intro h
    refine ⟨fun x t y e => h x t (y ++ b) (by rw [e]; simp), fun x t y e => h (a ++ x) t y (by rw [e]; simp)⟩
  · rintro ⟨h1, h2⟩ x t y e
    rcases List.append_eq_append_iff.mp e with ⟨x', rfl, e2⟩ | ⟨a', rfl, e2⟩
    · exact h2 x' t y e2
    · cases a' with
      | nil => exact h2 [] t y (by simpa using e2.symm)
      | cons w a' =>
        rw [List.cons_append] at e2
        obtain ⟨rfl, e3⟩ := List.cons.inj e2
        cases a' with
        | nil => exact absurd (by rw [← e3.trans (List.nil_append _)]; rfl) hb
        | cons w a' =>
          rw [List.cons_append] at e3
          obtain ⟨rfl, -⟩ := List.cons.inj e3
          exact h1 x t a' rfl

theorem noDot_comments (cs : List Text) : NoDot (commentWords cs) := by cases cs <;> simp [NoDot, commentWords]

theorem noDot_trailing (t : Option Text) : NoDot (trailingWords t) := by cases t <;> simp [NoDot, trailingWords]

theorem noDot_comma (c : Option Comma) : NoDot (commaWords c) := by
  cases c with
  | none => simp [NoDot, commaWords]
  | some c => exact (noDot_comments _).append (noDot_trailing _)

theorem noDot_keys (ks : List AstKey) : NoDot (keyWords ks) := by
  match ks with
  | [] => simp [NoDot, keyWords]
  | [k] => simp [NoDot, keyWords]
  | k :: k' :: ks => simp [NoDot, keyWords]

theorem noDot_node (n : Node) : NoDot n.words := by
  match n with
  | .lit l k t tr => rw [Node.words]; exact (noDot_comments _).append (by simp [NoDot])
  | .array l s b tr =>
    rw [Node.words, List.append_assoc, List.append_assoc]
    exact (noDot_comments _).append (by simp [NoDot])
  | .table l s b tr =>
    rw [Node.words, List.append_assoc, List.append_assoc]
    exact (noDot_comments _).append (by simp [NoDot])
  | .pair l ks src n =>
    rw [Node.words, List.append_assoc]
    exact (noDot_comments _).append ((noDot_keys _).append (by simp [NoDot]))

theorem noDot_body (b : Body) : NoDot b.words := by
  match b with
  | .nil => simp [NoDot, Body.words]
  | .dangling k cs rest => rw [Body.words]; exact (noDot_comments _).append (noDot_body rest)
  | .item f n c rest => rw [Body.words]; exact ((noDot_node n).append (noDot_comma c)).append (noDot_body rest)

/-- No bare key. -/
theorem names_plain {ws : List Word} (h : ∀ t, Word.key (.bare t) ∉ ws) : NamesBeforeDots ws :=
  fun a t b e => absurd (by rw [e]; simp) (h t)

theorem names_comments (cs : List Text) : NamesBeforeDots (commentWords cs) := by
  refine names_plain fun t h => ?_
  cases cs with
  | nil => cases h
  | cons c cs => simp [commentWords] at h

theorem names_trailing (t : Option Text) : NamesBeforeDots (trailingWords t) := by
  refine names_plain fun _ h => ?_
  cases t <;> simp [trailingWords] at h

theorem names_comma (c : Option Comma) : NamesBeforeDots (commaWords c) := by
  cases c with
  | none => exact names_plain fun t h => by cases h
  | some c => exact (names_append (noDot_trailing _)).mpr ⟨names_comments _, names_trailing _⟩

theorem names_mark {k : SyntaxKind} {ws : List Word} (hw : NoDot ws) : NamesBeforeDots (.mark k :: ws) ↔ NamesBeforeDots ws := by
  rw [show Word.mark k :: ws = [.mark k] ++ ws from rfl, names_append hw]
  exact ⟨fun h => h.2, fun h => ⟨names_plain fun t h => by simp at h, h⟩⟩

theorem names_item (f : Option Nat) (n : Node) (c : Option Comma) (b : Body) :
    NamesBeforeDots (Body.item f n c b).words ↔ NamesBeforeDots n.words ∧ NamesBeforeDots b.words := by
  rw [Body.words, names_append (noDot_body b), names_append (noDot_comma c)]
  exact ⟨fun h => ⟨h.1.1, h.2⟩, fun h => ⟨⟨h.1, names_comma c⟩, h.2⟩⟩

theorem names_dangling (k : Nat) (cs : List Text) (b : Body) :
    NamesBeforeDots (Body.dangling k cs b).words ↔ NamesBeforeDots b.words := by
  rw [Body.words, names_append (noDot_body b)]
  exact ⟨fun h => h.2, fun h => ⟨names_comments cs, h⟩⟩

theorem names_between {k k' : SyntaxKind} (hk : k ≠ DOT) (hk' : k' ≠ DOT) (l : List Text) (s : Option Text) (ws : List Word) (hw : NoDot ws)
    (tr : Option Text) : NamesBeforeDots (commentWords l ++ .mark k :: trailingWords s ++ ws ++ .mark k' :: trailingWords tr) ↔
      NamesBeforeDots ws := by
  rw [names_append (by simpa [NoDot] using hk'), names_append hw, names_append (by simpa [NoDot] using hk),
    names_mark (noDot_trailing _), names_mark (noDot_trailing _)]
  exact ⟨fun h => h.1.2, fun h => ⟨⟨⟨names_comments _, names_trailing _⟩, h⟩, names_trailing _⟩⟩

theorem names_array (l : List Text) (s : Option Text) (b : Body) (tr : Option Text) :
    NamesBeforeDots (Node.array l s b tr).words ↔ NamesBeforeDots b.words := by
  rw [Node.words]; exact names_between (by decide) (by decide) _ _ _ (noDot_body b) _

theorem names_table (l : List Text) (s : Option Text) (b : Body) (tr : Option Text) :
    NamesBeforeDots (Node.table l s b tr).words ↔ NamesBeforeDots b.words := by
  rw [Node.words]; exact names_between (by decide) (by decide) _ _ _ (noDot_body b) _

theorem names_pair (l : List Text) (ks : List AstKey) (src : Text) (n : Node) :
    NamesBeforeDots (Node.pair l ks src n).words ↔ NamesBeforeDots (keyWords ks) ∧ NamesBeforeDots n.words := by
  rw [Node.words, names_append (by simp [NoDot]), names_append (noDot_keys ks), names_mark (noDot_node n)]
  exact ⟨fun h => ⟨h.1.2, h.2⟩, fun h => ⟨⟨names_comments _, h.1⟩, h.2⟩⟩

theorem Re.names (h : Re C arrays pairs b b') : NamesBeforeDots b.words → NamesBeforeDots b'.words := by
  induction h with
  | refl => exact id
  | trans _ _ ih1 ih2 => exact fun h => ih2 (ih1 h)
  | swap h f a ca b cb rest => simp only [names_item]; exact fun h => ⟨h.2.1, h.1, h.2.2⟩
  | tail f n c _ ih => simp only [names_item]; exact fun h => ⟨h.1, ih h.2⟩
  | dangling k cs _ ih => simp only [names_dangling]; exact ih
  | @commas _ f n n' c c' rest hn hc' =>
    simp only [names_item]
    refine fun h => ⟨?_, h.2⟩
    rcases hn with rfl | rfl
    · exact h.1
    · have := h.1
      rw [dropTrailing_words n, names_append (noDot_trailing _)] at this
      exact this.1
  | array f l s tr c rest _ ih => simp only [names_item, names_array]; exact fun h => ⟨ih h.1, h.2⟩
  | table f l s tr c rest _ ih => simp only [names_item, names_table]; exact fun h => ⟨ih h.1, h.2⟩
  | pairArray f lp ks src l s tr c rest _ ih =>
    simp only [names_item, names_pair, names_array]; exact fun h => ⟨⟨h.1.1, ih h.1.2⟩, h.2⟩
  | pairTable f lp ks src l s tr c rest _ ih =>
    simp only [names_item, names_pair, names_table]; exact fun h => ⟨⟨h.1.1, ih h.1.2⟩, h.2⟩

end Tombi.Editing
