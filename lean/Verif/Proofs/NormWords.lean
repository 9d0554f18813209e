import Verif.Proofs.FormatRead3
import Verif.Spec.FormatWords
/-! The words of the document that is read back are the words as they are written. -/
namespace Tombi.Formatter
open SyntaxKind
open Tombi.Format (AstKey)

/-- `ws'` are the words `ws` as they are written. -/
def Same (E : Env) (ws ws' : List Word) : Prop := ws'.map Word.leaf = ws.map fun w => (E.write w).leaf

theorem Same.app {E : Env} {a b a' b' : List Word} (h : Same E a a') (k : Same E b b') : Same E (a ++ b) (a' ++ b') := by
  unfold Same at *
  rw [List.map_append, List.map_append, h, k]

theorem same_nil (E : Env) : Same E [] [] := rfl

theorem Same.cons {E : Env} {w w' : Word} {a a' : List Word} (hw : w'.leaf = (E.write w).leaf) (h : Same E a a') :
    Same E (w :: a) (w' :: a') := by
  unfold Same at *
  rw [List.map_cons, List.map_cons, h, hw]

theorem Same.mark {E : Env} {k : SyntaxKind} {a a' : List Word} (h : Same E a a') : Same E (.mark k :: a) (.mark k :: a') :=
  h.cons rfl

theorem same_comments (E : Env) (cs : List Text) : Same E (commentWords cs) (commentWords (E.rl cs)) := by
  cases cs with
  | nil => rfl
  | cons c cs =>
    refine Same.cons rfl ?_
    unfold Same
    simp [Word.leaf, Env.write, Piece.leaf]

theorem same_trailing (E : Env) (c : Option Text) : Same E (trailingWords c) (trailingWords (E.rt c)) := by
  cases c <;> rfl

theorem rk_leaf (E : Env) (k : AstKey) : (Word.key (E.rk k)).leaf = (E.key k).leaf := by
  have : writtenKind (E.keyText k) (keyKind k) = BARE_KEY ∨ writtenKind (E.keyText k) (keyKind k) = BASIC_STRING ∨
      writtenKind (E.keyText k) (keyKind k) = LITERAL_STRING := by
    unfold writtenKind
    split
    · exact .inr (.inr rfl)
    · exact .inr (.inl rfl)
    · cases k
      · exact .inl rfl
      · exact .inr (.inl rfl)
      · exact .inr (.inr rfl)
  unfold Env.rk Env.key Piece.leaf
  rcases this with h | h | h <;> rw [h] <;> rfl

theorem same_keys (E : Env) : (ks : List AstKey) → Same E (keyWords ks) (keyWords (ks.map E.rk))
  | [] => rfl
  | [k] => (same_nil E).cons (rk_leaf E k)
  | a :: b :: ks => (same_keys E (b :: ks)).mark.cons (rk_leaf E a)

theorem same_comma (E : Env) (c : Option Comma) : Same E (commaWords c) (commaWords (c.map E.rc)) := by
  cases c with
  | none => rfl
  | some c => exact (same_comments E _).app (same_trailing E _)

theorem rt_isSome (E : Env) (c : Option Text) : (E.rt c).isSome = c.isSome := by cases c <;> rfl

theorem norm_trailing {E : Env} : {n n' : Node} → NormN E n n' → n'.trailing = E.rt n.trailing
  | .lit .., _, h => by rw [NormN] at h; subst h; rfl
  | .array .., _, h => by rw [NormN] at h; obtain ⟨_, _, rfl, -⟩ := h; rfl
  | .table .., _, h => by rw [NormN] at h; obtain ⟨_, _, rfl, -⟩ := h; rfl
  | .pair l ks s v, _, h => by
    rw [NormN] at h
    obtain ⟨_, v', rfl, hv⟩ := h
    exact norm_trailing (n := v) (n' := v') hv

theorem addTrailing_words (n : Node) (c : Option Text) (h : n.trailing = none) : (n.addTrailing c).words = n.words ++ trailingWords c := by
  cases n with
  | lit l k t tr =>
    have h : tr = none := h
    subst h
    simp [Node.addTrailing, Node.words, trailingWords]
  | array l s b tr =>
    have h : tr = none := h
    subst h
    simp [Node.addTrailing, Node.words, trailingWords]
  | table l s b tr =>
    have h : tr = none := h
    subst h
    simp [Node.addTrailing, Node.words, trailingWords]
  | pair l ks s v =>
    have h : v.trailing = none := h
    simp [Node.addTrailing, Node.words, addTrailing_words v c h]

/-- No comments of its own. -/
theorem commaWords_none {c : Option Comma} (h : commaHasComment c = false) : commaWords c = [] := by
  cases c with
  | none => rfl
  | some c =>
    obtain ⟨l, t⟩ := c
    cases l with
    | nil =>
      cases t with
      | none => rfl
      | some t => simp [commaHasComment] at h
    | cons x l => simp [commaHasComment] at h

/-- Neither dangling comments nor comments around the commas. -/
def Body.noOwn : Body → Prop
  | .nil => True
  | .dangling _ cs rest => cs = [] ∧ rest.noOwn
  | .item _ _ c rest => commaHasComment c = false ∧ rest.noOwn

theorem noOwn_of_direct : (b : Body) → b.hasDirectComment = false → b.noOwn
  | .nil, _ => trivial
  | .dangling .., h => by cases h
  | .item f n c rest, h => by
    simp only [Body.hasDirectComment, Bool.or_eq_false_iff] at h
    exact ⟨h.1.2, noOwn_of_direct rest h.2⟩

theorem noOwn_of_comment : (b : Body) → b.hasComment = false → b.noOwn
  | .nil, _ => trivial
  | .dangling n cs rest, h => by
    simp only [Body.hasComment, Bool.or_eq_false_iff] at h
    exact ⟨by simpa using h.1, noOwn_of_comment rest h.2⟩
  | .item f n c rest, h => by
    simp only [Body.hasComment, Bool.or_eq_false_iff] at h
    exact ⟨h.1.2, noOwn_of_comment rest h.2⟩

theorem noOwn_array {E : Env} {s : Option Text} {b : Body} (h : E.arrayMultiline s b = false) : b.noOwn := by
  simp only [Env.arrayMultiline, Bool.or_eq_false_iff] at h
  exact noOwn_of_comment b h.2.2

theorem noOwn_table {E : Env} {s : Option Text} {b : Body} (h : E.tableMultiline s b = false) : b.noOwn := by
  unfold Env.tableMultiline at h
  split at h
  · simp only [Bool.or_eq_false_iff] at h
    exact noOwn_of_direct b h.2
  · simp only [Bool.or_eq_false_iff] at h
    exact noOwn_of_comment b h.2.2

mutual
theorem normN_same {E : Env} : (n : Node) → {n' : Node} → NormN E n n' → Same E n.words n'.words
  | .lit l k t tr, n', h => by
    rw [NormN] at h
    subst h
    rw [Node.words, Node.words]
    exact (same_comments E l).app ((same_trailing E tr).cons rfl)
  | .array l s b tr, n', h => by
    rw [NormN] at h
    obtain ⟨b', multi, rfl, hm, -, h1, h2⟩ := h
    have hb : Same E b.words b'.words := by
      cases multi with
      | true => exact normB_same b (h1 rfl)
      | false => exact normF_same b (noOwn_array (hm rfl)) (h2 rfl)
    rw [Node.words, Node.words]
    exact (((same_comments E l).app (same_trailing E s).mark).app hb).app (same_trailing E tr).mark
  | .table l s b tr, n', h => by
    rw [NormN] at h
    obtain ⟨b', multi, rfl, hm, -, h1, h2⟩ := h
    have hb : Same E b.words b'.words := by
      cases multi with
      | true => exact normB_same b (h1 rfl)
      | false => exact normF_same b (noOwn_table (hm rfl)) (h2 rfl)
    rw [Node.words, Node.words]
    exact (((same_comments E l).app (same_trailing E s).mark).app hb).app (same_trailing E tr).mark
  | .pair l ks s v, n', h => by
    rw [NormN] at h
    obtain ⟨_, v', rfl, hv⟩ := h
    rw [Node.words, Node.words]
    exact ((same_comments E l).app (same_keys E ks)).app (normN_same v hv).mark
theorem normB_same {E : Env} : {prev : Prev} → (b : Body) → {b' : Body} → NormB E prev b b' → Same E b.words b'.words
  | _, .nil, b', h => by rw [NormB] at h; subst h; rfl
  | _, .dangling n cs rest, b', h => by
    rw [NormB] at h
    obtain ⟨rest', rfl, hr⟩ := h
    rw [Body.words, Body.words]
    exact (same_comments E cs).app (normB_same rest hr)
  | _, .item f n c rest, b', h => by
    rw [NormB] at h
    obtain ⟨n', rest', rfl, hn, hr⟩ := h
    rw [Body.words, Body.words]
    exact ((normN_same n hn).app (same_comma E c)).app (normB_same rest hr)
theorem normF_same {E : Env} : {first : Bool} → (b : Body) → {b' : Body} → b.noOwn → NormF E first b b' → Same E b.words b'.words
  | _, .nil, b', _, h => by rw [NormF] at h; subst h; rfl
  | _, .dangling n cs rest, b', ho, h => by
    rw [NormF] at h
    rw [Body.words, ho.1]
    exact normF_same rest ho.2 h
  | _, .item f n c rest, b', ho, h => by
    rw [NormF] at h
    obtain ⟨n', rest', rfl, hn, hr⟩ := h
    rw [Body.words, Body.words, commaWords_none ho.1]
    have : commaWords (if rest.hasItem then some ⟨[], none⟩ else none) = [] := by split <;> rfl
    rw [this]
    exact ((normN_same n hn).app (same_nil E)).app (normF_same rest ho.2 hr)
end

theorem normP_same {E : Env} : {prev : Prev} → (b : Body) → {b' : Body} → NormP E prev b b' → Same E b.words b'.words
  | _, .nil, b', h => by rw [NormP] at h; subst h; rfl
  | _, .dangling n cs rest, b', h => by
    rw [NormP] at h
    obtain ⟨rest', rfl, hr⟩ := h
    rw [Body.words, Body.words]
    exact (same_comments E cs).app (normP_same rest hr)
  | _, .item f n c rest, b', h => by
    rw [NormP] at h
    obtain ⟨n', rest', rfl, hn, hr⟩ := h
    rw [Body.words, Body.words]
    refine Same.app ?_ (normP_same rest hr)
    have hs := normN_same n hn
    cases c with
    | none => rw [show E.tc n.trailing.isSome none = (none, none) from rfl, addTrailing_none]; exact hs.app (same_nil E)
    | some c =>
      obtain ⟨cl, ct⟩ := c
      have hkeep : ∀ cm : Comma, Same E (n.words ++ commaWords (some cm)) ((n'.addTrailing none).words ++ commaWords (some (E.rc cm))) := by
        intro cm
        rw [addTrailing_none]
        exact hs.app (same_comma E (some cm))
      unfold Env.tc
      cases ct with
      | none =>
        simp only []
        split
        · rename_i hl
          have : cl = [] := by simpa using hl
          subst this
          rw [addTrailing_none]
          exact hs.app (same_nil E)
        · exact hkeep _
      | some t =>
        simp only []
        split
        · rename_i hl
          rw [Bool.and_eq_true] at hl
          have : cl = [] := by simpa using hl.1
          subst this
          have hnt : n.trailing = none := by
            cases hn : n.trailing with
            | none => rfl
            | some x => rw [hn] at hl; simp at hl
          have ht : n'.trailing = none := by rw [norm_trailing hn, hnt]; rfl
          simp only []
          rw [addTrailing_words _ _ ht]
          have : commaWords (none : Option Comma) = [] := rfl
          rw [this, List.append_nil]
          exact hs.app (same_trailing E (some t))
        · exact hkeep _

theorem normSs_same {E : Env} : (ss : List Section) → {ss' : List Section} → NormSs E ss ss' →
    Same E (ss.map Section.words).flatten (ss'.map Section.words).flatten
  | [], ss', h => by have h : ss' = [] := h; subst h; rfl
  | s :: ss, ss', h => by
    obtain ⟨s', rest', rfl, ⟨h1, h2, h3, h4, h5⟩, hr⟩ := h
    simp only [List.map_cons, List.flatten_cons]
    refine Same.app ?_ (normSs_same ss hr)
    unfold Section.words
    rw [h1, h2, h3, h4]
    exact (((same_comments E _).app (same_keys E _).mark).app (same_trailing E _).mark).app (normP_same _ h5)

theorem normD_same {E : Env} {doc doc' : Doc} (h : NormD E doc doc') : Same E doc.words doc'.words :=
  (normP_same _ h.1).app (normSs_same _ h.2.1)

end Tombi.Formatter
