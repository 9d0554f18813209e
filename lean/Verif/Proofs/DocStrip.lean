import Verif.Proofs.ViewTop
/-! The document that the formatter reads does not depend on blanks, apart from the text of dotted keys, which is only
used to align equal signs. -/
namespace Tombi.Formatter
open SyntaxKind
open Tombi.Format (AstKey)

mutual
/-- without the source text of the keys -/
def Node.bare : Node → Node
  | .lit l k t tr => .lit l k t tr
  | .array l s b tr => .array l s b.bare tr
  | .table l s b tr => .table l s b.bare tr
  | .pair l ks _ v => .pair l ks [] v.bare
/-- without the source text of the keys -/
def Body.bare : Body → Body
  | .nil => .nil
  | .dangling n cs rest => .dangling n cs rest.bare
  | .item f n c rest => .item f n.bare c rest.bare
end

def Section.bare (s : Section) : Section := { s with body := s.body.bare }
def Doc.bare (d : Doc) : Doc := ⟨d.body.bare, d.sections.map Section.bare⟩

/-! ### one list of children -/

theorem kind_strip (g : Green) : kindOf (strip g) = kindOf g := by cases g <;> simp [strip, kindOf]

theorem blank_kind {g : Green} (h : isBlank g = true) : ∃ t, g = .token WHITESPACE t := by
  cases g with
  | token k t => exact ⟨t, by rw [trivia_iff.mp h]⟩
  | node k cs => cases h

theorem not_blank_kind {g : Green} (h : isBlank g = false) : ∀ t, g ≠ .token WHITESPACE t := by
  rintro t rfl
  cases h

theorem stripL_cons_blank {g : Green} {gs : List Green} (h : isBlank g = true) : stripL (g :: gs) = stripL gs := by
  rw [stripL, if_pos h]

theorem stripL_cons {g : Green} {gs : List Green} (h : isBlank g = false) : stripL (g :: gs) = strip g :: stripL gs := by
  rw [stripL, if_neg (by simp [h])]

theorem commentText_strip (g : Green) : commentText? (strip g) = commentText? g := by
  cases g <;> simp [strip, commentText?]

theorem filterMap_strip {β : Type} (f : Green → Option β) (hb : ∀ t, f (.token WHITESPACE t) = none)
    (cs : List Green) (hs : ∀ g ∈ cs, isBlank g = false → f (strip g) = f g) :
    (stripL cs).filterMap f = cs.filterMap f := by
  induction cs with
  | nil => rfl
  | cons g gs ih =>
    have ih := ih fun x hx => hs x (by simp [hx])
    by_cases h : isBlank g = true
    · obtain ⟨t, rfl⟩ := blank_kind h
      rw [stripL_cons_blank h, ih, List.filterMap_cons, hb]
    · simp only [Bool.not_eq_true] at h
      rw [stripL_cons h, List.filterMap_cons, List.filterMap_cons, hs g (by simp) h, ih]

theorem leadingOf_strip (cs : List Green) : leadingOf (stripL cs) = leadingOf cs := by
  induction cs with
  | nil => rfl
  | cons g gs ih =>
    unfold leadingOf at ih ⊢
    by_cases h : isBlank g = true
    · obtain ⟨t, rfl⟩ := blank_kind h
      rw [stripL_cons_blank h, ih, List.takeWhile_cons_of_pos (by rfl)]
      rfl
    · simp only [Bool.not_eq_true] at h
      rw [stripL_cons h]
      by_cases hl : isLeadingKind g = true
      · rw [List.takeWhile_cons_of_pos (by rw [isLeadingKind, kind_strip]; exact hl), List.takeWhile_cons_of_pos hl,
          List.filterMap_cons, List.filterMap_cons, commentText_strip, ih]
      · rw [List.takeWhile_cons_of_neg (by rw [isLeadingKind, kind_strip]; exact hl), List.takeWhile_cons_of_neg hl]

theorem danglingComments_strip (cs : List Green) : danglingComments (stripL cs) = danglingComments cs :=
  filterMap_strip _ (fun _ => rfl) cs fun g _ _ => commentText_strip g

theorem stripL_ne_nil {cs : List Green} (hl : ∀ g, cs.getLast? = some g → isBlank g = false) (hne : cs ≠ []) :
    stripL cs ≠ [] := by
  rcases List.eq_nil_or_concat cs with rfl | ⟨a, g, rfl⟩
  · exact absurd rfl hne
  · rw [List.concat_eq_append] at *
    rw [stripL_append, stripL_cons (hl g (by simp))]
    simp

theorem getLast_tail {g : Green} {gs : List Green} (hne : gs ≠ []) (h : ∀ x, (g :: gs).getLast? = some x → isBlank x = false) :
    ∀ x, gs.getLast? = some x → isBlank x = false := by
  intro x hx
  apply h
  cases gs with
  | nil => exact absurd rfl hne
  | cons y ys => rw [List.getLast?_cons_cons]; exact hx

theorem lastTokens_cons {g : Green} {gs : List Green} (h : gs ≠ []) : lastTokens (g :: gs) = lastTokens gs := by
  cases gs with
  | nil => exact absurd rfl h
  | cons y ys => rw [lastTokens.eq_def]

mutual
theorem lastToken_strip : (g : Green) → Tidy g → lastToken (strip g) = lastToken g
  | .token _ _, _ => rfl
  | .node _ cs, h => by
    rw [strip, lastToken, lastToken]
    exact lastTokens_strip cs h.2.2.2 h.2.2.1
theorem lastTokens_strip : (cs : List Green) → TidyL cs → (∀ g, cs.getLast? = some g → isBlank g = false) →
    lastTokens (stripL cs) = lastTokens cs
  | [], _, _ => rfl
  | [g], h, hl => by
    rw [stripL_cons (hl g (by simp))]
    simp only [stripL, lastTokens]
    exact lastToken_strip g h.1
  | g :: g' :: gs, h, hl => by
    have hl' := getLast_tail (by simp) hl
    have ih := lastTokens_strip (g' :: gs) h.2 hl'
    rw [lastTokens_cons (by simp), ← ih]
    by_cases hb : isBlank g = true
    · rw [stripL_cons_blank hb]
    · simp only [Bool.not_eq_true] at hb
      rw [stripL_cons hb, lastTokens_cons (stripL_ne_nil hl' (by simp))]
end

theorem trailingOf_strip {cs : List Green} (h : TidyL cs) (hl : ∀ g, cs.getLast? = some g → isBlank g = false) :
    trailingOf (stripL cs) = trailingOf cs := by
  unfold trailingOf
  rw [lastTokens_strip cs h hl]

theorem commentAfter_other {g : Green} {gs : List Green} (h1 : ∀ t, g ≠ .token COMMENT t) (h2 : ∀ t, g ≠ .token WHITESPACE t) :
    commentAfter (g :: gs) = none := by
  unfold commentAfter
  split
  · rename_i h; cases h; exact absurd rfl (h1 _)
  · rename_i h; cases h; exact absurd rfl (h2 _)
  · rfl

theorem commentAfter_blank {g : Green} {w : Text} {gs : List Green} (h1 : ∀ t, g ≠ .token COMMENT t) :
    commentAfter (.token WHITESPACE w :: g :: gs) = none := by
  unfold commentAfter
  split
  · rename_i h; cases h
  · rename_i h; cases h; exact absurd rfl (h1 _)
  · rfl

theorem commentAfter_strip {cs : List Green} (h : Apart cs) : commentAfter (stripL cs) = commentAfter cs := by
  have key : ∀ (g : Green) (gs gs' : List Green), isBlank g = false →
      (∃ t, g = .token COMMENT t) ∨ ((∀ t, g ≠ .token COMMENT t) ∧ ∀ t, strip g ≠ .token COMMENT t) := by
    intro g gs gs' hb
    cases g with
    | token k t =>
      by_cases hk : k = COMMENT
      · subst hk; exact .inl ⟨t, rfl⟩
      · refine .inr ⟨?_, ?_⟩ <;> (intro t' h'; cases h'; exact hk rfl)
    | node k cs => refine .inr ⟨?_, ?_⟩ <;> (intro t' h'; cases h')
  have hbl : ∀ g, isBlank g = false → ∀ t, strip g ≠ .token WHITESPACE t := by
    intro g hb t h'
    cases g with
    | token k w => rw [strip] at h'; cases h'; cases hb
    | node k cs => rw [strip] at h'; cases h'
  match cs with
  | [] => rfl
  | g :: gs =>
    by_cases hb : isBlank g = true
    · obtain ⟨w, rfl⟩ := blank_kind hb
      rw [stripL_cons_blank hb]
      cases gs with
      | nil => rfl
      | cons x xs =>
        have hx : isBlank x = false := by
          have := h.1
          simp only [hb, true_and, Bool.not_eq_true] at this
          exact this
        rw [stripL_cons hx]
        rcases key x xs xs hx with ⟨t, rfl⟩ | ⟨h1, h2⟩
        · rfl
        · rw [commentAfter_other h2 (hbl x hx), commentAfter_blank h1]
    · simp only [Bool.not_eq_true] at hb
      rw [stripL_cons hb]
      rcases key g gs gs hb with ⟨t, rfl⟩ | ⟨h1, h2⟩
      · rfl
      · rw [commentAfter_other h2 (hbl g hb), commentAfter_other h1 (not_blank_kind hb)]

theorem dropWhile_strip {p : SyntaxKind → Bool} (hp : p WHITESPACE = true) (cs : List Green) :
    (stripL cs).dropWhile (fun g => p (kindOf g)) = stripL (cs.dropWhile fun g => p (kindOf g)) := by
  induction cs with
  | nil => rfl
  | cons g gs ih =>
    by_cases h : isBlank g = true
    · obtain ⟨t, rfl⟩ := blank_kind h
      rw [stripL_cons_blank h, ih, List.dropWhile_cons_of_pos (by exact hp)]
    · simp only [Bool.not_eq_true] at h
      rw [stripL_cons h]
      by_cases hk : p (kindOf g) = true
      · rw [List.dropWhile_cons_of_pos (by rw [kind_strip]; exact hk), List.dropWhile_cons_of_pos (by exact hk), ih]
      · rw [List.dropWhile_cons_of_neg (by rw [kind_strip]; exact hk), List.dropWhile_cons_of_neg (by exact hk), stripL_cons h]

theorem Apart.dropWhile {p : Green → Bool} {cs : List Green} (h : Apart cs) : Apart (cs.dropWhile p) := by
  induction cs with
  | nil => exact h
  | cons g gs ih =>
    by_cases hp : p g = true
    · rw [List.dropWhile_cons_of_pos hp]; exact ih h.tail
    · rw [List.dropWhile_cons_of_neg hp]; exact h

theorem drop_one_strip {cs : List Green} (h : ∀ g, cs.head? = some g → isBlank g = false) :
    (stripL cs).drop 1 = stripL (cs.drop 1) := by
  cases cs with
  | nil => rfl
  | cons g gs => rw [stripL_cons (h g rfl)]; rfl

theorem trailingAfter_strip {e : SyntaxKind} (he : e ≠ WHITESPACE) {cs : List Green} (h : Apart cs) :
    trailingAfter e (stripL cs) = trailingAfter e cs := by
  unfold trailingAfter
  rw [dropWhile_strip (p := fun k => k != e && k != EOF) (by simp [Ne.symm he])]
  rw [drop_one_strip]
  · rw [commentAfter_strip]
    have := Apart.dropWhile (p := fun g => kindOf g != e && kindOf g != EOF) h
    revert this
    generalize cs.dropWhile (fun g => kindOf g != e && kindOf g != EOF) = ds
    intro hd
    cases ds with
    | nil => trivial
    | cons x xs => exact hd.tail
  · intro g hg
    have hn := List.head?_dropWhile_not (fun g => kindOf g != e && kindOf g != EOF) cs
    rw [hg] at hn
    cases hb : isBlank g with
    | false => rfl
    | true =>
      obtain ⟨t, rfl⟩ := blank_kind hb
      simp [kindOf, Ne.symm he] at hn

theorem findSome_strip {β : Type} (f : Green → Option β) (hb : ∀ t, f (.token WHITESPACE t) = none)
    (cs : List Green) (hs : ∀ g, f (strip g) = f g) : (stripL cs).findSome? f = cs.findSome? f := by
  induction cs with
  | nil => rfl
  | cons g gs ih =>
    by_cases h : isBlank g = true
    · obtain ⟨t, rfl⟩ := blank_kind h
      rw [stripL_cons_blank h, ih, List.findSome?_cons, hb]
    · simp only [Bool.not_eq_true] at h
      rw [stripL_cons h, List.findSome?_cons, List.findSome?_cons, hs g, ih]

theorem tokenText_strip {k : SyntaxKind} (hk : k ≠ WHITESPACE) (cs : List Green) :
    tokenText k (stripL cs) = tokenText k cs := by
  unfold tokenText
  refine findSome_strip _ (fun t => by simp [Ne.symm hk]) cs fun g => ?_
  cases g <;> simp [strip]

/-- the children of a node of keys -/
def keysOf? : Green → Option (List Green)
  | .node KEYS ks => some ks
  | _ => none

theorem keysOf?_strip (g : Green) : keysOf? (strip g) = (keysOf? g).map stripL := by
  cases g with
  | token k t => rfl
  | node k cs =>
    rw [strip]
    by_cases hk : k = KEYS
    · subst hk; rfl
    · have e1 : ∀ (X : List Green), keysOf? (Green.node k X) = none := by
        intro X
        unfold keysOf?
        split
        · rename_i h'; cases h'; exact absurd rfl hk
        · rfl
      rw [e1, e1]; rfl

theorem keysNode_eq (cs : List Green) : keysNode cs = cs.findSome? keysOf? := rfl

theorem keysNode_strip (cs : List Green) : keysNode (stripL cs) = (keysNode cs).map stripL := by
  rw [keysNode_eq, keysNode_eq]
  induction cs with
  | nil => rfl
  | cons g gs ih =>
    by_cases h : isBlank g = true
    · obtain ⟨t, rfl⟩ := blank_kind h
      rw [stripL_cons_blank h, ih]
      rfl
    · simp only [Bool.not_eq_true] at h
      rw [stripL_cons h, List.findSome?_cons, List.findSome?_cons, keysOf?_strip, ih]
      cases keysOf? g <;> rfl

/-- a bare key is one token -/
theorem bare_key_strip {cs : List Green} (h1 : ∀ g, cs.head? = some g → isBlank g = false)
    (h2 : ∀ g, cs.getLast? = some g → isBlank g = false) (h3 : (stripL cs).length = 1) : ∃ g, cs = [g] := by
  cases cs with
  | nil => cases h3
  | cons g gs =>
    rw [stripL_cons (h1 g rfl)] at h3
    cases gs with
    | nil => exact ⟨g, rfl⟩
    | cons x xs =>
      exfalso
      have := stripL_ne_nil (getLast_tail (by simp) h2) (by simp)
      simp only [List.length_cons] at h3
      exact this (List.length_eq_zero_iff.mp (by omega))

theorem clean_single {g : Green} {gs : List Green} (h : CleanL (g :: gs)) : Clean g := h.1

theorem _root_.Tombi.CleanL.mem {cs : List Green} (h : CleanL cs) {g : Green} (hg : g ∈ cs) : Clean g := by
  induction cs with
  | nil => cases hg
  | cons x xs ih =>
    rcases List.mem_cons.mp hg with rfl | hg
    · exact h.1
    · exact ih h.2 hg

theorem _root_.Tombi.TidyL.mem {cs : List Green} (h : TidyL cs) {g : Green} (hg : g ∈ cs) : Tidy g := by
  induction cs with
  | nil => cases hg
  | cons x xs ih =>
    rcases List.mem_cons.mp hg with rfl | hg
    · exact h.1
    · exact ih h.2 hg

theorem strip_mem {cs : List Green} {g : Green} (hg : g ∈ cs) (hb : isBlank g = false) : strip g ∈ stripL cs := by
  induction cs with
  | nil => cases hg
  | cons x xs ih =>
    rcases List.mem_cons.mp hg with rfl | hg
    · rw [stripL_cons hb]; simp
    · by_cases h : isBlank x = true
      · rw [stripL_cons_blank h]; exact ih hg
      · simp only [Bool.not_eq_true] at h
        rw [stripL_cons h]; exact List.mem_cons_of_mem _ (ih hg)

theorem keyOf_strip {g : Green} (ht : Tidy g) (hc : Clean (strip g)) : keyOf (strip g) = keyOf g := by
  cases g with
  | token k t => rfl
  | node k cs =>
    rw [strip]
    rw [strip] at hc
    unfold keyOf
    split
    · rename_i h
      cases h
      obtain ⟨k', w, hw⟩ := hc.1.2 rfl
      obtain ⟨g, rfl⟩ := bare_key_strip ht.2.1 ht.2.2.1 (by rw [hw]; rfl)
      have hb : isBlank g = false := ht.2.1 g rfl
      rw [stripL_cons hb] at hw ⊢
      cases g with
      | token => rfl
      | node => simp [strip] at hw
    · rename_i h; cases h; simp only []; rw [tokenText_strip (by decide)]
    · rename_i h; cases h; simp only []; rw [tokenText_strip (by decide)]
    · rename_i h1 h2 h3
      split
      · rename_i h; cases h; exact absurd rfl (h1 _)
      · rename_i h; cases h; exact absurd rfl (h2 _)
      · rename_i h; cases h; exact absurd rfl (h3 _)
      · rfl

theorem keys_strip {ks : List Green} (ht : TidyL ks) (hc : CleanL (stripL ks)) :
    (stripL ks).filterMap keyOf = ks.filterMap keyOf :=
  filterMap_strip _ (fun _ => rfl) ks fun _ hg hb => keyOf_strip (ht.mem hg) (hc.mem (strip_mem hg hb))

theorem commaAfter_strip : (cs : List Green) → TidyL cs → commaAfter (stripL cs) = commaAfter cs
  | [], _ => rfl
  | .token k t :: gs, h => by
    by_cases hb : isBlank (.token k t) = true
    · rw [stripL_cons_blank hb, commaAfter]; exact commaAfter_strip gs h.2
    · simp only [Bool.not_eq_true] at hb
      rw [stripL_cons hb, strip, commaAfter, commaAfter]; exact commaAfter_strip gs h.2
  | .node k cs :: gs, h => by
    rw [stripL_cons rfl, strip, commaAfter, commaAfter, leadingOf_strip,
      trailingOf_strip (cs := cs) h.1.2.2.2 h.1.2.2.1, commaAfter_strip gs h.2]

theorem nextBreaks_strip (n : Nat) (g : Green) : nextBreaks n (strip g) = nextBreaks n g := by
  cases g <;> simp [strip, nextBreaks]

theorem keysNode_mem {cs ks : List Green} (h : keysNode cs = some ks) : .node KEYS ks ∈ cs := by
  rw [keysNode_eq] at h
  obtain ⟨g, hg, h⟩ := List.exists_of_findSome?_eq_some h
  unfold keysOf? at h
  split at h
  · cases h; exact hg
  · cases h

/-- the same node, apart from the source text of the keys -/
def SameNode (a b : Option Node) : Prop := a.map Node.bare = b.map Node.bare

mutual
theorem nodeOf_strip : (g : Green) → Tidy g → Clean (strip g) → SameNode (nodeOf (strip g)) (nodeOf g)
  | .token _ _, _, _ => rfl
  | .node k cs, ht, hc => by
    rw [strip] at hc ⊢
    rw [nodeOf.eq_def, nodeOf.eq_def]
    simp only []
    have e1 := leadingOf_strip cs
    have e2 := trailingOf_strip (cs := cs) ht.2.2.2 ht.2.2.1
    split
    · rw [e1, e2, trailingAfter_strip (by decide) ht.1]
      simp only [SameNode, Option.map_some, Node.bare]
      rw [bodyOf_strip BRACKET_START _ (by decide) _ _ cs ht.2.2.2 hc.2]
    · rw [e1, e2, trailingAfter_strip (by decide) ht.1]
      simp only [SameNode, Option.map_some, Node.bare]
      rw [bodyOf_strip BRACE_START _ (by decide) _ _ cs ht.2.2.2 hc.2]
    · have hv := valueOf_strip cs ht.2.2.2 hc.2
      rw [keysNode_strip, e1]
      cases hk : keysNode cs with
      | none => simp [SameNode]
      | some ks =>
        have hm := keysNode_mem hk
        have hkt : Tidy (.node KEYS ks) := ht.2.2.2.mem hm
        have hkc : Clean (strip (.node KEYS ks)) := hc.2.mem (strip_mem hm rfl)
        rw [strip] at hkc
        have := keys_strip hkt.2.2.2 hkc.2
        simp only [Option.map_some]
        unfold SameNode at hv ⊢
        cases h1 : valueOf (stripL cs) with
        | none =>
          cases h2 : valueOf cs with
          | none => rfl
          | some v => rw [h1, h2] at hv; cases hv
        | some u =>
          cases h2 : valueOf cs with
          | none => rw [h1, h2] at hv; cases hv
          | some v =>
            rw [h1, h2] at hv
            simp only [Option.map_some, Option.some.injEq] at hv ⊢
            simp only [Node.bare, this, hv]
    · split
      · rename_i hk
        rw [e1, e2, tokenText_strip (by rintro rfl; cases hk)]
        rfl
      · rfl
theorem valueOf_strip : (cs : List Green) → TidyL cs → CleanL (stripL cs) → SameNode (valueOf (stripL cs)) (valueOf cs)
  | [], _, _ => rfl
  | g :: gs, ht, hc => by
    by_cases hb : isBlank g = true
    · rw [stripL_cons_blank hb] at hc ⊢
      obtain ⟨t, rfl⟩ := blank_kind hb
      rw [valueOf, if_neg (by simp [kindOf, isValueKind])]
      exact valueOf_strip gs ht.2 hc
    · simp only [Bool.not_eq_true] at hb
      rw [stripL_cons hb] at hc ⊢
      rw [valueOf, valueOf, kind_strip]
      split
      · exact nodeOf_strip g ht.1 hc.1
      · exact valueOf_strip gs ht.2 hc.2
theorem bodyOf_strip (start group : SyntaxKind) (hs : start ≠ WHITESPACE) : (inside : Bool) → (breaks : Nat) →
    (cs : List Green) → TidyL cs → CleanL (stripL cs) →
    (bodyOf start group inside breaks (stripL cs)).bare = (bodyOf start group inside breaks cs).bare
  | _, _, [], _, _ => rfl
  | inside, breaks, .token k t :: gs, ht, hc => by
    by_cases hb : isBlank (.token k t) = true
    · rw [stripL_cons_blank hb] at hc ⊢
      obtain ⟨t', h'⟩ := blank_kind hb
      cases h'
      have ih := bodyOf_strip start group hs inside breaks gs ht.2 hc
      rw [bodyOf]
      cases inside with
      | false =>
        rw [if_pos (by rfl)]
        have : (kindOf (Green.token WHITESPACE t) == start) = false := by simp [kindOf, Ne.symm hs]
        rw [this]
        exact ih
      | true => exact ih
    · simp only [Bool.not_eq_true] at hb
      rw [stripL_cons hb] at hc ⊢
      rw [strip, bodyOf, bodyOf]
      cases inside with
      | false => rw [if_pos (by rfl), if_pos (by rfl)]; exact bodyOf_strip start group hs _ _ gs ht.2 hc.2
      | true => exact bodyOf_strip start group hs _ _ gs ht.2 hc.2
  | inside, breaks, .node k ds :: gs, ht, hc => by
    rw [stripL_cons rfl] at hc ⊢
    rw [strip] at hc ⊢
    rw [bodyOf, bodyOf]
    cases inside with
    | false =>
      rw [if_pos (by rfl), if_pos (by rfl)]
      exact bodyOf_strip start group hs _ _ gs ht.2 hc.2
    | true =>
      have ih := bodyOf_strip start group hs true 0 gs ht.2 hc.2
      have hf : ∀ {α} (x y : α), (if (!true) = true then x else y) = y := fun _ _ => rfl
      rw [hf, hf]
      split
      · simp only [Body.bare, danglingComments_strip, ih]
      · split
        · exact groupOf_strip _ ds _ _ ht.1.2.2.2 hc.1.2 ih
        · exact ih
theorem groupOf_strip (first : Option Nat) : (cs : List Green) → (a b : Body) → TidyL cs → CleanL (stripL cs) →
    a.bare = b.bare → (groupOf first (stripL cs) a).bare = (groupOf first cs b).bare
  | [], a, b, _, _, h => by rw [stripL, groupOf, groupOf]; exact h
  | g :: gs, a, b, ht, hc, h => by
    by_cases hb : isBlank g = true
    · rw [stripL_cons_blank hb] at hc ⊢
      obtain ⟨t, rfl⟩ := blank_kind hb
      rw [groupOf.eq_def first (_ :: _)]
      exact groupOf_strip first gs a b ht.2 hc h
    · simp only [Bool.not_eq_true] at hb
      rw [stripL_cons hb] at hc ⊢
      have hn := nodeOf_strip g ht.1 hc.1
      rw [groupOf, groupOf]
      unfold SameNode at hn
      cases h1 : nodeOf (strip g) with
      | none =>
        cases h2 : nodeOf g with
        | none => exact groupOf_strip first gs a b ht.2 hc.2 h
        | some v => rw [h1, h2] at hn; cases hn
      | some u =>
        cases h2 : nodeOf g with
        | none => rw [h1, h2] at hn; cases hn
        | some v =>
          rw [h1, h2] at hn
          simp only [Option.map_some, Option.some.injEq] at hn
          simp only [Body.bare, hn, commaAfter_strip gs ht.2, groupOf_strip none gs a b ht.2 hc.2 h]
end

theorem rootBody_strip : (breaks : Nat) → (cs : List Green) → TidyL cs → CleanL (stripL cs) →
    (rootBody breaks (stripL cs)).bare = (rootBody breaks cs).bare
  | _, [], _, _ => rfl
  | breaks, .token k t :: gs, ht, hc => by
    by_cases hb : isBlank (.token k t) = true
    · rw [stripL_cons_blank hb] at hc ⊢
      obtain ⟨t', h'⟩ := blank_kind hb
      cases h'
      rw [rootBody]
      exact rootBody_strip breaks gs ht.2 hc
    · simp only [Bool.not_eq_true] at hb
      rw [stripL_cons hb] at hc ⊢
      rw [strip, rootBody, rootBody]
      exact rootBody_strip _ gs ht.2 hc.2
  | breaks, .node k ds :: gs, ht, hc => by
    rw [stripL_cons rfl] at hc ⊢
    rw [strip] at hc ⊢
    rw [rootBody, rootBody]
    have ih := rootBody_strip 0 gs ht.2 hc.2
    split
    · simp only [Body.bare, danglingComments_strip, ih]
    · split
      · exact groupOf_strip _ ds _ _ ht.1.2.2.2 hc.1.2 ih
      · exact ih

theorem _root_.Tombi.TidyL.dropWhile {p : Green → Bool} {cs : List Green} (h : TidyL cs) : TidyL (cs.dropWhile p) := by
  induction cs with
  | nil => exact h
  | cons g gs ih =>
    by_cases hp : p g = true
    · rw [List.dropWhile_cons_of_pos hp]; exact ih h.2
    · rw [List.dropWhile_cons_of_neg hp]; exact h

theorem _root_.Tombi.CleanL.dropWhile {p : Green → Bool} {cs : List Green} (h : CleanL cs) : CleanL (cs.dropWhile p) := by
  induction cs with
  | nil => exact h
  | cons g gs ih =>
    by_cases hp : p g = true
    · rw [List.dropWhile_cons_of_pos hp]; exact ih h.2
    · rw [List.dropWhile_cons_of_neg hp]; exact h

theorem sectionBody_strip {e : SyntaxKind} (he : e ≠ WHITESPACE) {cs : List Green} (ht : TidyL cs) (hc : CleanL (stripL cs)) :
    (sectionBody e (stripL cs)).bare = (sectionBody e cs).bare := by
  unfold sectionBody
  simp only []
  have e1 := dropWhile_strip (p := fun k => k != e) (by simp [Ne.symm he]) cs
  have e2 := dropWhile_strip (p := fun k => k != LINE_BREAK && !(e == BRACKET_END && k == DANGLING_COMMENT_GROUP))
    (by simp) (cs.dropWhile fun g => kindOf g != e)
  rw [e1, e2]
  refine rootBody_strip _ _ ht.dropWhile.dropWhile ?_
  rw [← e2, ← e1]
  exact hc.dropWhile.dropWhile

theorem sectionOf_strip (breaks : Nat) {g : Green} (ht : Tidy g) (hc : Clean (strip g)) :
    (sectionOf breaks (strip g)).map Section.bare = (sectionOf breaks g).map Section.bare := by
  have main : ∀ (arr : Bool) (e : SyntaxKind) (cs : List Green), e ≠ WHITESPACE → Apart cs → TidyL cs → CleanL (stripL cs) →
      ((keysNode (stripL cs)).map fun ks => (⟨arr, blankOf breaks, leadingOf (stripL cs), ks.filterMap keyOf,
        trailingAfter e (stripL cs), sectionBody e (stripL cs)⟩ : Section)).map Section.bare =
      ((keysNode cs).map fun ks => (⟨arr, blankOf breaks, leadingOf cs, ks.filterMap keyOf,
        trailingAfter e cs, sectionBody e cs⟩ : Section)).map Section.bare := by
    intro arr e cs he ha ht hc
    rw [keysNode_strip, leadingOf_strip, trailingAfter_strip he ha]
    cases hk : keysNode cs with
    | none => rfl
    | some ks =>
      have hm := keysNode_mem hk
      have hkt : Tidy (.node KEYS ks) := ht.mem hm
      have hkc : Clean (strip (.node KEYS ks)) := hc.mem (strip_mem hm rfl)
      rw [strip] at hkc
      simp only [Option.map_some, Section.bare, keys_strip hkt.2.2.2 hkc.2, sectionBody_strip he ht hc]
  cases g with
  | token k t => rfl
  | node k cs =>
    rw [strip] at hc ⊢
    unfold sectionOf
    split
    · rename_i h; cases h
      exact main false _ cs (by decide) ht.1 ht.2.2.2 hc.2
    · rename_i h; cases h
      exact main true _ cs (by decide) ht.1 ht.2.2.2 hc.2
    · rename_i h1 h2
      split
      · rename_i h; cases h; exact absurd rfl (h1 _)
      · rename_i h; cases h; exact absurd rfl (h2 _)
      · rfl

theorem sectionsOf_strip : (breaks : Nat) → (cs : List Green) → TidyL cs → CleanL (stripL cs) →
    (sectionsOf breaks (stripL cs)).map Section.bare = (sectionsOf breaks cs).map Section.bare
  | _, [], _, _ => rfl
  | breaks, g :: gs, ht, hc => by
    by_cases hb : isBlank g = true
    · rw [stripL_cons_blank hb] at hc ⊢
      obtain ⟨t', rfl⟩ := blank_kind hb
      rw [sectionsOf]
      exact sectionsOf_strip breaks gs ht.2 hc
    · simp only [Bool.not_eq_true] at hb
      rw [stripL_cons hb] at hc ⊢
      rw [sectionsOf, sectionsOf, nextBreaks_strip]
      have hs := sectionOf_strip breaks ht.1 hc.1
      have ih := sectionsOf_strip (nextBreaks breaks g) gs ht.2 hc.2
      cases h1 : sectionOf breaks (strip g) with
      | none =>
        cases h2 : sectionOf breaks g with
        | none => exact ih
        | some v => rw [h1, h2] at hs; cases hs
      | some u =>
        cases h2 : sectionOf breaks g with
        | none => rw [h1, h2] at hs; cases hs
        | some v =>
          rw [h1, h2] at hs
          simp only [Option.map_some, Option.some.injEq] at hs
          simp only [List.map_cons, hs, ih]

/-- Blanks do not matter for the document that is read. -/
theorem docOf_strip {k : SyntaxKind} {cs : List Green} (ht : TidyL cs) (hc : CleanL (stripL cs)) :
    (docOf (.node k (stripL cs))).bare = (docOf (.node k cs)).bare := by
  simp only [docOf, Doc.bare, childrenOf, rootBody_strip 0 cs ht hc, sectionsOf_strip 0 cs ht hc]

end Tombi.Formatter
