import Verif.Proofs.DocWf
/-! The document that is read from a tree without syntax errors has all the tokens of the tree. -/
namespace Tombi.Formatter
open SyntaxKind View
open Tombi.Format (AstKey)

/-- Facts about the tokens of a source: a comment ends its line, marks have their text, the end is the end. -/
def Good : View → Prop
  | [] => True
  | t :: v => (t.kind = COMMENT → hd v = LINE_BREAK ∨ hd v = EOF) ∧ (markText t.kind ≠ [] → t.text = markText t.kind) ∧
      (t.kind = EOF → v = []) ∧ Good v

theorem Good.drop {v : View} (h : Good v) (n : Nat) : Good (v.drop n) := by
  induction n generalizing v with
  | zero => exact h
  | succ n ih =>
    cases v with
    | nil => exact h
    | cons t v => exact ih h.2.2.2

theorem Good.dropWhile {v : View} (h : Good v) (p : VTok → Bool) : Good (v.dropWhile p) := by
  induction v with
  | nil => exact h
  | cons t v ih =>
    by_cases hp : p t = true
    · rw [List.dropWhile_cons_of_pos hp]; exact ih h.2.2.2
    · rw [List.dropWhile_cons_of_neg hp]; exact h

theorem takeWhile_all {p : VTok → Bool} (v : View) {t : VTok} (h : t ∈ v.takeWhile p) : p t = true := by
  induction v with
  | nil => cases h
  | cons x v ih =>
    by_cases hp : p x = true
    · rw [List.takeWhile_cons_of_pos hp] at h
      rcases List.mem_cons.mp h with rfl | h
      · exact hp
      · exact ih h
    · rw [List.takeWhile_cons_of_neg hp] at h; cases h

/-! ### words of trees -/

theorem treeWordsL_append (a b : List Green) : treeWordsL (a ++ b) = treeWordsL a ++ treeWordsL b := by
  induction a with
  | nil => rfl
  | cons g gs ih => simp [treeWordsL, ih]

theorem treeWords_tok {k : SyntaxKind} (t : Text) (h : k ≠ WHITESPACE ∧ k ≠ LINE_BREAK ∧ k ≠ COMMA) :
    treeWords (.token k t) = [(k, t)] := by
  rw [treeWords, if_neg (by simp [h])]

/-- the comments among tokens -/
def cmts : View → List Text
  | [] => []
  | t :: v => if t.kind = COMMENT then t.text :: cmts v else cmts v

theorem lead_words {u : View} (h : ∀ t ∈ u, isLead t.kind = true) :
    treeWordsL (u.map leaf) = (cmts u).map fun t => (COMMENT, t) := by
  induction u with
  | nil => rfl
  | cons t u ih =>
    have ih := ih fun x hx => h x (by simp [hx])
    have ht := h t (by simp)
    simp only [isLead, Bool.or_eq_true, beq_iff_eq] at ht
    simp only [List.map_cons, treeWordsL, ih, leaf, cmts, treeWords]
    rcases ht with ht | ht <;> simp [ht]

theorem lead_comments {u : View} (h : ∀ t ∈ u, isLead t.kind = true) : (u.map leaf).filterMap commentText? = cmts u := by
  induction u with
  | nil => rfl
  | cons t u ih =>
    have ih := ih fun x hx => h x (by simp [hx])
    have ht := h t (by simp)
    simp only [isLead, Bool.or_eq_true, beq_iff_eq] at ht
    simp only [List.map_cons, List.filterMap_cons, ih, leaf, cmts]
    rcases ht with ht | ht <;> simp [ht, commentText?]

theorem commentWords_leaf (cs : List Text) : (commentWords cs).map Word.leaf = cs.map fun t => (COMMENT, t) := by
  cases cs with
  | nil => rfl
  | cons c cs => simp [commentWords, Word.leaf, Function.comp_def]

/-- leading comments -/
structure Lead (u : View) : Prop where
  lead : ∀ t ∈ u, isLead t.kind = true

theorem Lead.leadingOf {u : View} (h : Lead u) {g : Green} (hg : isLeadingKind g = false) (gs : List Green) :
    leadingOf (u.map leaf ++ g :: gs) = cmts u := by
  unfold Formatter.leadingOf
  rw [List.takeWhile_append_of_pos, List.takeWhile_cons_of_neg (by simp [hg]), List.append_nil, lead_comments h.lead]
  intro x hx
  obtain ⟨t, ht, rfl⟩ := List.mem_map.mp hx
  have := h.lead t ht
  simp only [isLead, Bool.or_eq_true, beq_iff_eq] at this
  simp only [isLeadingKind, leaf, kindOf]
  rcases this with h | h <;> simp [h]

theorem Lead.words {u : View} (h : Lead u) : treeWordsL (u.map leaf) = (commentWords (cmts u)).map Word.leaf := by
  rw [lead_words h.lead, commentWords_leaf]

theorem seqV_some {f g : PV} {v v' : View} {F : List Green} (h : (f ⨟ g) v = some (F, v')) :
    ∃ A B v1, f v = some (A, v1) ∧ g v1 = some (B, v') ∧ F = A ++ B := by
  unfold seqV at h
  cases hf : f v with
  | none => rw [hf] at h; cases h
  | some p =>
    obtain ⟨A, v1⟩ := p
    rw [hf] at h
    simp only at h
    cases hg : g v1 with
    | none => rw [hg] at h; cases h
    | some q =>
      obtain ⟨B, v2⟩ := q
      rw [hg] at h
      simp only [Option.some.injEq, Prod.mk.injEq] at h
      exact ⟨A, B, v1, rfl, by rw [hg, h.2], h.1.symm⟩

theorem nodeV_some {k : SyntaxKind} {f : PV} {v v' : View} {F : List Green} (h : nodeV k f v = some (F, v')) :
    ∃ A, f v = some (A, v') ∧ F = [.node k A] := by
  unfold nodeV at h
  cases hf : f v with
  | none => rw [hf] at h; cases h
  | some p =>
    obtain ⟨A, v1⟩ := p
    rw [hf] at h
    simp only [Option.some.injEq, Prod.mk.injEq] at h
    exact ⟨A, by rw [h.2], h.1.symm⟩

theorem tokV_some {k : SyntaxKind} {v v' : View} {F : List Green} (h : tokV k v = some (F, v')) :
    ∃ t, v = t :: v' ∧ t.kind = k ∧ F = [.token k t.text] := by
  unfold tokV at h
  split at h
  · split at h
    · simp only [Option.some.injEq, Prod.mk.injEq] at h
      obtain ⟨h1, rfl⟩ := h
      exact ⟨_, rfl, by assumption, h1.symm⟩
    · cases h
  · cases h

theorem okV_some {v v' : View} {F : List Green} (h : okV v = some (F, v')) : F = [] ∧ v' = v := by
  simp only [okV, Option.some.injEq, Prod.mk.injEq] at h
  exact ⟨h.1.symm, h.2.symm⟩

theorem leadV_some {v v' : View} {F : List Green} (h : leadV v = some (F, v')) :
    ∃ u, v = u ++ v' ∧ F = u.map leaf ∧ Lead u ∧ isLead (hd v') = false := by
  unfold leadV spanV at h
  simp only [Option.some.injEq, Prod.mk.injEq] at h
  obtain ⟨rfl, rfl⟩ := h
  refine ⟨v.takeWhile fun t => isLead t.kind, (List.takeWhile_append_dropWhile).symm, rfl, ⟨fun t ht => ?_⟩, ?_⟩
  · exact takeWhile_all _ ht
  · cases hd' : v.dropWhile fun t => isLead t.kind with
    | nil => rfl
    | cons t w =>
      have := List.head?_dropWhile_not (fun t : VTok => isLead t.kind) v
      rw [hd'] at this
      simpa [hd] using this

/-- a trailing comment -/
def trailLeaf : Option Text → List Green
  | none => []
  | some t => [.token COMMENT t]

theorem trailLeaf_words (tr : Option Text) : treeWordsL (trailLeaf tr) = (trailingWords tr).map Word.leaf := by
  cases tr <;> rfl

theorem trailV_some {v v' : View} {F : List Green} (hg : Good v) (h : trailV v = some (F, v')) :
    ∃ tr, F = trailLeaf tr ∧ Good v' ∧ hd v' ≠ COMMENT ∧ (tr = none → v' = v) ∧
      (tr ≠ none → hd v' = LINE_BREAK ∨ hd v' = EOF) := by
  unfold trailV spanV at h
  simp only [Option.some.injEq, Prod.mk.injEq] at h
  obtain ⟨rfl, rfl⟩ := h
  cases v with
  | nil => exact ⟨none, rfl, trivial, by simp [hd], by simp, by simp⟩
  | cons t v =>
    by_cases ht : t.kind = COMMENT
    · have hh := hg.1 ht
      have hne : ∀ x ∈ v.head?, ¬ isComment x.kind = true := by
        intro x hx
        cases v with
        | nil => cases hx
        | cons y w =>
          simp only [List.head?_cons, Option.mem_some_iff] at hx
          subst hx
          simp only [hd] at hh
          rcases hh with h | h <;> simp [h, isComment]
      have h1 : v.takeWhile (fun t => isComment t.kind) = [] := by
        cases v with
        | nil => rfl
        | cons y w => rw [List.takeWhile_cons_of_neg (by exact hne y rfl)]
      have h2 : v.dropWhile (fun t => isComment t.kind) = v := by
        cases v with
        | nil => rfl
        | cons y w => rw [List.dropWhile_cons_of_neg (by exact hne y rfl)]
      rw [List.takeWhile_cons_of_pos (by simp [isComment, ht]), List.dropWhile_cons_of_pos (by simp [isComment, ht]), h1, h2]
      refine ⟨some t.text, ?_, hg.2.2.2, ?_, by simp, fun _ => hh⟩
      · simp [leaf, trailLeaf, ht]
      · rcases hh with h | h <;> simp [h]
    · rw [List.takeWhile_cons_of_neg (by simp [isComment, ht]), List.dropWhile_cons_of_neg (by simp [isComment, ht])]
      exact ⟨none, rfl, hg, ht, fun _ => rfl, by simp⟩

theorem lastTokens_snoc (a : List Green) (k : SyntaxKind) (t : Text) : lastTokens (a ++ [.token k t]) = some (k, t) := by
  induction a with
  | nil => rfl
  | cons g gs ih => rw [List.cons_append, lastTokens_cons (by simp), ih]

theorem trailingOf_trail (a : List Green) {k : SyntaxKind} (hk : k ≠ COMMENT) (t : Text) (tr : Option Text) :
    trailingOf (a ++ .token k t :: trailLeaf tr) = tr := by
  unfold trailingOf
  cases tr with
  | none => rw [trailLeaf, lastTokens_snoc]; split
            · rename_i h; cases h; exact absurd rfl hk
            · rfl
  | some c =>
    have : a ++ .token k t :: trailLeaf (some c) = (a ++ [.token k t]) ++ [.token COMMENT c] := by simp [trailLeaf]
    rw [this, lastTokens_snoc]

/-! ### keys -/

theorem keyWords_append {a b : List AstKey} (ha : a ≠ []) (hb : b ≠ []) :
    keyWords (a ++ b) = keyWords a ++ .mark DOT :: keyWords b := by
  induction a with
  | nil => exact absurd rfl ha
  | cons k ks ih =>
    cases ks with
    | nil =>
      cases b with
      | nil => exact absurd rfl hb
      | cons x xs => rfl
    | cons k' ks =>
      have := ih (by simp)
      simp only [List.cons_append] at this ⊢
      simp [keyWords, this]

/-- the nodes of dotted keys -/
structure KeysOk (F : List Green) : Prop where
  ne : F.filterMap keyOf ≠ []
  words : (keyWords (F.filterMap keyOf)).map Word.leaf = treeWordsL F

theorem KeysOk.dot {a b : List Green} {g : Green} (ha : KeysOk a) (hb : KeysOk b) (hg : keyOf g = none)
    (hw : treeWords g = [(DOT, ['.'])]) : KeysOk (a ++ g :: b) := by
  have e : (a ++ g :: b).filterMap keyOf = a.filterMap keyOf ++ b.filterMap keyOf := by simp [hg]
  constructor
  · rw [e]; simp [ha.ne]
  · rw [e, keyWords_append ha.ne hb.ne, treeWordsL_append, List.map_append, ha.words, List.map_cons, hb.words, treeWordsL, hw]
    rfl

theorem keysOk_bare (t : Text) : KeysOk [.node BARE_KEY [.token BARE_KEY t]] := by
  constructor <;> simp [keyOf, greenTexts, greenText, keyWords, Word.leaf, treeWordsL, treeWords]

theorem keysOk_basic (t : Text) : KeysOk [.node BASIC_STRING [.token BASIC_STRING t]] := by
  constructor <;> simp [keyOf, tokenText, keyWords, Word.leaf, treeWordsL, treeWords]

theorem keysOk_literal (t : Text) : KeysOk [.node LITERAL_STRING [.token LITERAL_STRING t]] := by
  constructor <;> simp [keyOf, tokenText, keyWords, Word.leaf, treeWordsL, treeWords]

theorem keyV_some {v v' : View} {F : List Green} (h : keyV v = some (F, v')) :
    ∃ t, v = t :: v' ∧ KeysOk F ∧ TS_KEY_FIRST.contains t.kind = true := by
  unfold keyV at h
  split at h
  · cases h
  · split at h
    all_goals first
      | cases h; done
      | (rename_i hk
         simp only [hk, Option.some.injEq, Prod.mk.injEq] at h
         obtain ⟨rfl, rfl⟩ := h
         exact ⟨_, rfl, by first | exact keysOk_bare _ | exact keysOk_basic _ | exact keysOk_literal _, by rw [hk]; decide⟩)
      | skip
    rename_i hk
    split at h
    · simp only [Option.some.injEq, Prod.mk.injEq] at h
      obtain ⟨rfl, rfl⟩ := h
      exact ⟨_, rfl, (keysOk_bare _).dot (keysOk_bare _) rfl (by simp [treeWords, treeWordsL]), by rw [hk]; decide⟩
    · simp only [Option.some.injEq, Prod.mk.injEq] at h
      obtain ⟨rfl, rfl⟩ := h
      exact ⟨_, rfl, keysOk_bare _, by rw [hk]; decide⟩

theorem keysLoopV_some (n : Nat) {v v' : View} {F : List Green} (hg : Good v) (h : keysLoopV n v = some (F, v')) :
    KeysOk F ∧ Good v' ∧ TS_KEY_FIRST.contains (hd v) = true := by
  induction n generalizing v F with
  | zero => cases h
  | succ n ih =>
    rw [keysLoopV] at h
    obtain ⟨A, B, v1, h1, h2, rfl⟩ := seqV_some h
    obtain ⟨t, rfl, hA, hf⟩ := keyV_some h1
    have hg1 := hg.2.2.2
    split at h2
    · obtain ⟨A2, B2, v2, h3, h4, rfl⟩ := seqV_some h2
      obtain ⟨u, rfl, hu, rfl⟩ := tokV_some h3
      split at h4
      · have := ih hg1.2.2.2 h4
        have ht := hg1.2.1 (by rw [hu]; decide)
        rw [hu] at ht
        refine ⟨?_, this.2.1, hf⟩
        exact hA.dot this.1 rfl (by rw [treeWords_tok _ (by decide), ht]; rfl)
      · cases h4
    · obtain ⟨rfl, rfl⟩ := okV_some h2
      exact ⟨by simpa using hA, hg1, hf⟩

theorem keysV_some {v v' : View} {F : List Green} (hg : Good v) (h : keysV v = some (F, v')) :
    ∃ ks, F = [.node KEYS ks] ∧ KeysOk ks ∧ Good v' ∧ TS_KEY_FIRST.contains (hd v) = true := by
  obtain ⟨A, h1, rfl⟩ := nodeV_some h
  clear h
  have h := h1
  clear h1
  refine ⟨A, rfl, ?_⟩
  split at h
  · exact keysLoopV_some _ hg h
  · obtain ⟨t, rfl, hA, hf⟩ := keyV_some h
    exact ⟨hA, hg.2.2.2, hf⟩

/-! ### line breaks -/

/-- the number of line breaks at the start -/
def lbs : View → Nat
  | [] => 0
  | t :: v => if t.kind = LINE_BREAK then lbs v + 1 else 0

/-- without the line breaks at the start -/
def skip : View → View
  | [] => []
  | t :: v => if t.kind = LINE_BREAK then skip v else t :: v

theorem hd_skip (v : View) : hd (skip v) ≠ LINE_BREAK := by
  induction v with
  | nil => simp [skip, hd]
  | cons t v ih =>
    by_cases h : t.kind = LINE_BREAK
    · simpa [skip, h] using ih
    · simp [skip, h, hd]

theorem lbs_of_hd {v : View} (h : hd v ≠ LINE_BREAK) : lbs v = 0 ∧ skip v = v := by
  cases v with
  | nil => exact ⟨rfl, rfl⟩
  | cons t v =>
    have : t.kind ≠ LINE_BREAK := h
    simp [lbs, skip, this]

theorem peek_lb {t : VTok} (h : t.kind = LINE_BREAK) (v : View) : View.peek (t :: v) = View.peek v := by
  cases v with
  | nil => simp [View.peek, h]
  | cons u v => rw [View.peek, if_pos h]

theorem peek_skip (v : View) : View.peek (skip v) = View.peek v := by
  induction v with
  | nil => rfl
  | cons t v ih =>
    by_cases h : t.kind = LINE_BREAK
    · rw [skip, if_pos h, ih, peek_lb h]
    · rw [skip, if_neg h]

theorem Good.skip {v : View} (h : Good v) : Good (skip v) := by
  induction v with
  | nil => exact h
  | cons t v ih =>
    rw [Formatter.skip]
    split
    · exact ih h.2.2.2
    · exact h

/-- the line breaks as leaves -/
def lbLeaves : View → List Green
  | [] => []
  | t :: v => if t.kind = LINE_BREAK then .token LINE_BREAK t.text :: lbLeaves v else []

theorem breaksV_some {v v' : View} {F : List Green} (h : breaksV v = some (F, v')) : F = lbLeaves v ∧ v' = skip v := by
  unfold breaksV spanV at h
  simp only [Option.some.injEq, Prod.mk.injEq] at h
  obtain ⟨rfl, rfl⟩ := h
  induction v with
  | nil => exact ⟨rfl, rfl⟩
  | cons t v ih =>
    by_cases h : t.kind = LINE_BREAK
    · rw [List.takeWhile_cons_of_pos (by simp [isBreak, h]), List.dropWhile_cons_of_pos (by simp [isBreak, h]), lbLeaves, skip,
        if_pos h, if_pos h, List.map_cons, ih.1]
      exact ⟨by rw [leaf, h], ih.2⟩
    · rw [List.takeWhile_cons_of_neg (by simp [isBreak, h]), List.dropWhile_cons_of_neg (by simp [isBreak, h]), lbLeaves, skip,
        if_neg h, if_neg h]
      exact ⟨rfl, rfl⟩

theorem lbLeaves_words (v : View) : treeWordsL (lbLeaves v) = [] := by
  induction v with
  | nil => rfl
  | cons t v ih =>
    rw [lbLeaves]
    split
    · simp [treeWordsL, treeWords, ih]
    · rfl

theorem lbLeaves_fold (br : Nat) (v : View) : (lbLeaves v).foldl nextBreaks br = br + lbs v := by
  induction v generalizing br with
  | nil => rfl
  | cons t v ih =>
    rw [lbLeaves, lbs]
    split
    · rw [List.foldl_cons, ih]; simp only [nextBreaks]; omega
    · rfl

theorem lbLeaves_body (s g : SyntaxKind) (br : Nat) (v : View) (tail : List Green) :
    bodyOf s g true br (lbLeaves v ++ tail) = bodyOf s g true (br + lbs v) tail := by
  induction v generalizing br with
  | nil => rfl
  | cons t v ih =>
    rw [lbLeaves, lbs]
    split
    · rw [List.cons_append, bodyOf]
      have : nextBreaks br (.token LINE_BREAK t.text) = br + 1 := rfl
      simp only [this]
      rw [show br + (lbs v + 1) = br + 1 + lbs v by omega, ← ih]
      rfl
    · rfl

theorem lbLeaves_sections (br : Nat) (v : View) (tail : List Green) :
    sectionsOf br (lbLeaves v ++ tail) = sectionsOf (br + lbs v) tail := by
  induction v generalizing br with
  | nil => rfl
  | cons t v ih =>
    rw [lbLeaves, lbs]
    split
    · rw [List.cons_append, sectionsOf]
      have : nextBreaks br (.token LINE_BREAK t.text) = br + 1 := rfl
      rw [this, ih, show br + (lbs v + 1) = br + 1 + lbs v by omega]
      rfl
    · rfl

/-! ### bodies -/

/-- the kinds that end a dangling comment group without a blank line -/
def isEnd (k : SyntaxKind) : Prop := k = BRACE_END ∨ k = BRACKET_END ∨ k = EOF

/-- what the tokens that follow say about blank lines, after `br` line breaks -/
def Link (first : TokenSet) (prev : Prev) (br : Nat) (v : View) : Prop :=
  match prev with
  | .start => True
  | .dangling => 2 ≤ br + lbs v ∨ isEnd (hd (skip v))
  | .item => 2 ≤ br + lbs v ∨ first.contains (hd (View.peek v)) = false

theorem Link.skip {first : TokenSet} {prev : Prev} {br : Nat} {v : View} (h : Link first prev br v) :
    Link first prev (br + lbs v) (skip v) := by
  have h0 := lbs_of_hd (hd_skip v)
  cases prev with
  | start => trivial
  | dangling =>
    show _ ∨ _
    rw [h0.1, h0.2]
    exact h
  | item =>
    show _ ∨ _
    rw [h0.1, peek_skip]
    exact h

/-- the children of a body: line breaks, dangling comment groups, and groups of kind `grp` -/
def Inner (grp : SyntaxKind) (F : List Green) : Prop :=
  ∀ g ∈ F, (∃ t, g = .token LINE_BREAK t) ∨ (∃ cs, g = .node DANGLING_COMMENT_GROUP cs) ∨ ∃ cs, g = .node grp cs

theorem Inner.append {grp : SyntaxKind} {a b : List Green} (ha : Inner grp a) (hb : Inner grp b) : Inner grp (a ++ b) := by
  intro g hg
  rcases List.mem_append.mp hg with h | h
  · exact ha g h
  · exact hb g h

theorem inner_lbs (grp : SyntaxKind) (v : View) : Inner grp (lbLeaves v) := by
  induction v with
  | nil => intro g hg; cases hg
  | cons t v ih =>
    rw [lbLeaves]
    split
    · intro g hg
      rcases List.mem_cons.mp hg with rfl | hg
      · exact .inl ⟨_, rfl⟩
      · exact ih g hg
    · intro g hg; cases hg

/-- The children `F`, after `prev` and `br` line breaks, are a part of a body that ends with `prev'` and `br'` line
breaks. -/
def Seg (grp : SyntaxKind) (pairs : Bool) (d : Nat) (F : List Green) (prev : Prev) (br : Nat) (prev' : Prev) (br' : Nat) :
    Prop :=
  ∃ f : Body → Body,
    (∀ s tail, bodyOf s grp true br (F ++ tail) = f (bodyOf s grp true br' tail)) ∧
    (∀ b, (f b).words.map Word.leaf = treeWordsL F ++ b.words.map Word.leaf) ∧
    (∀ b, b.WF pairs d prev' → (f b).WF pairs d prev) ∧
    (∀ b, (f b).last prev = b.last prev') ∧
    F.foldl nextBreaks br = br'

theorem Seg.append {grp : SyntaxKind} {pairs : Bool} {d : Nat} {F F' : List Green} {p p' p'' : Prev} {b b' b'' : Nat}
    (h : Seg grp pairs d F p b p' b') (h' : Seg grp pairs d F' p' b' p'' b'') : Seg grp pairs d (F ++ F') p b p'' b'' := by
  obtain ⟨f, h1, h2, h3, h4, h5⟩ := h
  obtain ⟨g, g1, g2, g3, g4, g5⟩ := h'
  refine ⟨fun b => f (g b), ?_, ?_, ?_, ?_, ?_⟩
  · intro s tail; rw [List.append_assoc, h1, g1]
  · intro b; rw [h2, g2, treeWordsL_append, List.append_assoc]
  · intro b hb; exact h3 _ (g3 _ hb)
  · intro b; rw [h4, g4]
  · rw [List.foldl_append, h5, g5]

theorem seg_lbs (grp : SyntaxKind) (pairs : Bool) (d : Nat) (p : Prev) (br : Nat) (v : View) :
    Seg grp pairs d (lbLeaves v) p br p (br + lbs v) :=
  ⟨id, fun s tail => lbLeaves_body s grp br v tail, fun b => by rw [lbLeaves_words]; rfl, fun b h => h, fun b => rfl,
    lbLeaves_fold br v⟩

theorem blankOf_le (n : Nat) : blankOf n ≤ 255 := by unfold blankOf; omega
theorem blankOf_pos {n : Nat} (h : 2 ≤ n) : 1 ≤ blankOf n := by unfold blankOf; omega

theorem groupEnd_iff {k : SyntaxKind} (h : TS_DANGLING_COMMENT_GROUP_END.contains k = true) :
    k = BRACE_END ∨ k = BRACKET_END ∨ k = LINE_BREAK ∨ k = EOF := by
  revert h
  cases k <;> decide

theorem lineEnd_iff {k : SyntaxKind} (h : TS_LINE_END.contains k = true) : k = LINE_BREAK ∨ k = EOF := by
  revert h
  cases k <;> decide

/-! #### dangling comment groups -/

theorem dangLoop_some {v : View} {n : Nat} (hg : Good v) (hc : hd v = COMMENT) (h : dangLoop v = some n) :
    (∀ t ∈ v.take n, isLead t.kind = true) ∧ cmts (v.take n) ≠ [] ∧
      (2 ≤ lbs (v.drop n) ∨ isEnd (hd (skip (v.drop n)))) := by
  fun_induction dangLoop v generalizing n
  · cases h
  · rename_i c l v hl he
    cases h
    have hck : c.kind = COMMENT := hc
    refine ⟨?_, ?_, ?_⟩
    · intro t ht
      simp only [List.take_succ_cons, List.take_zero, List.mem_singleton] at ht
      subst ht
      simp [isLead, hck]
    · simp [cmts, hck]
    · simp only [List.drop_succ_cons, List.drop_zero]
      have hl2 := hg.1 hck
      simp only [hd] at hl2
      rcases hl2 with hl2 | hl2
      · rw [lbs, skip, if_pos hl2, if_pos hl2]
        by_cases hb : hd v = LINE_BREAK
        · left
          cases v with
          | nil => cases hb
          | cons y w =>
            have : y.kind = LINE_BREAK := hb
            rw [lbs, if_pos this]; omega
        · right
          rw [(lbs_of_hd hb).2]
          rcases groupEnd_iff he with h | h | h | h
          · exact .inl h
          · exact .inr (.inl h)
          · exact absurd h hb
          · exact .inr (.inr h)
      · right
        rw [skip, if_neg (by rw [hl2]; decide)]
        exact .inr (.inr hl2)
  · cases h
  · cases h
  · rename_i c l v hl he hcv m hm ih
    cases h
    have hck : c.kind = COMMENT := hc
    have hcv' : hd v = COMMENT := by simpa using hcv
    have hgl : l.kind = LINE_BREAK := by
      rcases hg.1 hck with h | h
      · exact h
      · have := hg.2.2.2.2.2.1 h
        subst this
        cases hcv'
    obtain ⟨i1, i2, i3⟩ := ih hg.2.2.2.2.2.2 hcv' hm
    refine ⟨?_, ?_, ?_⟩
    · intro t ht
      simp only [List.take_succ_cons, List.mem_cons] at ht
      rcases ht with rfl | rfl | ht
      · simp [isLead, hck]
      · simp [isLead, hgl]
      · exact i1 t ht
    · simp [cmts, hck]
    · simpa using i3
  · rename_i v hne
    cases h
    cases v with
    | nil => cases hc
    | cons t w =>
      cases w with
      | cons u w => exact absurd rfl (hne _ _ _)
      | nil =>
        have hck : t.kind = COMMENT := hc
        refine ⟨?_, ?_, ?_⟩
        · intro x hx
          simp only [List.take_succ_cons, List.take_zero, List.mem_singleton] at hx
          subst hx
          simp [isLead, hck]
        · simp [cmts, hck]
        · right; exact .inr (.inr rfl)

theorem danglingV_some (n : Nat) (grp : SyntaxKind) (first : TokenSet) (pairs : Bool) (d : Nat) {v v' : View} {F : List Green}
    (hg : Good v) (h : danglingV n v = some (F, v')) (prev : Prev) (br : Nat) (hl : Link first prev br v) :
    ∃ prev' br', Seg grp pairs d F prev br prev' br' ∧ Link first prev' br' v' ∧ hd v' ≠ LINE_BREAK ∧ Good v' ∧
      Inner grp F := by
  induction n generalizing v F prev br with
  | zero => cases h
  | succ n ih =>
    rw [danglingV] at h
    obtain ⟨A, B, v1, h1, h2, rfl⟩ := seqV_some h
    obtain ⟨rfl, rfl⟩ := breaksV_some h1
    have hlk := hl.skip
    split at h2
    · obtain ⟨rfl, rfl⟩ := okV_some h2
      rw [List.append_nil]
      exact ⟨prev, _, seg_lbs grp pairs d prev br v, hlk, hd_skip v, hg.skip, inner_lbs grp v⟩
    · rename_i k hk
      obtain ⟨A2, B2, v2, h3, h4, rfl⟩ := seqV_some h2
      obtain ⟨A3, h5, rfl⟩ := nodeV_some h3
      simp only [Option.some.injEq, Prod.mk.injEq] at h5
      obtain ⟨rfl, rfl⟩ := h5
      have hcm : hd (skip v) = COMMENT := by
        unfold dangLen at hk
        split at hk
        · assumption
        · cases hk
      rw [dangLen, if_pos hcm] at hk
      obtain ⟨d1, d2, d3⟩ := dangLoop_some hg.skip hcm hk
      have hlink : Link first .dangling 0 ((skip v).drop k) := by
        show _ ∨ _
        rw [Nat.zero_add]
        exact d3
      obtain ⟨prev', br', hs, hl', hb', hg', hi⟩ := ih (hg.skip.drop k) h4 .dangling 0 hlink
      refine ⟨prev', br', (seg_lbs grp pairs d prev br v).append (Seg.append (p' := .dangling) (b' := 0) ?_ hs), hl', hb', hg',
        (inner_lbs grp v).append (Inner.append ?_ hi)⟩
      · refine ⟨fun b => .dangling (blankOf (br + lbs v)) (cmts ((skip v).take k)) b, ?_, ?_, ?_, ?_, ?_⟩
        · intro s tail
          have hf : ∀ {α} (x y : α), (if (!true) = true then x else y) = y := fun _ _ => rfl
          rw [List.cons_append, List.nil_append, bodyOf, hf]
          simp only [if_true]
          congr 1
          exact lead_comments d1
        · intro b
          simp only [Body.words, List.map_append, treeWordsL, treeWords, List.append_nil, lead_words d1, commentWords_leaf]
        · intro b hb
          refine ⟨d2, ?_, blankOf_le _, hb⟩
          rintro rfl
          rcases hlk with h | h
          · rw [(lbs_of_hd (hd_skip v)).1] at h
            exact blankOf_pos (by simpa using h)
          · rw [(lbs_of_hd (hd_skip v)).2, hcm] at h
            rcases h with h | h | h <;> cases h
        · intro b; rfl
        · rfl
      · intro g hgm
        simp only [List.mem_singleton] at hgm
        exact .inr (.inl ⟨_, hgm⟩)

/-- without comments and line breaks at the start -/
def clr (v : View) : View := v.dropWhile fun t => isLead t.kind

theorem clr_append {u v : View} (hu : Lead u) (hv : isLead (hd v) = false) : clr (u ++ v) = v := by
  unfold clr
  induction u with
  | nil =>
    cases v with
    | nil => rfl
    | cons t v => rw [List.nil_append, List.dropWhile_cons_of_neg (by simpa [hd] using hv)]
  | cons x u ih =>
    rw [List.cons_append, List.dropWhile_cons_of_pos (by exact hu.lead x (by simp))]
    exact ih ⟨fun y hy => hu.lead y (by simp [hy])⟩

theorem peek_self {v : View} (h1 : hd v ≠ LINE_BREAK) (h2 : hd v ≠ COMMENT) : View.peek v = v := by
  cases v with
  | nil => rfl
  | cons t v =>
    change t.kind ≠ LINE_BREAK at h1
    change t.kind ≠ COMMENT at h2
    cases v with
    | nil => rw [View.peek]; exact if_neg h1
    | cons u v => rw [View.peek]; exact (if_neg h1).trans (if_neg (fun h => h2 h.1))

theorem clr_self {v : View} (h1 : hd v ≠ LINE_BREAK) (h2 : hd v ≠ COMMENT) : clr v = v := by
  cases v with
  | nil => rfl
  | cons t v =>
    change t.kind ≠ LINE_BREAK at h1
    change t.kind ≠ COMMENT at h2
    exact List.dropWhile_cons_of_neg (by simp [isLead, h1, h2])

theorem dangLoop_none {v : View} (hg : Good v) (hc : hd v = COMMENT) (h : dangLoop v = none) : View.peek v = clr v := by
  fun_induction dangLoop v
  · rename_i c l v hl
    exfalso
    have hck : c.kind = COMMENT := hc
    rcases hg.1 hck with h | h
    · have h : l.kind = LINE_BREAK := h
      rw [h] at hl; revert hl; decide
    · have h : l.kind = EOF := h
      rw [h] at hl; revert hl; decide
  · cases h
  · rename_i c l v hl he hcv
    have hck : c.kind = COMMENT := hc
    have hlb : hd v ≠ LINE_BREAK := by
      intro hv
      rw [hv] at he
      exact he (by decide)
    have hgl : l.kind = LINE_BREAK := by
      rcases hg.1 hck with h | h
      · exact h
      · have := hg.2.2.2.2.2.1 h
        subst this
        exact absurd (by decide) he
    have hpk : View.peek (c :: l :: v) = View.peek v := by
      rw [View.peek, if_neg (by rw [hck]; decide), if_pos ⟨hck, hgl, hlb⟩]
    have hcl : clr (c :: l :: v) = clr v := by
      unfold clr
      rw [List.dropWhile_cons_of_pos (by simp [isLead, hck]), List.dropWhile_cons_of_pos (by simp [isLead, hgl])]
    rw [hpk, hcl, peek_self hlb hcv, clr_self hlb hcv]
  · rename_i c l v hl he hcv hm ih
    have hck : c.kind = COMMENT := hc
    have hcv' : hd v = COMMENT := by simpa using hcv
    have hgl : l.kind = LINE_BREAK := by
      rcases hg.1 hck with h | h
      · exact h
      · have := hg.2.2.2.2.2.1 h
        subst this
        cases hcv'
    have hpk : View.peek (c :: l :: v) = View.peek v := by
      rw [View.peek, if_neg (by rw [hck]; decide), if_pos ⟨hck, hgl, by rw [hcv']; decide⟩]
    have hcl : clr (c :: l :: v) = clr v := by
      unfold clr
      rw [List.dropWhile_cons_of_pos (by simp [isLead, hck]), List.dropWhile_cons_of_pos (by simp [isLead, hgl])]
    rw [hpk, hcl]
    exact ih hg.2.2.2.2.2.2 hcv' hm
  · cases h
  · cases h

theorem dangLen_none {v : View} (hg : Good v) (hb : hd v ≠ LINE_BREAK) (h : dangLen v = none) : View.peek v = clr v := by
  unfold dangLen at h
  split at h
  · exact dangLoop_none hg (by assumption) h
  · rename_i hc
    rw [peek_self hb hc, clr_self hb hc]

theorem danglingV_peek (n : Nat) {v v' : View} {F : List Green} (hg : Good v) (h : danglingV n v = some (F, v')) :
    View.peek v' = clr v' := by
  induction n generalizing v F with
  | zero => cases h
  | succ n ih =>
    rw [danglingV] at h
    obtain ⟨A, B, v1, h1, h2, rfl⟩ := seqV_some h
    obtain ⟨rfl, rfl⟩ := breaksV_some h1
    split at h2
    · obtain ⟨rfl, rfl⟩ := okV_some h2
      rename_i hn
      exact dangLen_none hg.skip (hd_skip v) hn
    · obtain ⟨A2, B2, v2, h3, h4, rfl⟩ := seqV_some h2
      obtain ⟨A3, h5, rfl⟩ := nodeV_some h3
      simp only [Option.some.injEq, Prod.mk.injEq] at h5
      obtain ⟨rfl, rfl⟩ := h5
      exact ih (hg.skip.drop _) h4

/-- the tokens that start an item -/
def firstOf (pairs : Bool) : TokenSet := if pairs then TS_KEY_FIRST else TS_VALUE_FIRST

/-! #### items -/

def itemsBody : Option Nat → List (Node × Option Comma) → Body → Body
  | _, [], b => b
  | first, (n, c) :: its, b => .item first n c (itemsBody none its b)

def itemsWords (its : List (Node × Option Comma)) : List Word :=
  (its.map fun p => p.1.words ++ commaWords p.2).flatten

theorem itemsWords_cons (n : Node) (c : Option Comma) (its : List (Node × Option Comma)) :
    itemsWords ((n, c) :: its) = n.words ++ commaWords c ++ itemsWords its := by
  simp [itemsWords]

theorem itemsBody_words (first : Option Nat) (its : List (Node × Option Comma)) (b : Body) :
    (itemsBody first its b).words = itemsWords its ++ b.words := by
  induction its generalizing first with
  | nil => rfl
  | cons p its ih => simp [itemsBody, Body.words, itemsWords, ih]

theorem itemsBody_WF {pairs : Bool} {d : Nat} {first : Option Nat} {its : List (Node × Option Comma)} {b : Body} {prev : Prev}
    (hne : its ≠ []) (hf : FirstOk prev first) (ha : ∀ p ∈ its, p.1.isPair = pairs ∧ p.1.WF d) (hb : b.WF pairs d .item) :
    (itemsBody first its b).WF pairs d prev := by
  induction its generalizing first prev with
  | nil => exact absurd rfl hne
  | cons p its ih =>
    refine ⟨(ha p (by simp)).1, (ha p (by simp)).2, hf, ?_⟩
    cases its with
    | nil => exact hb
    | cons q its => exact ih (by simp) rfl fun x hx => ha x (by simp [hx])

theorem itemsBody_last {first : Option Nat} {its : List (Node × Option Comma)} {b : Body} {prev : Prev}
    (hne : its ≠ []) : (itemsBody first its b).last prev = b.last .item := by
  induction its generalizing first prev with
  | nil => exact absurd rfl hne
  | cons p its ih =>
    cases its with
    | nil => rfl
    | cons q its => exact ih (first := none) (prev := .item) (by simp)

/-- the children `F` of a group are the items `its` -/
structure ItemsOk (pairs : Bool) (d : Nat) (F : List Green) (its : List (Node × Option Comma)) : Prop where
  group : ∀ first b, groupOf first F b = itemsBody first its b
  words : (itemsWords its).map Word.leaf = treeWordsL F
  all : ∀ p ∈ its, p.1.isPair = pairs ∧ p.1.WF d
  comma : commaAfter F = none

theorem ItemsOk.nil (pairs : Bool) (d : Nat) : ItemsOk pairs d [] [] :=
  ⟨fun _ _ => by (rw [groupOf]; rfl), rfl, fun p hp => (by cases hp), rfl⟩

/-- one item -/
structure ItemOk (pairs : Bool) (d : Nat) (g : Green) (n : Node) : Prop where
  kind : isItemKind (kindOf g) = true
  value : isValueKind (kindOf g) = !pairs
  node : nodeOf g = some n
  words : n.words.map Word.leaf = treeWords g
  pair : n.isPair = pairs
  wf : n.WF d

theorem ItemOk.is_node {pairs : Bool} {d : Nat} {g : Green} {n : Node} (h : ItemOk pairs d g n) : ∃ k cs, g = .node k cs := by
  cases g with
  | token k t => have := h.node; cases this
  | node k cs => exact ⟨k, cs, rfl⟩

theorem ItemOk.cons {pairs : Bool} {d : Nat} {g : Green} {n : Node} {F : List Green} {its : List (Node × Option Comma)}
    (h : ItemOk pairs d g n) (hF : ItemsOk pairs d F its) : ItemsOk pairs d (g :: F) ((n, none) :: its) := by
  obtain ⟨k, cs, rfl⟩ := h.is_node
  refine ⟨fun first b => ?_, ?_, ?_, ?_⟩
  · rw [groupOf, h.node]
    simp only [itemsBody, hF.comma, hF.group]
  · rw [itemsWords_cons, List.map_append, hF.words, List.map_append, h.words]
    simp [commaWords, treeWordsL]
  · intro p hp
    rcases List.mem_cons.mp hp with rfl | hp
    · exact ⟨h.pair, h.wf⟩
    · exact hF.all p hp
  · rw [commaAfter, if_pos (by exact h.kind)]

theorem ItemOk.cons_comma {pairs : Bool} {d : Nat} {g : Green} {n : Node} {cs : List Green} {F : List Green}
    {its : List (Node × Option Comma)} {c : Comma}
    (h : ItemOk pairs d g n) (hc : c = ⟨leadingOf cs, trailingOf cs⟩)
    (hw : (commaWords (some c)).map Word.leaf = treeWordsL cs) (hF : ItemsOk pairs d F its) :
    ItemsOk pairs d (g :: .node COMMA cs :: F) ((n, some c) :: its) := by
  obtain ⟨k, ds, rfl⟩ := h.is_node
  refine ⟨fun first b => ?_, ?_, ?_, ?_⟩
  · rw [groupOf, h.node]
    have : nodeOf (.node COMMA cs) = none := by rw [nodeOf] <;> first | rfl | simp
    simp only [itemsBody]
    rw [groupOf, this, commaAfter, if_neg (by decide), if_pos rfl]
    simp only [hF.group, hc]
  · rw [itemsWords_cons, List.map_append, hF.words, List.map_append, h.words, hw]
    simp [treeWordsL, treeWords]
  · intro p hp
    rcases List.mem_cons.mp hp with rfl | hp
    · exact ⟨h.pair, h.wf⟩
    · exact hF.all p hp
  · rw [commaAfter, if_pos (by exact h.kind)]

theorem commaV_some {v v' : View} {F : List Green} (hg : Good v) (h : commaV v = some (F, v')) :
    ∃ cs c, F = [.node COMMA cs] ∧ c = ⟨leadingOf cs, trailingOf cs⟩ ∧
      (commaWords (some c)).map Word.leaf = treeWordsL cs ∧ Good v' ∧ hd v' ≠ COMMENT := by
  obtain ⟨A, h1, rfl⟩ := nodeV_some h
  obtain ⟨A1, B1, v1, h2, h3, rfl⟩ := seqV_some h1
  obtain ⟨u, rfl, rfl, hu, _⟩ := leadV_some h2
  obtain ⟨A2, B2, v2, h4, h5, rfl⟩ := seqV_some h3
  obtain ⟨t, rfl, ht, rfl⟩ := tokV_some h4
  have hg1 : Good (t :: v2) := by
    have := hg.drop u.length
    rwa [List.drop_left] at this
  obtain ⟨tr, rfl, hg2, hc, _⟩ := trailV_some hg1.2.2.2 h5
  refine ⟨_, ⟨cmts u, tr⟩, rfl, ?_, ?_, hg2, hc⟩
  · rw [List.singleton_append, hu.leadingOf (by rfl), trailingOf_trail _ (by decide)]
  · simp only [commaWords, List.map_append, treeWordsL_append, hu.words, trailLeaf_words]
    simp [treeWordsL, treeWords]

/-! ### the walk -/

/-- a value or a key-value pair has been read -/
def ItemPost (pairs : Bool) (d : Nat) (v : View) (F : List Green) (v' : View) : Prop :=
  ∃ g n, F = [g] ∧ ItemOk pairs d g n ∧ Good v' ∧ hd v' ≠ COMMENT ∧ (isLead (hd v) = false → n.leading = []) ∧
    (firstOf pairs).contains (hd (clr v)) = true

/-- where a body starts -/
def Starts (v : View) (F : List Green) : Prop :=
  (hd v = LINE_BREAK → ∃ t A, F = .token LINE_BREAK t :: A) ∧ (hd v = EOF → F = [])

/-- the groups of a body have been read -/
def LoopPost (grp : SyntaxKind) (first : TokenSet) (pairs : Bool) (d : Nat) (v : View) (F : List Green) (v' : View) : Prop :=
  Starts v F ∧ ∀ prev br, Link first prev br v → ∃ prev' br', Seg grp pairs d F prev br prev' br' ∧ Link first prev' br' v' ∧
    hd v' ≠ LINE_BREAK ∧ Good v' ∧ Inner grp F

/-- the items of a group have been read -/
def ItemsPost (pairs : Bool) (d : Nat) (exit : View → Prop) (v : View) (F : List Green) (v' : View) : Prop :=
  ∃ its, ItemsOk pairs d F its ∧ (isSep v = false → its ≠ [] ∧ (firstOf pairs).contains (hd (clr v)) = true) ∧ exit v' ∧ Good v'

def GroupPost (grp : SyntaxKind) (pairs : Bool) (d : Nat) (exit : View → Prop) (v : View) (F : List Green) (v' : View) : Prop :=
  ∃ F1, F = [.node grp F1] ∧ ItemsPost pairs d exit v F1 v'

/-- a header with its key-value pairs has been read -/
def SectionPost (F : List Green) (v' : View) : Prop :=
  ∃ (k : SyntaxKind) (cs : List Green) (s : Section), F = [.node k cs] ∧ (k = TABLE ∨ k = ARRAY_OF_TABLE) ∧
    (∀ br, sectionOf br (.node k cs) = some { s with blank := blankOf br }) ∧
    s.words.map Word.leaf = treeWordsL F ∧ s.WF ∧ hd v' ≠ LINE_BREAK ∧ Good v'

/-- the first section gets the number of blank lines before it -/
def withBlank (n : Nat) : List Section → List Section
  | [] => []
  | s :: ss => { s with blank := n } :: ss

def RootPost (v : View) (F : List Green) (v' : View) : Prop :=
  ∃ ss : List Section, (∀ br, sectionsOf br F = withBlank (blankOf (br + lbs v)) ss) ∧
    ((ss.map Section.words).flatten).map Word.leaf = treeWordsL F ∧ (∀ s ∈ ss, s.WF) ∧
    (∀ g ∈ F, (∃ t, g = .token LINE_BREAK t) ∨ ∃ k cs, g = .node k cs ∧ (k = TABLE ∨ k = ARRAY_OF_TABLE)) ∧
    (ss ≠ [] → hd (View.peek v) = BRACKET_START) ∧ Good v'

/-- the end of a group of an array or an inline table -/
def Exit (first : TokenSet) (v : View) : Prop := Link first .item 0 v

/-- the end of a group of a table -/
def ExitLine (v : View) : Prop := Link TS_KEY_FIRST .item 0 v ∨ hd v ≠ LINE_BREAK

open PM in
def Post : NT → Nat → View → List Green → View → Prop
  | .value, d, v, F, v' => ItemPost false d v F v'
  | .array, d, v, F, v' => ∀ d0, d = d0 + 1 → d0 < maxRecursionDepth → ItemPost false d0 v F v'
  | .inlineTable, d, v, F, v' => ∀ d0, d = d0 + 1 → d0 < maxRecursionDepth → ItemPost false d0 v F v'
  | .arrayLoop, d, v, F, v' => LoopPost VALUE_WITH_COMMA_GROUP TS_VALUE_FIRST false d v F v'
  | .inlineTableLoop, d, v, F, v' => LoopPost KEY_VALUE_WITH_COMMA_GROUP TS_KEY_FIRST true d v F v'
  | .valueGroup, d, v, F, v' => GroupPost VALUE_WITH_COMMA_GROUP false d (Exit TS_VALUE_FIRST) v F v'
  | .valueGroupLoop, d, v, F, v' => ItemsPost false d (Exit TS_VALUE_FIRST) v F v'
  | .commaGroup, d, v, F, v' => GroupPost KEY_VALUE_WITH_COMMA_GROUP true d (Exit TS_KEY_FIRST) v F v'
  | .commaGroupLoop, d, v, F, v' => ItemsPost true d (Exit TS_KEY_FIRST) v F v'
  | .keyValue, d, v, F, v' => ItemPost true d v F v'
  | .keyValueGroup, d, v, F, v' => GroupPost KEY_VALUE_GROUP true d ExitLine v F v'
  | .keyValueGroupLoop, d, v, F, v' => ItemsPost true d ExitLine v F v'
  | .sectionLoop, d, v, F, v' => LoopPost KEY_VALUE_GROUP TS_KEY_FIRST true d v F v'
  | .table, d, _, F, v' => d = 0 → SectionPost F v'
  | .arrayOfTable, d, _, F, v' => d = 0 → SectionPost F v'
  | .rootLoop, d, v, F, v' => d = 0 → RootPost v F v'

/-- the induction hypothesis -/
def Sound (rec : PM.NT → Nat → PV) : Prop := ∀ nt d v F v', Good v → rec nt d v = some (F, v') → Post nt d v F v'

theorem good_append {u v : View} (h : Good (u ++ v)) : Good v := by
  have := h.drop u.length
  rwa [List.drop_left] at this

theorem tokenText_lead {u : View} (hu : Lead u) {k : SyntaxKind} (hk : isLead k = false) (t : Text) (rest : List Green) :
    tokenText k (u.map leaf ++ .token k t :: rest) = some t := by
  unfold tokenText
  induction u with
  | nil => simp
  | cons x u ih =>
    rw [List.map_cons, List.cons_append, List.findSome?_cons]
    have hx : x.kind ≠ k := by
      rintro rfl
      rw [hu.lead x (by simp)] at hk
      cases hk
    simp only [leaf, if_neg hx]
    exact ih ⟨fun y hy => hu.lead y (by simp [hy])⟩

theorem literal_sound {k : SyntaxKind} (hk : isLiteral k = true) {d : Nat} {v v' : View} {F : List Green} (hg : Good v)
    (h : literalV k v = some (F, v')) : ItemPost false d v F v' := by
  obtain ⟨A, h1, rfl⟩ := nodeV_some h
  obtain ⟨A1, B1, v1, h2, h3, rfl⟩ := seqV_some h1
  obtain ⟨u, rfl, rfl, hu, hu'⟩ := leadV_some h2
  obtain ⟨A2, B2, v2, h4, h5, rfl⟩ := seqV_some h3
  obtain ⟨t, rfl, ht, rfl⟩ := tokV_some h4
  obtain ⟨tr, rfl, hg2, hc, _⟩ := trailV_some (good_append hg).2.2.2 h5
  have hkn : k ≠ WHITESPACE ∧ k ≠ LINE_BREAK ∧ k ≠ COMMA ∧ k ≠ COMMENT ∧ k ≠ ARRAY ∧ k ≠ INLINE_TABLE ∧ k ≠ KEY_VALUE := by
    refine ⟨?_, ?_, ?_, ?_, ?_, ?_, ?_⟩ <;> rintro rfl <;> cases hk
  have hv : isValueKind k = true := by revert hk; cases k <;> simp [isLiteral, isValueKind]
  have htx : tokenText k (u.map leaf ++ .token k t.text :: trailLeaf tr) = some t.text := by
    exact tokenText_lead hu (by
      cases hl : isLead k with
      | false => rfl
      | true =>
        simp only [isLead, Bool.or_eq_true, beq_iff_eq] at hl
        rcases hl with h | h
        · exact absurd h hkn.2.2.2.1
        · exact absurd h hkn.2.1) _ _
  refine ⟨_, .lit (cmts u) k t.text tr, rfl, ⟨?_, hv, ?_, ?_, rfl, hk⟩, hg2, hc, ?_, ?_⟩
  · simp [isItemKind, kindOf, hv]
  · rw [List.singleton_append, nodeOf]
    · rw [if_pos hv, htx, hu.leadingOf (by simp [isLeadingKind, kindOf, hkn]), trailingOf_trail _ hkn.2.2.2.1]
      rfl
    · exact hkn.2.2.2.2.1
    · exact hkn.2.2.2.2.2.1
    · exact hkn.2.2.2.2.2.2
  · simp only [Node.words, List.map_append, List.map_cons, treeWords, treeWordsL_append, hu.words, trailLeaf_words]
    simp only [treeWordsL, treeWords_tok t.text ⟨hkn.1, hkn.2.1, hkn.2.2.1⟩]
    rfl
  · intro hl
    cases u with
    | nil => rfl
    | cons x u =>
      have := hu.lead x (by simp)
      rw [List.cons_append, hd, this] at hl
      cases hl
  · rw [clr_append hu hu']
    show (firstOf false).contains t.kind = true
    rw [ht]
    revert hk
    cases k <;> decide

theorem value_sound {rec : PM.NT → Nat → PV} (ih : Sound rec) {d : Nat} {v v' : View} {F : List Green} (hg : Good v)
    (h : valueV rec d v = some (F, v')) : ItemPost false d v F v' := by
  unfold valueV at h
  split at h
  · exact literal_sound (by assumption) hg h
  · split at h
    · unfold nestedV at h
      split at h
      · cases h
      · exact ih .array (d + 1) v F v' hg h d rfl (by omega)
    · split at h
      · unfold nestedV at h
        split at h
        · cases h
        · exact ih .inlineTable (d + 1) v F v' hg h d rfl (by omega)
      · cases h

theorem bodyOf_tokens (s g : SyntaxKind) (br : Nat) (ts : List Green) (h : ∀ x ∈ ts, ∃ k t, x = .token k t) :
    bodyOf s g true br ts = .nil := by
  induction ts generalizing br with
  | nil => rfl
  | cons x ts ih =>
    obtain ⟨k, t, rfl⟩ := h x (by simp)
    exact ih (nextBreaks br (.token k t)) fun y hy => h y (by simp [hy])

theorem trailLeaf_tokens (tr : Option Text) : ∀ x ∈ trailLeaf tr, ∃ k t, x = .token k t := by
  cases tr with
  | none => intro x hx; cases hx
  | some t => intro x hx; exact ⟨COMMENT, t, by simpa [trailLeaf] using hx⟩

theorem leaf_kind_ne {u : View} (hu : Lead u) {s : SyntaxKind} (hs : isLead s = false) : ∀ g ∈ u.map leaf, kindOf g ≠ s := by
  intro g hg
  obtain ⟨y, hy, rfl⟩ := List.mem_map.mp hg
  rintro rfl
  have := hu.lead y hy
  rw [leaf, kindOf, this] at hs
  cases hs

theorem bodyOf_open (s g : SyntaxKind) (hs : isLead s = false) (hw : s ≠ WHITESPACE) {u : View} (hu : Lead u) (br : Nat)
    (t : Text) (tr : Option Text) (rest : List Green) :
    bodyOf s g false br (u.map leaf ++ .token s t :: (trailLeaf tr ++ rest)) = bodyOf s g true 0 rest := by
  have main : ∀ (l : List Green), (∀ x ∈ l, kindOf x ≠ s) → ∀ br,
      bodyOf s g false br (l ++ .token s t :: (trailLeaf tr ++ rest)) = bodyOf s g true 0 rest := by
    intro l
    induction l with
    | nil =>
      intro _ br
      have h0 : nextBreaks br (.token s t) = 0 := by
        unfold nextBreaks
        split
        · rename_i h; cases h; exact absurd rfl hw
        · rename_i h; cases h; cases hs
        · rfl
      rw [List.nil_append, bodyOf, if_pos (by rfl), h0]
      simp only [kindOf, beq_self_eq_true]
      cases tr with
      | none => rfl
      | some c => rfl
    | cons x l ih =>
      intro h br
      rw [List.cons_append, bodyOf.eq_def]
      simp only []
      rw [if_pos (by rfl)]
      have hx : (kindOf x == s) = false := by simpa using h x (by simp)
      rw [hx]
      exact ih (fun y hy => h y (by simp [hy])) _
  exact main _ (leaf_kind_ne hu hs) br

theorem trailingAfter_open (s : SyntaxKind) (hs : isLead s = false) {u : View} (hu : Lead u) (t : Text)
    (tr : Option Text) {rest : List Green} (hr : ∀ x, rest.head? = some x → ∀ c, x ≠ .token COMMENT c ∧ x ≠ .token WHITESPACE c) :
    trailingAfter s (u.map leaf ++ .token s t :: (trailLeaf tr ++ rest)) = tr := by
  unfold trailingAfter
  have main : ∀ (l : List Green), (∀ x ∈ l, kindOf x ≠ s ∧ kindOf x ≠ EOF) →
      (l ++ .token s t :: (trailLeaf tr ++ rest)).dropWhile (fun g => kindOf g != s && kindOf g != EOF) =
        .token s t :: (trailLeaf tr ++ rest) := by
    intro l
    induction l with
    | nil => intro _; rw [List.nil_append, List.dropWhile_cons_of_neg (by simp [kindOf])]
    | cons x l ih =>
      intro h
      rw [List.cons_append, List.dropWhile_cons_of_pos (by simp [h x (by simp)])]
      exact ih fun y hy => h y (by simp [hy])
  rw [main _ fun x hx => ⟨leaf_kind_ne hu hs x hx, leaf_kind_ne hu (by decide) x hx⟩, List.drop_succ_cons, List.drop_zero]
  cases tr with
  | some c => rfl
  | none =>
    rw [trailLeaf, List.nil_append]
    cases rest with
    | nil => rfl
    | cons x rest => exact commentAfter_other (fun c => (hr x rfl c).1) (fun c => (hr x rfl c).2)

theorem Inner.head {grp : SyntaxKind} {F : List Green} (h : Inner grp F) {k : SyntaxKind} (hk : k ≠ COMMENT ∧ k ≠ WHITESPACE)
    (t : Text) (rest : List Green) : ∀ x, (F ++ .token k t :: rest).head? = some x →
      ∀ c, x ≠ .token COMMENT c ∧ x ≠ .token WHITESPACE c := by
  intro x hx c
  cases F with
  | nil =>
    cases hx
    exact ⟨fun h => by cases h; exact hk.1 rfl, fun h => by cases h; exact hk.2 rfl⟩
  | cons g F =>
    cases hx
    rcases h x (by simp) with ⟨t, rfl⟩ | ⟨cs, rfl⟩ | ⟨cs, rfl⟩ <;> exact ⟨by simp, by simp⟩

/-- An array or an inline table: opening token, groups, closing token. -/
theorem nested_sound {rec : PM.NT → Nat → PV} {loop : PM.NT} (ih : Sound rec) {k so sc grp : SyntaxKind} {first : TokenSet}
    {pairs : Bool} {d : Nat} {v v' : View} {F : List Green} (hg : Good v)
    (hpost : ∀ v F v', Post loop (d + 1) v F v' → LoopPost grp first pairs (d + 1) v F v')
    (hd' : d < maxRecursionDepth)
    (hk : k = ARRAY ∧ so = BRACKET_START ∧ sc = BRACKET_END ∧ grp = VALUE_WITH_COMMA_GROUP ∧ pairs = false ∨
      k = INLINE_TABLE ∧ so = BRACE_START ∧ sc = BRACE_END ∧ grp = KEY_VALUE_WITH_COMMA_GROUP ∧ pairs = true)
    (h : nodeV k (leadV ⨟ tokV so ⨟ trailV ⨟ rec loop (d + 1) ⨟ tokV sc ⨟ trailV) v = some (F, v')) :
    ItemPost false d v F v' := by
  obtain ⟨A, h1, rfl⟩ := nodeV_some h
  obtain ⟨A1, B1, v1, h2, h3, rfl⟩ := seqV_some h1
  obtain ⟨u, rfl, rfl, hu, hu'⟩ := leadV_some h2
  obtain ⟨A2, B2, v2, h4, h5, rfl⟩ := seqV_some h3
  obtain ⟨t, rfl, ht, rfl⟩ := tokV_some h4
  obtain ⟨A3, B3, v3, h6, h7, rfl⟩ := seqV_some h5
  obtain ⟨tr, rfl, hg3, hc3, _⟩ := trailV_some (good_append hg).2.2.2 h6
  obtain ⟨A4, B4, v4, h8, h9, rfl⟩ := seqV_some h7
  obtain ⟨prev', br', hs, hl', hb', hg4, hi⟩ := (hpost _ _ _ (ih _ _ _ _ _ hg3 h8)).2 .start 0 trivial
  obtain ⟨A5, B5, v5, h10, h11, rfl⟩ := seqV_some h9
  obtain ⟨t', rfl, ht', rfl⟩ := tokV_some h10
  obtain ⟨tr', rfl, hg6, hc6, _⟩ := trailV_some hg4.2.2.2 h11
  obtain ⟨f, f1, f2, f3, f4, f5⟩ := hs
  have hbody : ∀ s, bodyOf s grp true 0 (A4 ++ ([.token sc t'.text] ++ trailLeaf tr')) = f .nil := by
    intro s
    rw [f1, bodyOf_tokens]
    intro x hx
    rcases List.mem_append.mp hx with hx | hx
    · exact ⟨_, _, by simpa using hx⟩
    · exact trailLeaf_tokens tr' x hx
  have hwf : (f .nil).WF pairs (d + 1) .start := f3 _ trivial
  have hwords := f2 .nil
  have hto : t.text = markText so := by
    rw [← ht]
    apply (good_append hg).2.1
    rw [ht]
    rcases hk with ⟨_, rfl, _⟩ | ⟨_, rfl, _⟩ <;> decide
  have htc : t'.text = markText sc := by
    rw [← ht']
    apply hg4.2.1
    rw [ht']
    rcases hk with ⟨_, _, rfl, _⟩ | ⟨_, _, rfl, _⟩ <;> decide
  have hlead : ∀ n : Node, n.leading = cmts u → isLead (hd (u ++ t :: v2)) = false → n.leading = [] := by
    intro n hn hl
    rw [hn]
    cases u with
    | nil => rfl
    | cons x u =>
      have := hu.lead x (by simp)
      rw [List.cons_append, hd, this] at hl
      cases hl
  have hfst : (firstOf false).contains (hd (clr (u ++ t :: v2))) = true := by
    rw [clr_append hu hu']
    show (firstOf false).contains t.kind = true
    rw [ht]
    rcases hk with ⟨_, rfl, _⟩ | ⟨_, rfl, _⟩ <;> decide
  have hassoc : u.map leaf ++ ([.token so t.text] ++ (trailLeaf tr ++ (A4 ++ ([.token sc t'.text] ++ trailLeaf tr')))) =
      (u.map leaf ++ .token so t.text :: (trailLeaf tr ++ A4)) ++ .token sc t'.text :: trailLeaf tr' := by simp
  rcases hk with ⟨rfl, rfl, rfl, rfl, rfl⟩ | ⟨rfl, rfl, rfl, rfl, rfl⟩
  · refine ⟨_, .array (cmts u) tr (f .nil) tr', rfl, ⟨rfl, rfl, ?_, ?_, rfl, hd', hwf⟩, hg6, hc6, hlead _ rfl, hfst⟩
    · rw [nodeOf]
      have e1 := hu.leadingOf (g := .token BRACKET_START t.text) rfl
        (trailLeaf tr ++ (A4 ++ ([.token BRACKET_END t'.text] ++ trailLeaf tr')))
      have e2 := trailingAfter_open BRACKET_START rfl hu t.text tr
        (hi.head (k := BRACKET_END) (by decide) t'.text (trailLeaf tr'))
      have e3 := bodyOf_open BRACKET_START VALUE_WITH_COMMA_GROUP rfl (by decide) hu 0 t.text tr
        (A4 ++ ([.token BRACKET_END t'.text] ++ trailLeaf tr'))
      rw [hbody] at e3
      simp only [List.singleton_append] at e1 e2 e3 ⊢
      rw [e1, e2, e3]
      simp only [List.singleton_append] at hassoc
      rw [hassoc, trailingOf_trail _ (by decide)]
    · rw [treeWords]
      simp only [Node.words, List.map_append, List.map_cons, treeWordsL_append, hu.words, trailLeaf_words, hwords, treeWordsL,
        Body.words, List.map_nil, List.append_nil]
      rw [treeWords_tok _ (by decide), treeWords_tok _ (by decide), hto, htc]
      simp [Word.leaf]
  · refine ⟨_, .table (cmts u) tr (f .nil) tr', rfl, ⟨rfl, rfl, ?_, ?_, rfl, hd', hwf⟩, hg6, hc6, hlead _ rfl, hfst⟩
    · rw [nodeOf]
      have e1 := hu.leadingOf (g := .token BRACE_START t.text) rfl
        (trailLeaf tr ++ (A4 ++ ([.token BRACE_END t'.text] ++ trailLeaf tr')))
      have e2 := trailingAfter_open BRACE_START rfl hu t.text tr
        (hi.head (k := BRACE_END) (by decide) t'.text (trailLeaf tr'))
      have e3 := bodyOf_open BRACE_START KEY_VALUE_WITH_COMMA_GROUP rfl (by decide) hu 0 t.text tr
        (A4 ++ ([.token BRACE_END t'.text] ++ trailLeaf tr'))
      rw [hbody] at e3
      simp only [List.singleton_append] at e1 e2 e3 ⊢
      rw [e1, e2, e3]
      simp only [List.singleton_append] at hassoc
      rw [hassoc, trailingOf_trail _ (by decide)]
    · rw [treeWords]
      simp only [Node.words, List.map_append, List.map_cons, treeWordsL_append, hu.words, trailLeaf_words, hwords, treeWordsL,
        Body.words, List.map_nil, List.append_nil]
      rw [treeWords_tok _ (by decide), treeWords_tok _ (by decide), hto, htc]
      simp [Word.leaf]

/-! #### groups -/

theorem exit_sep {first : TokenSet} (h0 : first.contains EOF = false) {v : View} (h : isSep v = true) : Exit first v := by
  unfold isSep at h
  simp only [Bool.and_eq_true] at h
  show _ ∨ _
  rw [Nat.zero_add]
  cases v with
  | nil => right; exact h0
  | cons t v =>
    rcases lineEnd_iff h.1 with ht | ht
    · have ht' : t.kind = LINE_BREAK := ht
      cases v with
      | nil => right; rw [peek_lb ht']; exact h0
      | cons u v =>
        rcases lineEnd_iff h.2 with hu | hu
        · left
          have : u.kind = LINE_BREAK := hu
          rw [lbs, if_pos ht', lbs, if_pos this]
          omega
        · right
          have : u.kind = EOF := hu
          rw [peek_lb ht']
          cases v with
          | nil => rw [View.peek, if_neg (by rw [this]; decide)]; simpa [hd, this] using h0
          | cons w v =>
            rw [View.peek, if_neg (by rw [this]; decide), if_neg (by rw [this]; simp)]
            simpa [hd, this] using h0
    · right
      have : t.kind = EOF := ht
      cases v with
      | nil => rw [View.peek, if_neg (by rw [this]; decide)]; simpa [hd, this] using h0
      | cons w v =>
        rw [View.peek, if_neg (by rw [this]; decide), if_neg (by rw [this]; simp)]
        simpa [hd, this] using h0

/-- the items that follow, if any -/
def RestPost (pairs : Bool) (d : Nat) (exit : View → Prop) (F : List Green) (v' : View) : Prop :=
  ∃ its, ItemsOk pairs d F its ∧ exit v' ∧ Good v'

theorem more_sound {pairs : Bool} {d : Nat} {exit : View → Prop} {first : TokenSet} {loop : PV}
    (hloop : ∀ v F v', Good v → loop v = some (F, v') → ItemsPost pairs d exit v F v')
    (hexit : ∀ v, first.contains (hd (View.peek v)) = false → exit v)
    {v v' : View} {F : List Green} (hg : Good v) (h : moreV first loop v = some (F, v')) : RestPost pairs d exit F v' := by
  unfold moreV at h
  split at h
  · obtain ⟨its, a, _, b, c⟩ := hloop _ _ _ hg h
    exact ⟨its, a, b, c⟩
  · obtain ⟨rfl, rfl⟩ := okV_some h
    rename_i hn
    exact ⟨[], .nil _ _, hexit _ (by simpa using hn), hg⟩

theorem afterItem_sound {pairs : Bool} {d : Nat} {end_ first : TokenSet} {loop : PV}
    (hends : ∀ k, end_.contains k = true → first.contains k = false)
    (hloop : ∀ v F v', Good v → loop v = some (F, v') → ItemsPost pairs d (Exit first) v F v')
    {v v' : View} {F : List Green} {g : Green} {n : Node} (hg : Good v) (hi : ItemOk pairs d g n)
    (h : afterItemV end_ first loop v = some (F, v')) : ∃ its, its ≠ [] ∧ ItemsOk pairs d (g :: F) its ∧ Exit first v' ∧ Good v' := by
  have hexit : ∀ v, first.contains (hd (View.peek v)) = false → Exit first v := fun v h => .inr h
  unfold afterItemV at h
  split at h
  · obtain ⟨A, B, v1, h1, h2, rfl⟩ := seqV_some h
    obtain ⟨cs, c, rfl, hc, hw, hg1, _⟩ := commaV_some hg h1
    obtain ⟨its, a, b, c'⟩ := more_sound hloop hexit hg1 h2
    exact ⟨_, by simp, hi.cons_comma hc hw a, b, c'⟩
  · split at h
    · obtain ⟨rfl, rfl⟩ := okV_some h
      rename_i he
      exact ⟨_, by simp, hi.cons (.nil _ _), hexit _ (hends _ he), hg⟩
    · obtain ⟨its, a, b, c⟩ := more_sound hloop hexit hg h
      exact ⟨_, by simp, hi.cons a, b, c⟩

theorem itemLoop_sound {rec : PM.NT → Nat → PV} (ih : Sound rec) {item loopN : PM.NT} {end_ first : TokenSet} {pairs : Bool} {d : Nat}
    (hitem : ∀ v F v', Post item d v F v' → ItemPost pairs d v F v')
    (hloop : ∀ v F v', Post loopN d v F v' → ItemsPost pairs d (Exit first) v F v')
    (h0 : first.contains EOF = false) (hends : ∀ k, end_.contains k = true → first.contains k = false)
    {v v' : View} {F : List Green} (hg : Good v)
    (h : (if isSep v then okV v else (rec item d ⨟ afterItemV end_ first (rec loopN d)) v) = some (F, v')) :
    ItemsPost pairs d (Exit first) v F v' := by
  split at h
  · obtain ⟨rfl, rfl⟩ := okV_some h
    rename_i hs
    exact ⟨[], .nil _ _, by simp [hs], exit_sep h0 hs, hg⟩
  · obtain ⟨A, B, v1, h1, h2, rfl⟩ := seqV_some h
    obtain ⟨g, n, rfl, hi, hg1, _, _, hf⟩ := hitem _ _ _ (ih _ _ _ _ _ hg h1)
    obtain ⟨its, a, b, c, e⟩ := afterItem_sound hends (fun v F v' hv hr => hloop _ _ _ (ih _ _ _ _ _ hv hr)) hg1 hi h2
    exact ⟨its, b, fun _ => ⟨a, hf⟩, c, e⟩

theorem nextLine_sound {d : Nat} {loop : PV}
    (hloop : ∀ v F v', Good v → loop v = some (F, v') → ItemsPost true d ExitLine v F v')
    {v v' : View} {F : List Green} (hg : Good v) (h : nextLineV loop v = some (F, v')) : RestPost true d ExitLine F v' := by
  unfold nextLineV at h
  split at h
  · exact more_sound hloop (fun v h => .inl (.inr h)) hg h
  · obtain ⟨rfl, rfl⟩ := okV_some h
    rename_i hn
    exact ⟨[], .nil _ _, .inr hn, hg⟩

theorem pairLoop_sound {rec : PM.NT → Nat → PV} (ih : Sound rec) {d : Nat} {v v' : View} {F : List Green} (hg : Good v)
    (h : keyValueGroupLoopV rec d v = some (F, v')) : ItemsPost true d ExitLine v F v' := by
  unfold keyValueGroupLoopV at h
  split at h
  · obtain ⟨rfl, rfl⟩ := okV_some h
    rename_i hs
    exact ⟨[], .nil _ _, by simp [hs], .inl (exit_sep (by decide) hs), hg⟩
  · obtain ⟨A, B, v1, h1, h2, rfl⟩ := seqV_some h
    obtain ⟨g, n, rfl, hi, hg1, _, _, hf⟩ := ih _ _ _ _ _ hg h1
    have hloop : ∀ v F v', Good v → rec .keyValueGroupLoop d v = some (F, v') → ItemsPost true d ExitLine v F v' :=
      fun v F v' hv hr => ih _ _ _ _ _ hv hr
    unfold afterPairV at h2
    split at h2
    · obtain ⟨A2, B2, v2, h3, h4, rfl⟩ := seqV_some h2
      obtain ⟨cs, c, rfl, hc, hw, hg2, _⟩ := commaV_some hg1 h3
      obtain ⟨its, a, b, e⟩ := nextLine_sound hloop hg2 h4
      exact ⟨_, hi.cons_comma hc hw a, fun _ => ⟨by simp, hf⟩, b, e⟩
    · obtain ⟨its, a, b, e⟩ := nextLine_sound hloop hg1 h2
      exact ⟨_, hi.cons a, fun _ => ⟨by simp, hf⟩, b, e⟩

theorem group_sound {grp : SyntaxKind} {pairs : Bool} {d : Nat} {exit : View → Prop} {loop : PV}
    (hloop : ∀ v F v', Good v → loop v = some (F, v') → ItemsPost pairs d exit v F v')
    {v v' : View} {F : List Green} (hg : Good v) (h : nodeV grp loop v = some (F, v')) : GroupPost grp pairs d exit v F v' := by
  obtain ⟨A, h1, rfl⟩ := nodeV_some h
  exact ⟨A, rfl, hloop _ _ _ hg h1⟩

/-! #### key-value pairs -/

theorem keysNode_lead {u : View} (ks rest : List Green) :
    keysNode (u.map leaf ++ .node KEYS ks :: rest) = some ks := by
  unfold keysNode
  induction u with
  | nil => rfl
  | cons x u ih => exact ih

theorem valueOf_lead {u : View} (hu : Lead u) (ks rest : List Green) (t : Text) :
    valueOf (u.map leaf ++ .node KEYS ks :: .token EQUAL t :: rest) = valueOf rest := by
  induction u with
  | nil => rfl
  | cons x u ih =>
    have hx := hu.lead x (by simp)
    simp only [isLead, Bool.or_eq_true, beq_iff_eq] at hx
    rw [List.map_cons, List.cons_append, valueOf, if_neg]
    · exact ih ⟨fun y hy => hu.lead y (by simp [hy])⟩
    · rcases hx with h | h <;> simp [leaf, kindOf, h, isValueKind]

theorem keyValue_sound {rec : PM.NT → Nat → PV} (ih : Sound rec) {d : Nat} {v v' : View} {F : List Green} (hg : Good v)
    (h : keyValueV rec d v = some (F, v')) : ItemPost true d v F v' := by
  unfold keyValueV at h
  obtain ⟨A, h1, rfl⟩ := nodeV_some h
  obtain ⟨A1, B1, v1, h2, h3, rfl⟩ := seqV_some h1
  obtain ⟨u, rfl, rfl, hu, hu'⟩ := leadV_some h2
  obtain ⟨A2, B2, v2, h4, h5, rfl⟩ := seqV_some h3
  obtain ⟨ks, rfl, hks, hg2, hkf⟩ := keysV_some (good_append hg) h4
  obtain ⟨A3, B3, v3, h6, h7, rfl⟩ := seqV_some h5
  obtain ⟨t, rfl, ht, rfl⟩ := tokV_some h6
  obtain ⟨A4, B4, v4, h8, h9, rfl⟩ := seqV_some h7
  split at h8
  · cases h8
  rename_i hl1
  split at h8
  · cases h8
  rename_i hl2
  obtain ⟨g, n, rfl, hi, hg4, hc4, hn, _⟩ := ih .value d _ _ _ hg2.2.2.2 h8
  have hnl : n.leading = [] := by
    apply hn
    cases hh : isLead (hd v3) with
    | false => rfl
    | true =>
      simp only [isLead, Bool.or_eq_true, beq_iff_eq] at hh
      rcases hh with h | h
      · exact absurd h hl2
      · exact absurd (show TS_LINE_END.contains (hd v3) = true by rw [h]; decide) hl1
  obtain ⟨tr, rfl, hg5, hc5, htr, _⟩ := trailV_some hg4 h9
  have htr0 : tr = none := by
    cases tr with
    | none => rfl
    | some c =>
      exfalso
      unfold trailV spanV at h9
      simp only [Option.some.injEq, Prod.mk.injEq] at h9
      have h9 := h9.1
      cases v4 with
      | nil => cases h9
      | cons y w =>
        rw [List.takeWhile_cons_of_neg (by simpa [isComment, hd] using hc4)] at h9
        cases h9
  subst htr0
  refine ⟨_, .pair (cmts u) (ks.filterMap keyOf) (greenTexts ks) n, rfl, ⟨rfl, rfl, ?_, ?_, rfl, hks.ne, hi.pair, hnl, hi.wf⟩,
    hg5, hc5, ?_, by rw [clr_append hu hu']; exact hkf⟩
  · rw [nodeOf]
    simp only [List.singleton_append, trailLeaf, List.append_nil]
    rw [keysNode_lead, valueOf_lead hu, hu.leadingOf (by rfl)]
    rw [valueOf, if_pos (by simpa using hi.value), hi.node]
  · rw [treeWords]
    have hte : t.text = ['='] := by
      have := hg2.2.1 (by rw [ht]; decide)
      rw [ht] at this
      exact this
    simp only [Node.words, List.map_append, List.map_cons, treeWordsL_append, hu.words, trailLeaf_words, treeWordsL,
      hks.words, hi.words, treeWords, List.append_nil]
    simp [hte, Word.leaf, markText, trailingWords]
  · intro hl
    cases u with
    | nil => rfl
    | cons x u =>
      have := hu.lead x (by simp)
      rw [List.cons_append, hd, this] at hl
      cases hl

/-! #### loops -/

theorem nextBreaks_node (br : Nat) (k : SyntaxKind) (cs : List Green) : nextBreaks br (.node k cs) = 0 := rfl

/-- A group after what came before. -/
theorem seg_group {grp : SyntaxKind} (hgrp : grp ≠ DANGLING_COMMENT_GROUP) {pairs : Bool} {d : Nat} {F1 : List Green}
    {its : List (Node × Option Comma)} (h : ItemsOk pairs d F1 its) (hne : its ≠ []) {prev : Prev} {br : Nat}
    (hp : prev ≠ .start → 2 ≤ br) : Seg grp pairs d [.node grp F1] prev br .item 0 := by
  refine ⟨fun b => itemsBody (some (blankOf br)) its b, ?_, ?_, ?_, ?_, rfl⟩
  · intro s tail
    have hf : ∀ {α} (x y : α), (if (!true) = true then x else y) = y := fun _ _ => rfl
    rw [List.cons_append, List.nil_append, bodyOf, hf]
    simp only [if_neg hgrp, if_true]
    exact h.group _ _
  · intro b
    rw [itemsBody_words, List.map_append, h.words]
    simp [treeWordsL, treeWords]
  · intro b hb
    exact itemsBody_WF hne ⟨fun hs => blankOf_pos (hp hs), blankOf_le _⟩ h.all hb
  · intro b; exact itemsBody_last hne

/-- What precedes an item that starts a group. -/
theorem link_first {first : TokenSet} (hend : ∀ k, isEnd k → first.contains k = false) {prev : Prev} {br : Nat} {v : View}
    (h : Link first prev br v) (hb : hd v ≠ LINE_BREAK) (hf : first.contains (hd (View.peek v)) = true) :
    prev ≠ .start → 2 ≤ br := by
  intro hp
  have h0 := lbs_of_hd hb
  cases prev with
  | start => exact absurd rfl hp
  | dangling =>
    rcases h with h | h
    · rw [h0.1] at h; simpa using h
    · rw [h0.2] at h
      rw [peek_self hb (by rcases h with h | h | h <;> rw [h] <;> decide), hend _ h] at hf
      cases hf
  | item =>
    rcases h with h | h
    · rw [h0.1] at h; simpa using h
    · rw [hf] at h; cases h

theorem notSep {v : View} (hb : hd v ≠ LINE_BREAK) (he : hd v ≠ EOF) : isSep v = false := by
  unfold isSep
  cases hh : TS_LINE_END.contains (hd v) with
  | false => rfl
  | true =>
    rcases lineEnd_iff hh with h | h
    · exact absurd h hb
    · exact absurd h he

theorem link_item {first : TokenSet} (h0 : first.contains EOF = false) {v : View} (h : ExitLine v)
    (hl : TS_LINE_END.contains (hd v) = true) (hf : first = TS_KEY_FIRST) : Link first .item 0 v := by
  subst hf
  rcases h with h | h
  · exact h
  · have he : hd v = EOF := by
      rcases lineEnd_iff hl with h' | h'
      · exact absurd h' h
      · exact h'
    right
    rw [peek_self h (by rw [he]; decide), he]
    exact h0

/-- A loop over groups. -/
theorem loop_sound {grp : SyntaxKind} (hgrp : grp ≠ DANGLING_COMMENT_GROUP) {end_ : TokenSet} {pairs : Bool} {d : Nat}
    (hend : ∀ k, isEnd k → (firstOf pairs).contains k = false) (hE : end_.contains EOF = true)
    {exit : View → Prop} {group rest : PV}
    (hgroup : ∀ v F v', Good v → group v = some (F, v') → GroupPost grp pairs d exit v F v')
    (hrest : ∀ v F v', Good v → exit v → rest v = some (F, v') →
      Link (firstOf pairs) .item 0 v ∧ LoopPost grp (firstOf pairs) pairs d v F v')
    {v v' : View} {F : List Green} (hg : Good v)
    (h : (breaksV ⨟ danglingsV ⨟ fun v => if end_.contains (hd (View.peek v)) then okV v else (group ⨟ rest) v) v = some (F, v')) :
    LoopPost grp (firstOf pairs) pairs d v F v' := by
  refine ⟨?_, ?_⟩
  · obtain ⟨A, B, v1, h1, h2, rfl⟩ := seqV_some h
    obtain ⟨rfl, rfl⟩ := breaksV_some h1
    obtain ⟨A2, B2, v2, h3, h4, rfl⟩ := seqV_some h2
    refine ⟨fun hb => ?_, fun he => ?_⟩
    · cases v with
      | nil => cases hb
      | cons t v =>
        have hb : t.kind = LINE_BREAK := hb
        rw [lbLeaves, if_pos hb]
        exact ⟨_, _, rfl⟩
    · have hb : hd v ≠ LINE_BREAK := by rw [he]; decide
      have hs := (lbs_of_hd hb).2
      have hl0 : lbLeaves v = [] := by
        cases v with
        | nil => rfl
        | cons t v => rw [lbLeaves]; exact if_neg hb
      rw [hs] at h3
      unfold danglingsV at h3
      rw [danglingV] at h3
      obtain ⟨A3, B3, v3, h5, h6, rfl⟩ := seqV_some h3
      obtain ⟨rfl, rfl⟩ := breaksV_some h5
      rw [hs] at h6
      rw [dangLen, if_neg (by rw [he]; decide)] at h6
      obtain ⟨rfl, rfl⟩ := okV_some h6
      rw [peek_self hb (by rw [he]; decide), he, if_pos hE] at h4
      obtain ⟨rfl, rfl⟩ := okV_some h4
      simp [hl0]
  intro prev br hl
  obtain ⟨A, B, v1, h1, h2, rfl⟩ := seqV_some h
  obtain ⟨rfl, rfl⟩ := breaksV_some h1
  obtain ⟨A2, B2, v2, h3, h4, rfl⟩ := seqV_some h2
  obtain ⟨prev1, br1, hs, hl1, hb, hg1, hi⟩ := danglingV_some _ grp (firstOf pairs) pairs d hg.skip h3 prev _ hl.skip
  have hpk := danglingV_peek _ hg.skip h3
  have hs := (seg_lbs grp pairs d prev br v).append hs
  have hi := (inner_lbs grp v).append hi
  rw [← List.append_assoc]
  split at h4
  · obtain ⟨rfl, rfl⟩ := okV_some h4
    rw [List.append_nil]
    exact ⟨prev1, br1, hs, hl1, hb, hg1, hi⟩
  · rename_i hne
    have he : hd v2 ≠ EOF := by
      intro he
      rw [peek_self hb (by rw [he]; decide), he] at hne
      exact hne hE
    obtain ⟨A3, B3, v3, h5, h6, rfl⟩ := seqV_some h4
    obtain ⟨F1, rfl, its, hits, hn, hex, hg3⟩ := hgroup _ _ _ hg1 h5
    obtain ⟨hits0, hfst⟩ := hn (notSep hb he)
    rw [← hpk] at hfst
    have hs2 := seg_group hgrp hits hits0 (link_first hend hl1 hb hfst)
    obtain ⟨hlk, hlp⟩ := hrest _ _ _ hg3 hex h6
    obtain ⟨prev2, br2, hs3, hl3, hb3, hg4, hi3⟩ := hlp.2 .item 0 hlk
    refine ⟨prev2, br2, hs.append (hs2.append hs3), hl3, hb3, hg4, hi.append (Inner.append ?_ hi3)⟩
    intro g hgm
    simp only [List.mem_singleton] at hgm
    exact .inr (.inr ⟨_, hgm⟩)

theorem arrayLoop_sound {rec : PM.NT → Nat → PV} (ih : Sound rec) {d : Nat} {v v' : View} {F : List Green} (hg : Good v)
    (h : arrayLoopV rec d v = some (F, v')) : LoopPost VALUE_WITH_COMMA_GROUP TS_VALUE_FIRST false d v F v' :=
  loop_sound (pairs := false) (exit := Exit TS_VALUE_FIRST) (by decide)
    (fun k hk => by rcases hk with rfl | rfl | rfl <;> decide) (by decide)
    (fun v F v' hv hr => ih .valueGroup d v F v' hv hr)
    (fun v F v' hv he hr => ⟨he, ih .arrayLoop d v F v' hv hr⟩) hg h

theorem inlineTableLoop_sound {rec : PM.NT → Nat → PV} (ih : Sound rec) {d : Nat} {v v' : View} {F : List Green} (hg : Good v)
    (h : inlineTableLoopV rec d v = some (F, v')) : LoopPost KEY_VALUE_WITH_COMMA_GROUP TS_KEY_FIRST true d v F v' :=
  loop_sound (pairs := true) (exit := Exit TS_KEY_FIRST) (by decide)
    (fun k hk => by rcases hk with rfl | rfl | rfl <;> decide) (by decide)
    (fun v F v' hv hr => ih .commaGroup d v F v' hv hr)
    (fun v F v' hv he hr => ⟨he, ih .inlineTableLoop d v F v' hv hr⟩) hg h

theorem lineEndV_some {v v' : View} {F : List Green} (h : lineEndV v = some (F, v')) :
    F = [] ∧ v' = v ∧ TS_LINE_END.contains (hd v) = true := by
  unfold lineEndV at h
  split at h
  · obtain ⟨rfl, rfl⟩ := okV_some h
    exact ⟨rfl, rfl, by assumption⟩
  · cases h

theorem sectionLoop_sound {rec : PM.NT → Nat → PV} (ih : Sound rec) {d : Nat} {v v' : View} {F : List Green} (hg : Good v)
    (h : sectionLoopV rec d v = some (F, v')) : LoopPost KEY_VALUE_GROUP TS_KEY_FIRST true d v F v' :=
  loop_sound (pairs := true) (exit := ExitLine) (by decide)
    (fun k hk => by rcases hk with rfl | rfl | rfl <;> decide) (by decide)
    (fun v F v' hv hr => ih .keyValueGroup d v F v' hv hr)
    (fun v F v' hv he hr => by
      obtain ⟨A, B, v1, h1, h2, rfl⟩ := seqV_some hr
      obtain ⟨rfl, rfl, hl⟩ := lineEndV_some h1
      exact ⟨link_item (by decide) he hl rfl, ih .sectionLoop d _ _ _ hv h2⟩) hg h

/-! #### sections -/

theorem rootBody_eq (s : SyntaxKind) : (br : Nat) → (cs : List Green) → rootBody br cs = bodyOf s KEY_VALUE_GROUP true br cs
  | br, [] => by rw [rootBody, bodyOf]
  | br, .token k t :: cs => by
    have hf : ∀ {α} (x y : α), (if (!true) = true then x else y) = y := fun _ _ => rfl
    rw [rootBody, bodyOf, hf]
    exact rootBody_eq s _ cs
  | br, .node k ds :: cs => by
    have hf : ∀ {α} (x y : α), (if (!true) = true then x else y) = y := fun _ _ => rfl
    rw [rootBody, bodyOf, hf]
    rw [rootBody_eq s 0 cs]

theorem dropTo {p : Green → Bool} (l : List Green) (h : ∀ x ∈ l, p x = true) {g : Green} (hg : p g = false)
    (rest : List Green) : (l ++ g :: rest).dropWhile p = g :: rest := by
  induction l with
  | nil => rw [List.nil_append, List.dropWhile_cons_of_neg (by simp [hg])]
  | cons x l ih =>
    rw [List.cons_append, List.dropWhile_cons_of_pos (h x (by simp))]
    exact ih fun y hy => h y (by simp [hy])

theorem pairV_some {k kk : SyntaxKind} {v v' : View} {F : List Green} (h : pairV k kk v = some (F, v')) :
    ∃ t u, v = t :: u :: v' ∧ t.kind = k ∧ u.kind = k ∧ F = [.token kk (t.text ++ u.text)] := by
  unfold pairV at h
  split at h
  · split at h
    · rename_i t u v1 hp
      simp only [Option.some.injEq, Prod.mk.injEq] at h
      obtain ⟨h1, rfl⟩ := h
      simp only [atPair, Bool.and_eq_true, beq_iff_eq] at hp
      exact ⟨t, u, rfl, hp.1.1, hp.1.2, h1.symm⟩
    · cases h
  · cases h

/-- A table or an array of tables, from its parts. -/
theorem section_ok (arr : Bool) {u : View} (hu : Lead u) {ks : List Green} (hks : KeysOk ks) (tr : Option Text)
    {v v' : View} {A : List Green} (hl : TS_LINE_END.contains (hd v) = true)
    (hA : LoopPost KEY_VALUE_GROUP TS_KEY_FIRST true 0 v A v') :
    SectionPost [.node (if arr then ARRAY_OF_TABLE else TABLE)
      (u.map leaf ++ .token (if arr then DOUBLE_BRACKET_START else BRACKET_START) (markText (if arr then DOUBLE_BRACKET_START else BRACKET_START)) ::
        .node KEYS ks :: .token (if arr then DOUBLE_BRACKET_END else BRACKET_END) (markText (if arr then DOUBLE_BRACKET_END else BRACKET_END)) ::
          (trailLeaf tr ++ A))] v' := by
  obtain ⟨hst, hpost⟩ := hA
  obtain ⟨prev', br', ⟨f, f1, f2, f3, f4, f5⟩, hl', hb', hg', hi⟩ := hpost .start 0 trivial
  have hb : ∀ s, bodyOf s KEY_VALUE_GROUP true 0 A = f .nil := by
    intro s
    have := f1 s []
    rwa [List.append_nil, bodyOf] at this
  have hAhead : ∀ x, A.head? = some x → ∀ c, x ≠ .token COMMENT c ∧ x ≠ .token WHITESPACE c := by
    intro x hx c
    cases A with
    | nil => cases hx
    | cons g A =>
      cases hx
      rcases hi x (by simp) with ⟨t, rfl⟩ | ⟨cs, rfl⟩ | ⟨cs, rfl⟩ <;> exact ⟨by simp, by simp⟩
  have hdropA : ∀ p : Green → Bool, (∀ t, p (.token LINE_BREAK t) = false) → A.dropWhile p = A := by
    intro p hp
    rcases lineEnd_iff hl with h | h
    · obtain ⟨t, A', rfl⟩ := hst.1 h
      rw [List.dropWhile_cons_of_neg (by simp [hp])]
    · rw [hst.2 h]; rfl
  have hws : (f .nil).words.map Word.leaf = treeWordsL A := by rw [f2]; simp [Body.words]
  have hwf : (f .nil).WF true 0 .start := f3 _ trivial
  refine ⟨_, _, ⟨arr, 0, cmts u, ks.filterMap keyOf, tr, f .nil⟩, rfl, ?_, ?_, ?_, ⟨hks.ne, hwf⟩, hb', hg'⟩
  · cases arr
    · exact .inl rfl
    · exact .inr rfl
  · intro br
    have hkn : ∀ (k : SyntaxKind) t rest, keysNode (u.map leaf ++ .token k t :: .node KEYS ks :: rest) = some ks := by
      intro k t rest
      unfold keysNode
      clear hl hst hpost
      induction u with
      | nil => rfl
      | cons x u ih => exact ih ⟨fun y hy => hu.lead y (by simp [hy])⟩
    have hpre : ∀ (k e : SyntaxKind) (t : Text), isLead e = false → k ≠ e → e ≠ KEYS →
        ∀ x ∈ u.map leaf ++ [.token k t, .node KEYS ks], kindOf x ≠ e := by
      intro k e t he hke hek x hx
      rcases List.mem_append.mp hx with hx | hx
      · exact leaf_kind_ne hu he x hx
      · simp only [List.mem_cons, List.not_mem_nil, or_false] at hx
        rcases hx with rfl | rfl
        · exact hke
        · exact fun h => hek h.symm
    have htrail : ∀ (k e : SyntaxKind) (t t' : Text), isLead e = false → k ≠ e → e ≠ KEYS → k ≠ EOF →
        trailingAfter e (u.map leaf ++ .token k t :: .node KEYS ks :: .token e t' :: (trailLeaf tr ++ A)) = tr := by
      intro k e t t' he hke hek hkE
      unfold trailingAfter
      have e1 : u.map leaf ++ .token k t :: .node KEYS ks :: .token e t' :: (trailLeaf tr ++ A) =
          (u.map leaf ++ [.token k t, .node KEYS ks]) ++ .token e t' :: (trailLeaf tr ++ A) := by simp
      rw [e1, dropTo _ _ (by simp [kindOf]), List.drop_succ_cons, List.drop_zero]
      · cases tr with
        | some c => rfl
        | none =>
          rw [trailLeaf, List.nil_append]
          cases A with
          | nil => rfl
          | cons x rest => exact commentAfter_other (fun c => (hAhead x rfl c).1) (fun c => (hAhead x rfl c).2)
      · intro x hx
        have h1 := hpre k e t he hke hek x hx
        have h2 := hpre k EOF t (by decide) hkE (by decide) x hx
        simp [h1, h2]
    have hbody : ∀ (k e : SyntaxKind) (t t' : Text), isLead e = false → k ≠ e → e ≠ KEYS → e ≠ DANGLING_COMMENT_GROUP → 
        sectionBody e (u.map leaf ++ .token k t :: .node KEYS ks :: .token e t' :: (trailLeaf tr ++ A)) = f .nil := by
      intro k e t t' he hke hek hed
      unfold sectionBody
      have e1 : u.map leaf ++ .token k t :: .node KEYS ks :: .token e t' :: (trailLeaf tr ++ A) =
          (u.map leaf ++ [.token k t, .node KEYS ks]) ++ .token e t' :: (trailLeaf tr ++ A) := by simp
      have helb : e ≠ LINE_BREAK := by rintro rfl; cases he
      simp only []
      rw [e1, dropTo _ _ (by simp [kindOf])]
      · rw [List.dropWhile_cons_of_pos (by simp [kindOf, helb, hed])]
        have e2 : (trailLeaf tr ++ A).dropWhile (fun g => kindOf g != LINE_BREAK &&
            !(e == BRACKET_END && kindOf g == DANGLING_COMMENT_GROUP)) = A := by
          cases tr with
          | none => exact hdropA _ (by simp [kindOf])
          | some c =>
            rw [trailLeaf, List.singleton_append, List.dropWhile_cons_of_pos (by simp [kindOf])]
            exact hdropA _ (by simp [kindOf])
        rw [e2, rootBody_eq ROOT, hb]
      · intro x hx
        simp [hpre k e t he hke hek x hx]
    cases arr
    · simp only [Bool.false_eq_true, if_false, sectionOf, hkn]
      rw [htrail _ _ _ _ (by decide) (by decide) (by decide) (by decide), hbody _ _ _ _ (by decide) (by decide) (by decide) (by decide),
        hu.leadingOf (by rfl)]
      rfl
    · simp only [if_true, sectionOf, hkn]
      rw [htrail _ _ _ _ (by decide) (by decide) (by decide) (by decide), hbody _ _ _ _ (by decide) (by decide) (by decide) (by decide),
        hu.leadingOf (by rfl)]
      rfl
  · cases arr <;>
    simp only [Section.words, treeWordsL, treeWords, treeWordsL_append, List.map_append, List.map_cons, hws, hks.words, hu.words,
      trailLeaf_words, if_true, if_false, Bool.false_eq_true] <;>
    simp [Word.leaf]

theorem table_sound {rec : PM.NT → Nat → PV} (ih : Sound rec) {v v' : View} {F : List Green} (hg : Good v)
    (h : tableV rec 0 v = some (F, v')) : SectionPost F v' := by
  unfold tableV at h
  obtain ⟨A, h1, rfl⟩ := nodeV_some h
  obtain ⟨A1, B1, v1, h2, h3, rfl⟩ := seqV_some h1
  obtain ⟨u, rfl, rfl, hu, hu'⟩ := leadV_some h2
  obtain ⟨A2, B2, v2, h4, h5, rfl⟩ := seqV_some h3
  obtain ⟨t, rfl, ht, rfl⟩ := tokV_some h4
  have hg1 := good_append hg
  obtain ⟨A3, B3, v3, h6, h7, rfl⟩ := seqV_some h5
  obtain ⟨ks, rfl, hks, hg2, _⟩ := keysV_some hg1.2.2.2 h6
  obtain ⟨A4, B4, v4, h8, h9, rfl⟩ := seqV_some h7
  obtain ⟨t', rfl, ht', rfl⟩ := tokV_some h8
  obtain ⟨A5, B5, v5, h10, h11, rfl⟩ := seqV_some h9
  obtain ⟨tr, rfl, hg5, hc, _⟩ := trailV_some hg2.2.2.2 h10
  obtain ⟨A6, B6, v6, h12, h13, rfl⟩ := seqV_some h11
  obtain ⟨rfl, rfl, hl⟩ := lineEndV_some h12
  have e1 : t.text = markText BRACKET_START := by rw [← ht]; exact hg1.2.1 (by rw [ht]; decide)
  have e2 : t'.text = markText BRACKET_END := by rw [← ht']; exact hg2.2.1 (by rw [ht']; decide)
  have := section_ok false hu hks tr hl (ih .sectionLoop 0 _ _ _ hg5 h13)
  simpa [e1, e2] using this

theorem arrayOfTable_sound {rec : PM.NT → Nat → PV} (ih : Sound rec) {v v' : View} {F : List Green} (hg : Good v)
    (h : arrayOfTableV rec 0 v = some (F, v')) : SectionPost F v' := by
  unfold arrayOfTableV at h
  obtain ⟨A, h1, rfl⟩ := nodeV_some h
  obtain ⟨A1, B1, v1, h2, h3, rfl⟩ := seqV_some h1
  obtain ⟨u, rfl, rfl, hu, hu'⟩ := leadV_some h2
  obtain ⟨A2, B2, v2, h4, h5, rfl⟩ := seqV_some h3
  obtain ⟨t, s, rfl, ht, hs, rfl⟩ := pairV_some h4
  have hg1 := good_append hg
  obtain ⟨A3, B3, v3, h6, h7, rfl⟩ := seqV_some h5
  obtain ⟨ks, rfl, hks, hg2, _⟩ := keysV_some hg1.2.2.2.2.2.2 h6
  obtain ⟨A4, B4, v4, h8, h9, rfl⟩ := seqV_some h7
  obtain ⟨t', s', rfl, ht', hs', rfl⟩ := pairV_some h8
  obtain ⟨A5, B5, v5, h10, h11, rfl⟩ := seqV_some h9
  obtain ⟨tr, rfl, hg5, hc, _⟩ := trailV_some hg2.2.2.2.2.2.2 h10
  obtain ⟨A6, B6, v6, h12, h13, rfl⟩ := seqV_some h11
  obtain ⟨rfl, rfl, hl⟩ := lineEndV_some h12
  have e1 : t.text = markText BRACKET_START := by rw [← ht]; exact hg1.2.1 (by rw [ht]; decide)
  have e2 : t'.text = markText BRACKET_END := by rw [← ht']; exact hg2.2.1 (by rw [ht']; decide)
  have e3 : s.text = markText BRACKET_START := by rw [← hs]; exact hg1.2.2.2.2.1 (by rw [hs]; decide)
  have e4 : s'.text = markText BRACKET_END := by rw [← hs']; exact hg2.2.2.2.2.1 (by rw [hs']; decide)
  have := section_ok true hu hks tr hl (ih .sectionLoop 0 _ _ _ hg5 h13)
  simpa [e1, e2, e3, e4, markText] using this

theorem withBlank_words (n : Nat) (ss : List Section) :
    ((withBlank n ss).map Section.words).flatten = (ss.map Section.words).flatten := by
  cases ss with
  | nil => rfl
  | cons s ss => rfl

theorem withBlank_WF {n : Nat} {ss : List Section} (h : ∀ s ∈ ss, s.WF) : ∀ s ∈ withBlank n ss, s.WF := by
  cases ss with
  | nil => exact h
  | cons s ss =>
    intro x hx
    rcases List.mem_cons.mp hx with rfl | hx
    · exact ⟨(h s (by simp)).header, (h s (by simp)).body⟩
    · exact h x (by simp [hx])

theorem rootLoop_sound {rec : PM.NT → Nat → PV} (ih : Sound rec) {v v' : View} {F : List Green} (hg : Good v)
    (h : rootLoopV rec 0 v = some (F, v')) : RootPost v F v' := by
  unfold rootLoopV at h
  obtain ⟨A, B, v1, h1, h2, rfl⟩ := seqV_some h
  obtain ⟨rfl, rfl⟩ := breaksV_some h1
  have hin : ∀ g ∈ lbLeaves v, (∃ t, g = .token LINE_BREAK t) ∨ ∃ k cs, g = .node k cs ∧ (k = TABLE ∨ k = ARRAY_OF_TABLE) := by
    intro g hgm
    have := inner_lbs ROOT v g hgm
    clear h h1 h2 hg
    induction v with
    | nil => cases hgm
    | cons t v ih =>
      rw [lbLeaves] at hgm
      split at hgm
      · rcases List.mem_cons.mp hgm with rfl | hgm
        · exact .inl ⟨_, rfl⟩
        · exact ih hgm
      · cases hgm
  have step : ∀ {p : PV}, (∀ F v', p (skip v) = some (F, v') → SectionPost F v') → (hd (View.peek v) = BRACKET_START) →
      (p ⨟ rec .rootLoop 0) (skip v) = some (B, v') → RootPost v (lbLeaves v ++ B) v' := by
    intro p hp hpk h
    obtain ⟨A1, B1, v2, h3, h4, rfl⟩ := seqV_some h
    obtain ⟨k, cs, s, rfl, hk, hs, hw, hwf, hb, hg2⟩ := hp _ _ h3
    obtain ⟨ss, s1, s2, s3, s4, s5, s6⟩ := ih .rootLoop 0 _ _ _ hg2 h4 rfl
    refine ⟨s :: withBlank 0 ss, ?_, ?_, ?_, ?_, fun _ => hpk, s6⟩
    · intro br
      rw [lbLeaves_sections, List.singleton_append, sectionsOf, hs]
      simp only [withBlank]
      rw [nextBreaks_node, s1, (lbs_of_hd hb).1]
      rfl
    · rw [treeWordsL_append, treeWordsL_append, lbLeaves_words, List.map_cons, List.flatten_cons, withBlank_words,
        List.map_append, s2, hw]
      rfl
    · intro x hx
      rcases List.mem_cons.mp hx with rfl | hx
      · exact hwf
      · exact withBlank_WF s3 x hx
    · intro g hgm
      rcases List.mem_append.mp hgm with hgm | hgm
      · exact hin g hgm
      · rcases List.mem_append.mp hgm with hgm | hgm
        · simp only [List.mem_singleton] at hgm
          exact .inr ⟨k, cs, hgm, hk⟩
        · exact s4 g hgm
  rw [peek_skip] at h2
  split at h2
  · obtain ⟨rfl, rfl⟩ := okV_some h2
    rw [List.append_nil]
    refine ⟨[], ?_, ?_, by simp, hin, by simp, hg.skip⟩
    · intro br
      have := lbLeaves_sections br v []
      rw [List.append_nil] at this
      rw [this]; rfl
    · rw [lbLeaves_words]; rfl
  · split at h2
    · rename_i hp
      refine step (fun F v' h => ih .arrayOfTable 0 _ F v' hg.skip h rfl) ?_ h2
      cases hpv : View.peek v with
      | nil => rw [hpv] at hp; cases hp
      | cons t w =>
        rw [hpv] at hp
        cases w with
        | nil => cases hp
        | cons u w =>
          simp only [atPair, Bool.and_eq_true, beq_iff_eq] at hp
          exact hp.1.1
    · split at h2
      · exact step (fun F v' h => ih .table 0 _ F v' hg.skip h rfl) (by assumption) h2
      · cases h2

/-- The walk. -/
theorem sound : (m : Nat) → Sound (parseV m)
  | 0 => fun _ _ _ _ _ _ h => by cases h
  | m + 1 => by
    have ih := sound m
    intro nt d v F v' hg h
    have h : bodyV (parseV m) nt d v = some (F, v') := h
    cases nt with
    | value => exact value_sound ih hg h
    | array =>
      intro d0 hd0 hlt
      subst hd0
      exact nested_sound ih hg (loop := .arrayLoop) (fun _ _ _ h => h) hlt (.inl ⟨rfl, rfl, rfl, rfl, rfl⟩) h
    | inlineTable =>
      intro d0 hd0 hlt
      subst hd0
      exact nested_sound ih hg (loop := .inlineTableLoop) (fun _ _ _ h => h) hlt (.inr ⟨rfl, rfl, rfl, rfl, rfl⟩) h
    | arrayLoop => exact arrayLoop_sound ih hg h
    | inlineTableLoop => exact inlineTableLoop_sound ih hg h
    | valueGroup => exact group_sound (fun v F v' hv hr => ih .valueGroupLoop d v F v' hv hr) hg h
    | valueGroupLoop =>
      exact itemLoop_sound ih (item := .value) (loopN := .valueGroupLoop) (fun _ _ _ h => h) (fun _ _ _ h => h) (by decide)
        (fun k hk => by revert hk; cases k <;> decide) hg h
    | commaGroup => exact group_sound (fun v F v' hv hr => ih .commaGroupLoop d v F v' hv hr) hg h
    | commaGroupLoop =>
      exact itemLoop_sound ih (item := .keyValue) (loopN := .commaGroupLoop) (fun _ _ _ h => h) (fun _ _ _ h => h) (by decide)
        (fun k hk => by revert hk; cases k <;> decide) hg h
    | keyValue => exact keyValue_sound ih hg h
    | keyValueGroup => exact group_sound (fun v F v' hv hr => ih .keyValueGroupLoop d v F v' hv hr) hg h
    | keyValueGroupLoop => exact pairLoop_sound ih hg h
    | sectionLoop => exact sectionLoop_sound ih hg h
    | table =>
      intro hd0
      subst hd0
      exact table_sound ih hg h
    | arrayOfTable =>
      intro hd0
      subst hd0
      exact arrayOfTable_sound ih hg h
    | rootLoop =>
      intro hd0
      subst hd0
      exact rootLoop_sound ih hg h

theorem rootV_sound {m : Nat} {v v' : View} {F : List Green} (hg : Good v) (h : rootV m v = some (F, v')) :
    ∃ cs, F = [.node ROOT cs] ∧ (docOf (.node ROOT cs)).words.map Word.leaf = treeWordsL cs ∧ (docOf (.node ROOT cs)).WF := by
  unfold rootV at h
  obtain ⟨A, h1, rfl⟩ := nodeV_some h
  refine ⟨A, rfl, ?_⟩
  obtain ⟨A1, B1, v1, h2, h3, rfl⟩ := seqV_some h1
  obtain ⟨_, hpost⟩ := sound m .sectionLoop 0 _ _ _ hg h2
  obtain ⟨prev', br', ⟨f, f1, f2, f3, f4, f5⟩, hl', hb', hg', hi⟩ := hpost .start 0 trivial
  obtain ⟨ss, s1, s2, s3, s4, s5, s6⟩ := sound m .rootLoop 0 _ _ _ hg' h3 rfl
  have hB : ∀ (br : Nat) (l : List Green),
      (∀ g ∈ l, (∃ t, g = .token LINE_BREAK t) ∨ ∃ k cs, g = .node k cs ∧ (k = TABLE ∨ k = ARRAY_OF_TABLE)) →
      rootBody br l = .nil := by
    intro br l hl
    induction l generalizing br with
    | nil => rfl
    | cons g l ih =>
      have ih := fun br => ih br fun x hx => hl x (by simp [hx])
      rcases hl g (by simp) with ⟨t, rfl⟩ | ⟨k, cs, rfl, hk⟩
      · rw [rootBody]; exact ih _
      · rw [rootBody, if_neg (by rintro rfl; rcases hk with h | h <;> cases h), if_neg (by rintro rfl; rcases hk with h | h <;> cases h)]
        exact ih _
  have hbody : rootBody 0 (A1 ++ B1) = f .nil := by
    rw [rootBody_eq ROOT, f1, ← rootBody_eq ROOT, hB _ _ s4]
  have hsec : ∀ (br : Nat) (l : List Green), Inner KEY_VALUE_GROUP l →
      sectionsOf br (l ++ B1) = sectionsOf (l.foldl nextBreaks br) B1 := by
    intro br l hl
    induction l generalizing br with
    | nil => rfl
    | cons g l ih =>
      have ih := fun br => ih br fun x hx => hl x (by simp [hx])
      rw [List.cons_append, sectionsOf]
      have : sectionOf br g = none := by
        rcases hl g (by simp) with ⟨t, rfl⟩ | ⟨cs, rfl⟩ | ⟨cs, rfl⟩ <;> rfl
      rw [this]
      exact ih _
  have hs : sectionsOf 0 (A1 ++ B1) = withBlank (blankOf br') ss := by
    rw [hsec 0 A1 hi, f5, s1, (lbs_of_hd hb').1, Nat.add_zero]
  refine ⟨?_, ?_, ?_, ?_⟩
  · simp only [Doc.words, docOf, childrenOf, hbody, hs, withBlank_words, List.map_append, s2, treeWordsL_append]
    rw [f2]
    simp [Body.words]
  · simp only [docOf, childrenOf, hbody]
    exact f3 _ trivial
  · simp only [docOf, childrenOf, hs]
    exact withBlank_WF s3
  · simp only [docOf, childrenOf, hbody, hs]
    intro s hsm
    cases ss with
    | nil => cases hsm
    | cons x ss =>
      simp only [withBlank, List.head?_cons, Option.mem_some_iff] at hsm
      subst hsm
      refine ⟨fun hd' => blankOf_pos ?_, blankOf_le _⟩
      have hpk := s5 (by simp)
      rw [f4] at hd'
      have hd' : prev' = .dangling := hd'
      subst hd'
      rcases hl' with h | h
      · rw [(lbs_of_hd hb').1] at h; simpa using h
      · exfalso
        rw [(lbs_of_hd hb').2] at h
        rw [peek_self hb' (by rcases h with h | h | h <;> rw [h] <;> decide)] at hpk
        rcases h with h | h | h <;> rw [h] at hpk <;> cases hpk

end Tombi.Formatter
