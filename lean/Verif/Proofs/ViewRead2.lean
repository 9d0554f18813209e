import Verif.Proofs.ViewRead
/-! The parser on views accepts what is laid out as the formatter lays out: literals, keys, arrays, tables. -/
namespace Tombi.Formatter
open SyntaxKind
open Tombi.PM (NT)
open View (hd leaf PV okV seqV nodeV tokV pairV spanV leadV trailV breaksV isLead isComment isBreak isSep keyV keysLoopV keysV
  commaV dangLoop dangLen danglingV danglingsV isLiteral literalV nestedV valueV moreV afterItemV nextLineV afterPairV lineEndV
  bodyV parseV rootV atPair arrayV inlineTableV keyValueV tableV arrayOfTableV rootLoopV)
open Tombi.Format (AstKey)

/-! ### literals -/

theorem isLiteral_facts {k : SyntaxKind} (h : isLiteral k = true) : isLead k = false ∧ isValueKind k = true ∧
    TS_VALUE_FIRST.contains k = true ∧ k ≠ COMMENT ∧ k ≠ ARRAY ∧ k ≠ INLINE_TABLE ∧ k ≠ KEY_VALUE ∧ k ≠ BRACKET_START ∧
    k ≠ BRACE_START := by
  revert h
  cases k <;> decide

theorem itemRd_lit {d : Nat} {cs : List Text} {u wt : View} {x : VTok} {tr : Option Text} (hu : LeadW cs u)
    (hx : isLiteral x.kind = true) (ht : TrailW tr wt) : ItemRd gArr d (u ++ x :: wt) (.lit cs x.kind x.text tr) := by
  have hf := isLiteral_facts hx
  refine ⟨⟨cs, u, x, wt, rfl, hu, hf.2.2.1⟩, fun p rest hp hr => ?_⟩
  have hlead : Lead (p ++ u) := hp.lead hu.lead
  have e : p ++ (u ++ x :: wt) ++ rest = (p ++ u) ++ x :: (wt ++ rest) := by simp
  have hpk : hd (View.peek (p ++ (u ++ x :: wt) ++ rest)) = x.kind := by
    rw [e, List.append_assoc, hp.peek, hu.peek (by exact hf.1)]
    rfl
  refine ⟨.node x.kind ((p ++ u).map leaf ++ ([.token x.kind x.text] ++ trailLeaf tr)), ?_, ?_, ?_⟩
  · refine Runs.intro 0 fun m _ => ?_
    show valueV _ d _ = _
    unfold valueV
    rw [hpk, if_pos hx, e]
    exact nodeV_eq (seqV_eq (leadV_eq hlead (by exact hf.1)) (seqV_eq (tokV_eq rfl _) (trailV_eq ht hr)))
  · simp [isItemKind, kindOf, hf.2.1]
  · rw [List.singleton_append, nodeOf]
    · rw [if_pos hf.2.1, tokenText_lead hlead hf.1, hlead.leadingOf, trailingOf_trail _ hf.2.2.2.1, hp.cmts, hu.cmts]
      · rfl
      · revert hx
        simp only [isLeadingKind, kindOf]
        cases x.kind <;> decide
    · exact hf.2.2.2.2.1
    · exact hf.2.2.2.2.2.1
    · exact hf.2.2.2.2.2.2.1

/-! ### keys -/

/-- The token is read as one bare key. -/
def ReadsBare (x : VTok) : Prop := keyV [x] = some ([.node BARE_KEY [.token BARE_KEY x.text]], [])

/-- The token of a key. -/
def KeyTok : AstKey → VTok → Prop
  | .bare t, x => x.text = t ∧ ReadsBare x
  | .basic t, x => x.kind = BASIC_STRING ∧ x.text = t
  | .literal t, x => x.kind = LITERAL_STRING ∧ x.text = t

/-- The tokens of dotted keys. -/
def KeysW : List AstKey → View → Prop
  | [], _ => False
  | [k], w => ∃ x, w = [x] ∧ KeyTok k x
  | k :: ks, w => ∃ x y w', w = x :: y :: w' ∧ KeyTok k x ∧ y.kind = DOT ∧ KeysW ks w'

theorem keyV_app {x : VTok} {F : List Green} (h : keyV [x] = some (F, [])) (v : View) : keyV (x :: v) = some (F, v) := by
  unfold keyV at h ⊢
  simp only at h ⊢
  split at h
  all_goals first | (cases h; done) | skip
  all_goals first | (simp only [Option.some.injEq, Prod.mk.injEq, and_true] at h ⊢; exact h) | skip
  split at h
  · simp only [Option.some.injEq, Prod.mk.injEq, and_true] at h ⊢; exact h
  · simp only [Option.some.injEq, Prod.mk.injEq, and_true] at h ⊢; exact h

theorem keyTok_read {k : AstKey} {x : VTok} (h : KeyTok k x) (v : View) :
    ∃ g, keyV (x :: v) = some ([g], v) ∧ keyOf g = some k ∧ TS_KEY_FIRST.contains x.kind = true ∧ greenText g = x.text := by
  cases k with
  | bare t =>
    obtain ⟨rfl, h⟩ := h
    refine ⟨_, keyV_app h v, by simp [keyOf, greenTexts, greenText], ?_, by simp [greenTexts, greenText]⟩
    unfold ReadsBare keyV at h
    simp only at h
    revert h
    cases x.kind <;> simp only [reduceCtorEq, false_implies] <;> intro _ <;> decide
  | basic t =>
    obtain ⟨hk, rfl⟩ := h
    refine ⟨.node BASIC_STRING [.token BASIC_STRING x.text], ?_, by simp [keyOf, tokenText], by rw [hk]; decide, by simp [greenTexts, greenText]⟩
    unfold keyV
    simp [hk]
  | literal t =>
    obtain ⟨hk, rfl⟩ := h
    refine ⟨.node LITERAL_STRING [.token LITERAL_STRING x.text], ?_, by simp [keyOf, tokenText], by rw [hk]; decide, by simp [greenTexts, greenText]⟩
    unfold keyV
    simp [hk]

theorem KeysW.first {ks : List AstKey} {w : View} (h : KeysW ks w) : ∃ x w', w = x :: w' ∧ TS_KEY_FIRST.contains x.kind = true := by
  match ks, h with
  | [k], ⟨x, e, hx⟩ =>
    obtain ⟨g, -, -, h, -⟩ := keyTok_read hx []
    exact ⟨x, [], e, h⟩
  | k :: _ :: _, ⟨x, y, w', e, hx, _⟩ =>
    obtain ⟨g, -, -, h, -⟩ := keyTok_read hx []
    exact ⟨x, _, e, h⟩

/-- The text of tokens. -/
def viewText (w : View) : Text := (w.map (·.text)).flatten

theorem keysLoopV_eq {ks : List AstKey} {w v : View} (h : KeysW ks w) (hv : hd v ≠ DOT) (n : Nat) (hn : w.length < n) :
    ∃ gs, keysLoopV n (w ++ v) = some (gs, v) ∧ gs.filterMap keyOf = ks ∧ greenTexts gs = viewText w := by
  induction ks generalizing w n with
  | nil => exact absurd h id
  | cons k ks ih =>
    obtain ⟨n, rfl⟩ : ∃ n', n = n' + 1 := ⟨n - 1, by omega⟩
    cases ks with
    | nil =>
      obtain ⟨x, rfl, hx⟩ := h
      obtain ⟨g, hg, hk, -, ht⟩ := keyTok_read hx v
      refine ⟨[g], ?_, by simp [hk], by simp [greenTexts, viewText, ht]⟩
      rw [keysLoopV]
      refine seqV_eq (A := [g]) (B := []) hg ?_
      rw [if_neg hv]
      rfl
    | cons k' ks =>
      obtain ⟨x, y, w', rfl, hx, hy, h⟩ := h
      simp only [List.length_cons] at hn
      obtain ⟨g, hg, hk, -, ht⟩ := keyTok_read hx (y :: (w' ++ v))
      obtain ⟨gs, hgs, hks, hts⟩ := ih h n (by omega)
      refine ⟨[g] ++ ([.token DOT y.text] ++ gs), ?_, by
        rw [List.singleton_append, List.singleton_append, List.filterMap_cons_some hk, List.filterMap_cons_none (by rfl), hks],
        by simp [greenTexts, greenText, hts, ht, viewText]⟩
      rw [keysLoopV]
      refine seqV_eq hg ?_
      rw [if_pos (by exact hy)]
      refine seqV_eq (tokV_eq hy _) ?_
      obtain ⟨z, w'', rfl, hz⟩ := h.first
      rw [if_pos (by exact hz)]
      exact hgs

theorem keysV_eq {ks : List AstKey} {w v : View} (h : KeysW ks w) (hv : hd v ≠ DOT) :
    ∃ gs, keysV (w ++ v) = some ([.node KEYS gs], v) ∧ gs.filterMap keyOf = ks ∧ greenTexts gs = viewText w := by
  match ks, h with
  | [k], ⟨x, e, hx⟩ =>
    subst e
    obtain ⟨g, hg, hk, -, ht⟩ := keyTok_read hx v
    refine ⟨[g], nodeV_eq ?_, by simp [hk], by simp [greenTexts, viewText, ht]⟩
    show (if hd v = DOT then _ else _) = _
    rw [if_neg hv]
    exact hg
  | k :: k' :: ks, h =>
    have h0 := h
    obtain ⟨x, y, w', rfl, hx, hy, -⟩ := h
    obtain ⟨gs, hgs, hks, hts⟩ := keysLoopV_eq h0 hv ((x :: y :: w' ++ v).length + 1) (by simp; omega)
    refine ⟨gs, nodeV_eq ?_, hks, hts⟩
    rw [if_pos (by exact hy)]
    exact hgs

/-! ### key-value pairs -/

theorem itemRd_pair {G : Gram} (hG : G.item = .keyValue ∧ G.first = TS_KEY_FIRST) {d : Nat} {cs : List Text} {u kw wv : View}
    {ks : List AstKey} {e : VTok} {n : Node} (hu : LeadW cs u) (hk : KeysW ks kw) (he : e.kind = EQUAL)
    (hv : ItemRd gArr d wv n) (hn : isLead (hd wv) = false) (hnp : n.isPair = false) :
    ItemRd G d (u ++ (kw ++ e :: wv)) (.pair cs ks (viewText kw) n) := by
  obtain ⟨x, kw', hkw, hx⟩ := hk.first
  have hxl : isLead x.kind = false := by revert hx; cases x.kind <;> decide
  have hed : ∀ v : View, hd (e :: v) ≠ DOT := fun v => by show e.kind ≠ _; rw [he]; decide
  refine ⟨⟨cs, u, x, kw' ++ e :: wv, by rw [hkw]; simp, hu, by rw [hG.2]; exact hx⟩, fun p rest hp hr => ?_⟩
  obtain ⟨g, ⟨m0, hrun⟩, hik, hno⟩ := hv.run [] rest (fun x hx => by cases hx) hr
  rw [List.nil_append] at hrun
  have hlead : Lead (p ++ u) := hp.lead hu.lead
  obtain ⟨gs, hgs, hks, hts⟩ := keysV_eq hk (hed (wv ++ rest))
  refine ⟨.node KEY_VALUE ((p ++ u).map leaf ++ ([.node KEYS gs] ++ ([.token EQUAL e.text] ++ ([g] ++ trailLeaf none)))), ?_, rfl, ?_⟩
  · rw [hG.1]
    refine Runs.intro m0 fun m hm => ?_
    show keyValueV _ d _ = _
    have e1 : p ++ (u ++ (kw ++ e :: wv)) ++ rest = (p ++ u) ++ (kw ++ e :: (wv ++ rest)) := by simp
    rw [e1]
    refine nodeV_eq (seqV_eq (leadV_eq hlead ?_) (seqV_eq hgs (seqV_eq (tokV_eq he _) (seqV_eq ?_ (trailV_eq (w := []) rfl hr)))))
    · rw [hkw]; exact hxl
    · obtain ⟨cs', u', y, wv', hwv, hu', hy⟩ := hv.start
      have hhd : hd (wv ++ rest) = hd wv := by rw [hwv]; cases u' <;> rfl
      have hne := hv.hd_ne gArr_ok rest
      rw [if_neg, if_neg]
      · exact hrun m hm
      · rw [hhd]; intro h; rw [h] at hn; cases hn
      · intro h
        rcases lineEnd_iff h with h | h
        · exact hne.1 h
        · exact hne.2 h
  · rw [nodeOf]
    simp only [trailLeaf, List.cons_append, List.nil_append]
    rw [keysNode_lead, valueOf_lead hlead, hlead.leadingOf (by rfl), hp.cmts, hu.cmts]
    have hvk : isValueKind (kindOf g) = true := by
      simp only [isItemKind, Bool.or_eq_true, beq_iff_eq] at hik
      rcases hik with h | h
      · exact h
      · exfalso
        obtain ⟨k, cs, rfl⟩ := item_node hno
        have h : k = KEY_VALUE := h
        subst h
        rw [nodeOf] at hno
        split at hno
        · cases hno; cases hnp
        · cases hno
    rw [valueOf, if_pos hvk, hno]
    simp only [hks, hts]

/-! ### arrays and inline tables -/

theorem itemRd_array {d : Nat} (hd' : d < maxRecursionDepth) {cs : List Text} {u ws wb wt : View} {o e : VTok}
    {s tr : Option Text} {b : Body} (hu : LeadW cs u) (ho : o.kind = BRACKET_START) (hs : TrailW s ws)
    (hb : ∀ rest, hd (wb ++ e :: rest) ≠ COMMENT ∧ ∃ k, LoopRd gArr (d + 1) (wb ++ e :: rest) 0 b k (e :: rest))
    (he : e.kind = BRACKET_END) (ht : TrailW tr wt) :
    ItemRd gArr d (u ++ o :: (ws ++ (wb ++ e :: wt))) (.array cs s b tr) := by
  have hol : isLead o.kind = false := by rw [ho]; decide
  refine ⟨⟨cs, u, o, _, rfl, hu, by show TS_VALUE_FIRST.contains o.kind = true; rw [ho]; decide⟩, fun p rest hp hr => ?_⟩
  have hlead : Lead (p ++ u) := hp.lead hu.lead
  obtain ⟨hcm, k, F, ⟨m0, hrun⟩, hin, hbody, -, -⟩ := hb (wt ++ rest)
  have e1 : p ++ (u ++ o :: (ws ++ (wb ++ e :: wt))) ++ rest = (p ++ u) ++ o :: (ws ++ (wb ++ e :: (wt ++ rest))) := by simp
  have hpk : hd (View.peek (p ++ (u ++ o :: (ws ++ (wb ++ e :: wt))) ++ rest)) = BRACKET_START := by
    rw [e1, List.append_assoc, hp.peek, hu.peek (by exact hol)]
    exact ho
  refine ⟨.node ARRAY ((p ++ u).map leaf ++ ([.token BRACKET_START o.text] ++ (trailLeaf s ++ (F ++
    ([.token BRACKET_END e.text] ++ trailLeaf tr))))), ?_, rfl, ?_⟩
  · refine Runs.intro (m0 + 1) fun m hm => ?_
    show valueV _ d _ = _
    unfold valueV
    rw [hpk, if_neg (by decide), if_pos rfl, e1]
    unfold nestedV
    rw [if_neg (by omega)]
    obtain ⟨m', rfl⟩ : ∃ m', m = m' + 1 := ⟨m - 1, by omega⟩
    show arrayV (parseV m') (d + 1) _ = _
    exact nodeV_eq (seqV_eq (leadV_eq hlead (by exact hol)) (seqV_eq (tokV_eq ho _) (seqV_eq (trailV_eq hs hcm)
      (seqV_eq (hrun m' (by omega)) (seqV_eq (tokV_eq he _) (trailV_eq ht hr))))))
  · rw [nodeOf]
    have a1 := hlead.leadingOf (g := .token BRACKET_START o.text) rfl
      (trailLeaf s ++ (F ++ ([.token BRACKET_END e.text] ++ trailLeaf tr)))
    have a2 := trailingAfter_open BRACKET_START rfl hlead o.text s
      (hin.head (k := BRACKET_END) (by decide) e.text (trailLeaf tr))
    have a3 := bodyOf_open BRACKET_START VALUE_WITH_COMMA_GROUP rfl (by decide) hlead 0 o.text s
      (F ++ ([.token BRACKET_END e.text] ++ trailLeaf tr))
    have a4 := hbody BRACKET_START ([.token BRACKET_END e.text] ++ trailLeaf tr) (by
      intro s br
      refine bodyOf_tokens _ _ _ _ fun x hx => ?_
      rcases List.mem_append.mp hx with hx | hx
      · exact ⟨_, _, by simpa using hx⟩
      · exact trailLeaf_tokens tr x hx)
    have a4 : bodyOf BRACKET_START VALUE_WITH_COMMA_GROUP true 0 (F ++ ([.token BRACKET_END e.text] ++ trailLeaf tr)) = b := a4
    have a5 : (p ++ u).map leaf ++ ([.token BRACKET_START o.text] ++ (trailLeaf s ++ (F ++ ([.token BRACKET_END e.text] ++ trailLeaf tr)))) =
      ((p ++ u).map leaf ++ .token BRACKET_START o.text :: (trailLeaf s ++ F)) ++ .token BRACKET_END e.text :: trailLeaf tr := by simp
    rw [a4] at a3
    simp only [List.singleton_append] at a1 a2 a3 a5 ⊢
    rw [a1, a2, a3, a5, trailingOf_trail _ (by decide), hp.cmts, hu.cmts]

theorem itemRd_table {d : Nat} (hd' : d < maxRecursionDepth) {cs : List Text} {u ws wb wt : View} {o e : VTok}
    {s tr : Option Text} {b : Body} (hu : LeadW cs u) (ho : o.kind = BRACE_START) (hs : TrailW s ws)
    (hb : ∀ rest, hd (wb ++ e :: rest) ≠ COMMENT ∧ ∃ k, LoopRd gInl (d + 1) (wb ++ e :: rest) 0 b k (e :: rest))
    (he : e.kind = BRACE_END) (ht : TrailW tr wt) :
    ItemRd gArr d (u ++ o :: (ws ++ (wb ++ e :: wt))) (.table cs s b tr) := by
  have hol : isLead o.kind = false := by rw [ho]; decide
  refine ⟨⟨cs, u, o, _, rfl, hu, by show TS_VALUE_FIRST.contains o.kind = true; rw [ho]; decide⟩, fun p rest hp hr => ?_⟩
  have hlead : Lead (p ++ u) := hp.lead hu.lead
  obtain ⟨hcm, k, F, ⟨m0, hrun⟩, hin, hbody, -, -⟩ := hb (wt ++ rest)
  have e1 : p ++ (u ++ o :: (ws ++ (wb ++ e :: wt))) ++ rest = (p ++ u) ++ o :: (ws ++ (wb ++ e :: (wt ++ rest))) := by simp
  have hpk : hd (View.peek (p ++ (u ++ o :: (ws ++ (wb ++ e :: wt))) ++ rest)) = BRACE_START := by
    rw [e1, List.append_assoc, hp.peek, hu.peek (by exact hol)]
    exact ho
  refine ⟨.node INLINE_TABLE ((p ++ u).map leaf ++ ([.token BRACE_START o.text] ++ (trailLeaf s ++ (F ++
    ([.token BRACE_END e.text] ++ trailLeaf tr))))), ?_, rfl, ?_⟩
  · refine Runs.intro (m0 + 1) fun m hm => ?_
    show valueV _ d _ = _
    unfold valueV
    rw [hpk, if_neg (by decide), if_neg (by decide), if_pos rfl, e1]
    unfold nestedV
    rw [if_neg (by omega)]
    obtain ⟨m', rfl⟩ : ∃ m', m = m' + 1 := ⟨m - 1, by omega⟩
    show inlineTableV (parseV m') (d + 1) _ = _
    exact nodeV_eq (seqV_eq (leadV_eq hlead (by exact hol)) (seqV_eq (tokV_eq ho _) (seqV_eq (trailV_eq hs hcm)
      (seqV_eq (hrun m' (by omega)) (seqV_eq (tokV_eq he _) (trailV_eq ht hr))))))
  · rw [nodeOf]
    have a1 := hlead.leadingOf (g := .token BRACE_START o.text) rfl
      (trailLeaf s ++ (F ++ ([.token BRACE_END e.text] ++ trailLeaf tr)))
    have a2 := trailingAfter_open BRACE_START rfl hlead o.text s
      (hin.head (k := BRACE_END) (by decide) e.text (trailLeaf tr))
    have a3 := bodyOf_open BRACE_START KEY_VALUE_WITH_COMMA_GROUP rfl (by decide) hlead 0 o.text s
      (F ++ ([.token BRACE_END e.text] ++ trailLeaf tr))
    have a4 := hbody BRACE_START ([.token BRACE_END e.text] ++ trailLeaf tr) (by
      intro s br
      refine bodyOf_tokens _ _ _ _ fun x hx => ?_
      rcases List.mem_append.mp hx with hx | hx
      · exact ⟨_, _, by simpa using hx⟩
      · exact trailLeaf_tokens tr x hx)
    have a4 : bodyOf BRACE_START KEY_VALUE_WITH_COMMA_GROUP true 0 (F ++ ([.token BRACE_END e.text] ++ trailLeaf tr)) = b := a4
    have a5 : (p ++ u).map leaf ++ ([.token BRACE_START o.text] ++ (trailLeaf s ++ (F ++ ([.token BRACE_END e.text] ++ trailLeaf tr)))) =
      ((p ++ u).map leaf ++ .token BRACE_START o.text :: (trailLeaf s ++ F)) ++ .token BRACE_END e.text :: trailLeaf tr := by simp
    rw [a4] at a3
    simp only [List.singleton_append] at a1 a2 a3 a5 ⊢
    rw [a1, a2, a3, a5, trailingOf_trail _ (by decide), hp.cmts, hu.cmts]

/-! ### sections -/

theorem sectionOf_eq (arr : Bool) {u : View} (hu : Lead u) (ks : List Green) (tr : Option Text) {A : List Green} {b : Body}
    (hi : Inner KEY_VALUE_GROUP A) (hst : A = [] ∨ ∃ t A', A = .token LINE_BREAK t :: A')
    (hb : ∀ s, bodyOf s KEY_VALUE_GROUP true 0 A = b) (to tc : Text) (br : Nat) :
    sectionOf br (.node (if arr then ARRAY_OF_TABLE else TABLE)
      (u.map leaf ++ .token (if arr then DOUBLE_BRACKET_START else BRACKET_START) to ::
        .node KEYS ks :: .token (if arr then DOUBLE_BRACKET_END else BRACKET_END) tc :: (trailLeaf tr ++ A))) =
      some ⟨arr, blankOf br, cmts u, ks.filterMap keyOf, tr, b⟩ := by
  have hAhead : ∀ x, A.head? = some x → ∀ c, x ≠ .token COMMENT c ∧ x ≠ .token WHITESPACE c := by
    intro x hx c
    cases A with
    | nil => cases hx
    | cons g A =>
      cases hx
      rcases hi x (by simp) with ⟨t, rfl⟩ | ⟨cs, rfl⟩ | ⟨cs, rfl⟩ <;> exact ⟨by simp, by simp⟩
  have hdropA : ∀ p : Green → Bool, (∀ t, p (.token LINE_BREAK t) = false) → A.dropWhile p = A := by
    intro p hp
    rcases hst with rfl | ⟨t, A', rfl⟩
    · rfl
    · rw [List.dropWhile_cons_of_neg (by simp [hp])]
  have hkn : ∀ (k : SyntaxKind) t rest, keysNode (u.map leaf ++ .token k t :: .node KEYS ks :: rest) = some ks := by
    intro k t rest
    unfold keysNode
    clear hb hi hst hAhead hdropA
    induction u with
    | nil => rfl
    | cons x u ih => exact ih ⟨fun y hy => hu.lead y (by simp [hy])⟩
  have hpre : ∀ (k e : SyntaxKind) (t : Text), isLead e = false → k ≠ e → e ≠ KEYS →
      ∀ x ∈ u.map leaf ++ [.token k t, .node KEYS ks], kindOf x ≠ e := by
    intro k e t he hke hek x hx
    rcases List.mem_append.mp hx with hx | hx
    · exact leaf_kind_ne hu he x hx
    · simp only [List.mem_cons, List.not_mem_nil, or_false] at hx
      rcases hx with rfl | rfl
      · exact hke
      · exact fun h => hek h.symm
  have htrail : ∀ (k e : SyntaxKind) (t t' : Text), isLead e = false → k ≠ e → e ≠ KEYS → k ≠ EOF →
      trailingAfter e (u.map leaf ++ .token k t :: .node KEYS ks :: .token e t' :: (trailLeaf tr ++ A)) = tr := by
    intro k e t t' he hke hek hkE
    unfold trailingAfter
    have e1 : u.map leaf ++ .token k t :: .node KEYS ks :: .token e t' :: (trailLeaf tr ++ A) =
        (u.map leaf ++ [.token k t, .node KEYS ks]) ++ .token e t' :: (trailLeaf tr ++ A) := by simp
    rw [e1, dropTo _ _ (by simp [kindOf]), List.drop_succ_cons, List.drop_zero]
    · cases tr with
      | some c => rfl
      | none =>
        rw [trailLeaf, List.nil_append]
        cases A with
        | nil => rfl
        | cons x rest => exact commentAfter_other (fun c => (hAhead x rfl c).1) (fun c => (hAhead x rfl c).2)
    · intro x hx
      have h1 := hpre k e t he hke hek x hx
      have h2 := hpre k EOF t (by decide) hkE (by decide) x hx
      simp [h1, h2]
  have hbody : ∀ (k e : SyntaxKind) (t t' : Text), isLead e = false → k ≠ e → e ≠ KEYS → e ≠ DANGLING_COMMENT_GROUP →
      sectionBody e (u.map leaf ++ .token k t :: .node KEYS ks :: .token e t' :: (trailLeaf tr ++ A)) = b := by
    intro k e t t' he hke hek hed
    unfold sectionBody
    have e1 : u.map leaf ++ .token k t :: .node KEYS ks :: .token e t' :: (trailLeaf tr ++ A) =
        (u.map leaf ++ [.token k t, .node KEYS ks]) ++ .token e t' :: (trailLeaf tr ++ A) := by simp
    have helb : e ≠ LINE_BREAK := by rintro rfl; cases he
    simp only []
    rw [e1, dropTo _ _ (by simp [kindOf])]
    · rw [List.dropWhile_cons_of_pos (by simp [kindOf, helb, hed])]
      have e2 : (trailLeaf tr ++ A).dropWhile (fun g => kindOf g != LINE_BREAK &&
          !(e == BRACKET_END && kindOf g == DANGLING_COMMENT_GROUP)) = A := by
        cases tr with
        | none => exact hdropA _ (by simp [kindOf])
        | some c =>
          rw [trailLeaf, List.singleton_append, List.dropWhile_cons_of_pos (by simp [kindOf])]
          exact hdropA _ (by simp [kindOf])
      rw [e2, rootBody_eq ROOT, hb]
    · intro x hx
      simp [hpre k e t he hke hek x hx]
  cases arr
  · simp only [Bool.false_eq_true, if_false, sectionOf, hkn]
    rw [htrail _ _ _ _ (by decide) (by decide) (by decide) (by decide), hbody _ _ _ _ (by decide) (by decide) (by decide) (by decide),
      hu.leadingOf (by rfl)]
    rfl
  · simp only [if_true, sectionOf, hkn]
    rw [htrail _ _ _ _ (by decide) (by decide) (by decide) (by decide), hbody _ _ _ _ (by decide) (by decide) (by decide) (by decide),
      hu.leadingOf (by rfl)]
    rfl

/-- The tokens of an opening or closing bracket of a header. -/
def HeadW (arr : Bool) (k : SyntaxKind) (w : View) : Prop :=
  if arr then ∃ x y, w = [x, y] ∧ x.kind = k ∧ y.kind = k ∧ x.joint = true else ∃ x, w = [x] ∧ x.kind = k

/-- The headers with their bodies. -/
def RootRd (v : View) (ss : List Section) : Prop :=
  ∃ F v', Runs .rootLoop 0 v F v' ∧ (∀ br, sectionsOf br F = withBlank (blankOf br) ss) ∧
    ∀ g ∈ F, (∃ t, g = .token LINE_BREAK t) ∨ ∃ k cs, g = .node k cs ∧ (k = TABLE ∨ k = ARRAY_OF_TABLE)

theorem root_end {v : View} (h : hd v = EOF) : RootRd v [] := by
  have hb : hd v ≠ LINE_BREAK := by rw [h]; decide
  refine ⟨[], v, Runs.intro 0 fun m _ => ?_, fun _ => rfl, fun g hg => by cases hg⟩
  show rootLoopV _ 0 v = _
  unfold rootLoopV
  refine seqV_eq (A := []) (B := []) (v1 := v) ?_ ?_
  · rw [breaksV_eq, lbLeaves_nil hb, (lbs_of_hd hb).2]
  · rw [peek_self hb (by rw [h]; decide), if_pos h]
    rfl

theorem root_section {arr : Bool} {cs : List Text} {u ow kw cw wt v v1 : View} {ks : List AstKey} {tr : Option Text} {b : Body}
    {k : Nat} {ss : List Section} (hu : LeadW cs u) (ho : HeadW arr BRACKET_START ow) (hk : KeysW ks kw)
    (hc : HeadW arr BRACKET_END cw) (ht : TrailW tr wt) (hl : TS_LINE_END.contains (hd v) = true)
    (hb : LoopRd gSec 0 v 0 b k v1) (hss : RootRd v1 ss) :
    RootRd (u ++ (ow ++ (kw ++ (cw ++ (wt ++ v))))) (⟨arr, 0, cs, ks, tr, b⟩ :: withBlank 0 ss) := by
  obtain ⟨F, ⟨m1, hrun⟩, hin, hbody, -, hst⟩ := hb
  obtain ⟨F2, v2, ⟨m2, hrun2⟩, hsec, hnodes⟩ := hss
  obtain ⟨x, kw', hkw, hx⟩ := hk.first
  have hxb : x.kind ≠ BRACKET_START := by intro h; rw [h] at hx; exact absurd hx (by decide)
  have hvc : hd v ≠ COMMENT := by rcases lineEnd_iff hl with h | h <;> rw [h] <;> decide
  have hst' : F = [] ∨ ∃ t A', F = .token LINE_BREAK t :: A' := by
    rcases lineEnd_iff hl with h | h
    · exact .inr (hst.1 h)
    · exact .inl (hst.2 h)
  have hb' : ∀ s, bodyOf s KEY_VALUE_GROUP true 0 F = b := by
    intro s
    have := hbody s [] (fun s br => by rw [bodyOf])
    rwa [List.append_nil] at this
  have hoh : ∀ w, hd (ow ++ w) = BRACKET_START := by
    intro w
    unfold HeadW at ho
    split at ho
    · obtain ⟨y, z, rfl, h, -⟩ := ho; exact h
    · obtain ⟨y, rfl, h⟩ := ho; exact h
  have hch : ∀ w, hd (cw ++ w) ≠ DOT := by
    intro w
    unfold HeadW at hc
    split at hc
    · obtain ⟨y, z, rfl, h, -⟩ := hc; show y.kind ≠ _; rw [h]; decide
    · obtain ⟨y, rfl, h⟩ := hc; show y.kind ≠ _; rw [h]; decide
  have hol : ∀ w, isLead (hd (ow ++ w)) = false := fun w => by rw [hoh]; decide
  obtain ⟨gs, hgs, hks, -⟩ := keysV_eq hk (hch (wt ++ v))
  have hpk : View.peek (u ++ (ow ++ (kw ++ (cw ++ (wt ++ v))))) = ow ++ (kw ++ (cw ++ (wt ++ v))) := hu.peek (hol _)
  have hne : hd (u ++ (ow ++ (kw ++ (cw ++ (wt ++ v))))) ≠ LINE_BREAK := hu.hd_ne (by rw [hoh]; decide)
  have hle : lineEndV v = some ([], v) := by unfold lineEndV; rw [if_pos hl]; rfl
  have htv := trailV_eq ht hvc
  have key : ∃ to tc m0, ∀ m, m0 ≤ m → parseV m (if arr then .arrayOfTable else .table) 0 (u ++ (ow ++ (kw ++ (cw ++ (wt ++ v))))) =
      some ([.node (if arr then ARRAY_OF_TABLE else TABLE)
        (u.map leaf ++ .token (if arr then DOUBLE_BRACKET_START else BRACKET_START) to ::
        .node KEYS gs :: .token (if arr then DOUBLE_BRACKET_END else BRACKET_END) tc :: (trailLeaf tr ++ F))], v1) := by
    cases arr with
    | false =>
      obtain ⟨o, rfl, hok⟩ := ho
      obtain ⟨c, rfl, hck⟩ := hc
      refine ⟨o.text, c.text, m1 + 1, fun m hm => ?_⟩
      obtain ⟨m', rfl⟩ : ∃ m', m = m' + 1 := ⟨m - 1, by omega⟩
      show tableV (parseV m') 0 _ = _
      have := nodeV_eq (k := TABLE) (seqV_eq (leadV_eq hu.lead (hol (kw ++ ([c] ++ (wt ++ v))))) (seqV_eq (tokV_eq hok _) (seqV_eq hgs
        (seqV_eq (tokV_eq hck _) (seqV_eq htv (seqV_eq hle (hrun m' (by omega))))))))
      exact this
    | true =>
      obtain ⟨o, o', rfl, hok, hok', hoj⟩ := ho
      obtain ⟨c, c', rfl, hck, hck', hcj⟩ := hc
      refine ⟨o.text ++ o'.text, c.text ++ c'.text, m1 + 1, fun m hm => ?_⟩
      obtain ⟨m', rfl⟩ : ∃ m', m = m' + 1 := ⟨m - 1, by omega⟩
      show arrayOfTableV (parseV m') 0 _ = _
      have e1 : pairV BRACKET_START DOUBLE_BRACKET_START ([o, o'] ++ (kw ++ ([c, c'] ++ (wt ++ v)))) =
          some ([.token DOUBLE_BRACKET_START (o.text ++ o'.text)], kw ++ ([c, c'] ++ (wt ++ v))) := by
        unfold pairV
        simp only [List.cons_append, List.nil_append]
        rw [if_pos (by simp [atPair, hok, hok', hoj])]
      have e2 : pairV BRACKET_END DOUBLE_BRACKET_END ([c, c'] ++ (wt ++ v)) =
          some ([.token DOUBLE_BRACKET_END (c.text ++ c'.text)], wt ++ v) := by
        unfold pairV
        simp only [List.cons_append, List.nil_append]
        rw [if_pos (by simp [atPair, hck, hck', hcj])]
      have := nodeV_eq (k := ARRAY_OF_TABLE) (seqV_eq (leadV_eq hu.lead (hol (kw ++ ([c, c'] ++ (wt ++ v))))) (seqV_eq e1 (seqV_eq hgs
        (seqV_eq e2 (seqV_eq htv (seqV_eq hle (hrun m' (by omega))))))))
      exact this
  obtain ⟨to, tc, m3, key⟩ := key
  refine ⟨.node (if arr then ARRAY_OF_TABLE else TABLE)
        (u.map leaf ++ .token (if arr then DOUBLE_BRACKET_START else BRACKET_START) to ::
        .node KEYS gs :: .token (if arr then DOUBLE_BRACKET_END else BRACKET_END) tc :: (trailLeaf tr ++ F)) :: F2,
    v2, Runs.intro (max m2 m3) fun m hm => ?_, ?_, ?_⟩
  rotate_left
  · intro br
    rw [sectionsOf, sectionOf_eq arr hu.lead gs tr hin hst' hb' to tc br]
    simp only [withBlank]
    rw [nextBreaks_node, hsec, hu.cmts, hks]
    rfl
  · intro g hg
    rcases List.mem_cons.mp hg with rfl | hg
    · refine .inr ⟨_, _, rfl, ?_⟩
      cases arr
      · exact .inl rfl
      · exact .inr rfl
    · exact hnodes g hg
  · show rootLoopV _ 0 _ = _
    unfold rootLoopV
    refine seqV_eq (A := []) (B := _ :: F2) (v1 := u ++ (ow ++ (kw ++ (cw ++ (wt ++ v))))) ?_ ?_
    · rw [breaksV_eq, lbLeaves_nil hne, (lbs_of_hd hne).2]
    · rw [hpk, hoh, if_neg (by decide)]
      have key := key m (by omega)
      cases arr with
      | false =>
        obtain ⟨o, rfl, hok⟩ := ho
        have : atPair BRACKET_START ([o] ++ (kw ++ (cw ++ (wt ++ v)))) = false := by
          rw [hkw]
          simp [atPair, hxb]
        rw [this, if_neg (by decide), if_pos rfl]
        exact seqV_eq key (hrun2 m (by omega))
      | true =>
        obtain ⟨o, o', rfl, hok, hok', hoj⟩ := ho
        have : atPair BRACKET_START ([o, o'] ++ (kw ++ (cw ++ (wt ++ v)))) = true := by
          simp [atPair, hok, hok', hoj]
        rw [this, if_pos rfl]
        exact seqV_eq key (hrun2 m (by omega))

theorem root_doc {v v1 : View} {b : Body} {k : Nat} {ss : List Section} (hb : LoopRd gSec 0 v 0 b k v1) (hss : RootRd v1 ss) :
    ∃ cs v' m0, (∀ m, m0 ≤ m → rootV m v = some ([.node ROOT cs], v')) ∧
      docOf (.node ROOT cs) = ⟨b, withBlank (blankOf k) ss⟩ := by
  obtain ⟨F, ⟨m1, hrun⟩, hin, hbody, hk, -⟩ := hb
  obtain ⟨F2, v2, ⟨m2, hrun2⟩, hsec, hnodes⟩ := hss
  refine ⟨F ++ F2, v2, max m1 m2, fun m hm => nodeV_eq (seqV_eq (hrun m (by omega)) (hrun2 m (by omega))), ?_⟩
  have hB : ∀ (br : Nat) (l : List Green),
      (∀ g ∈ l, (∃ t, g = .token LINE_BREAK t) ∨ ∃ k cs, g = .node k cs ∧ (k = TABLE ∨ k = ARRAY_OF_TABLE)) →
      rootBody br l = .nil := by
    intro br l hl
    induction l generalizing br with
    | nil => rfl
    | cons g l ih =>
      have ih := fun br => ih br fun x hx => hl x (by simp [hx])
      rcases hl g (by simp) with ⟨t, rfl⟩ | ⟨k, cs, rfl, hk⟩
      · rw [rootBody]; exact ih _
      · rw [rootBody, if_neg (by rintro rfl; rcases hk with h | h <;> cases h), if_neg (by rintro rfl; rcases hk with h | h <;> cases h)]
        exact ih _
  have hs : ∀ (br : Nat) (l : List Green), Inner KEY_VALUE_GROUP l →
      sectionsOf br (l ++ F2) = sectionsOf (l.foldl nextBreaks br) F2 := by
    intro br l hl
    induction l generalizing br with
    | nil => rfl
    | cons g l ih =>
      have ih := fun br => ih br fun x hx => hl x (by simp [hx])
      rw [List.cons_append, sectionsOf]
      have : sectionOf br g = none := by
        rcases hl g (by simp) with ⟨t, rfl⟩ | ⟨cs, rfl⟩ | ⟨cs, rfl⟩ <;> rfl
      rw [this]
      exact ih _
  have h1 : rootBody 0 (F ++ F2) = b := by
    rw [rootBody_eq ROOT]
    exact hbody ROOT F2 fun s br => by
      have := hB br F2 hnodes
      rwa [rootBody_eq s] at this
  simp only [docOf, childrenOf, h1]
  rw [hs 0 F hin, hk, hsec]

end Tombi.Formatter
